import Mathlib.Data.BitVec
import Mathlib.Data.Nat.Size
import Mathlib.Data.Nat.Basic

/-!
# Model of `lib/Utils/APIntUtils.{h,cpp}` and `lib/Utils/MathUtils.{h,cpp}`

`APInt` of width `w` is `BitVec w`.  Where a C++ precondition (an `assert`, division by zero)
fails the outcome is `none`.
-/

namespace Heir.NumTheory

variable {w : Nat}

/-! ## `multiplicativeInverse` -/

set_option linter.unusedVariables false

/-- The loop of `multiplicativeInverse`, `lib/Utils/APIntUtils.cpp:39-47`.  The pair of slots
`r[i], r[i^1]` is kept in order, i.e. swapped instead of flipping `i`: `rA = r[i]`,
`rB = r[i^1]`, and likewise for `t`. -/
def invLoop (rA rB tA tB : BitVec w) : BitVec w × BitVec w :=
  if h : rB = 0#w then (rA, tA)
  else
    let q := rA / rB
    invLoop rB (rA % rB) tB (tA - tB * q)
termination_by rB.toNat
decreasing_by
  rw [BitVec.toNat_umod]
  apply Nat.mod_lt
  rcases Nat.eq_zero_or_pos rB.toNat with h0 | h0
  · exact absurd (BitVec.eq_of_toNat_eq (by simpa using h0)) h
  · exact h0

/-- `multiplicativeInverse`, `lib/Utils/APIntUtils.cpp:24-62`; `none` when the assertion
`x.ult(modulo)` fails. -/
def multiplicativeInverse (x m : BitVec w) : Option (BitVec w) :=
  if x.ult m then
    let (r, t) := invLoop m x 0#w 1#w
    if r ≠ 1#w then some 0#w
    else if t.msb then some (t + m) else some t
  else none

/-! ## modular multiplication and exponentiation -/

/-- `modularMultiplication`, `lib/Utils/APIntUtils.h:14-21` (`urem` by zero undefined). -/
def modMul (a b m : BitVec w) : Option (BitVec w) :=
  if m = 0#w then none
  else some (((a.setWidth (w * 2) * b.setWidth (w * 2)).umod (m.setWidth (w * 2))).setWidth w)

/-- The loop of `modularExponentiation`, `lib/Utils/APIntUtils.cpp:70-76`. -/
def modExpLoop {we : Nat} (m res b : BitVec w) (e : BitVec we) : Option (BitVec w) :=
  if h : e = 0#we then some res
  else do
    let res' ← if e.getLsbD 0 then modMul res b m else some res
    let b' ← modMul b b m
    modExpLoop m res' b' (e >>> 1)
termination_by e.toNat
decreasing_by
  rw [BitVec.toNat_ushiftRight, Nat.shiftRight_eq_div_pow]
  have : 0 < e.toNat := by
    rcases Nat.eq_zero_or_pos e.toNat with h0 | h0
    · exact absurd (BitVec.eq_of_toNat_eq (by simpa using h0)) h
    · exact h0
  omega

/-- `modularExponentiation`, `lib/Utils/APIntUtils.cpp:64-78`. -/
def modExp {we : Nat} (base : BitVec w) (e : BitVec we) (m : BitVec w) : Option (BitVec w) :=
  if m = 0#w then none else modExpLoop m 1#w (base.umod m) e

/-! ## primality -/

/-- Number of trailing zero bits (`APInt::countTrailingZeros`) of a nonzero natural. -/
def ctz (n : Nat) : Nat :=
  if h : n = 0 then 0 else if n % 2 = 1 then 0 else ctz (n / 2) + 1
termination_by n

/-- The inner squaring loop of `isPrime`, `lib/Utils/APIntUtils.cpp:102-108`, with `k`
iterations left; returns `composite`. -/
def squareLoop (n x : BitVec w) : Nat → Option Bool
  | 0 => some true
  | k + 1 => do
    let x' ← modMul x x n
    if x' = n - 1#w then some false else squareLoop n x' k

/-- The base loop of `isPrime`, `lib/Utils/APIntUtils.cpp:97-110`. -/
def basesLoop (n d : BitVec w) (s : Nat) : List Nat → Option Bool
  | [] => some true
  | a :: as =>
    if n.toNat ≤ a then some true
    else do
      let x ← modExp (BitVec.ofNat w a) d n
      if x = 1#w ∨ x = n - 1#w then basesLoop n d s as
      else do
        let composite ← squareLoop n x (s - 1)
        if composite then some false else basesLoop n d s as

/-- The bases of `isPrime`, `lib/Utils/APIntUtils.cpp:95-96`. -/
def mrBases : List Nat :=
  [2, 3, 5, 7, 11, 13, 17, 19, 23, 29, 31, 37, 41, 43, 47, 53, 59, 61, 67, 71]

/-- `isPrime`, `lib/Utils/APIntUtils.cpp:80-112`. -/
def isPrime (n : BitVec w) : Option Bool :=
  if n.toNat < 2 then some false
  else if n.toNat < 4 then some true
  else if n.getLsbD 0 = false then some false
  else
    let d := n - 1#w
    let s := ctz d.toNat
    basesLoop n (d >>> s) s mrBases

/-! ## factorization -/

/-- `while (val % d == 0) val /= d;`, `lib/Utils/APIntUtils.cpp:126-128` and `144-146`; only
entered with `2 ≤ d` and `0 < n` (otherwise returns `n`). -/
def divOut (n d : Nat) : Nat :=
  if h : 2 ≤ d ∧ 0 < n ∧ n % d = 0 then divOut (n / d) d else n
termination_by n
decreasing_by exact Nat.div_lt_self h.2.1 h.1

theorem divOut_le (n d : Nat) : divOut n d ≤ n := by
  induction n using Nat.strongRecOn with
  | _ n ih =>
    unfold divOut
    split
    · rename_i hh
      exact (ih _ (Nat.div_lt_self hh.2.1 hh.1)).trans (Nat.div_le_self _ _)
    · exact le_rfl

/-- The 64-bit fast path loop of `factorize`, `lib/Utils/APIntUtils.cpp:123-130`, on
`uint64_t` values as naturals below `2^64`; `d * d` wraps.  If `d` itself wraps around to `0`,
the next iteration evaluates `val % 0`: the `none` outcome.  Result: the factors pushed and
the final `val`. -/
def fastLoop (val d : Nat) : Option (List Nat × Nat) :=
  if h : d < 2 ^ 64 then
    if d * d % 2 ^ 64 ≤ val then
      if val % d = 0 then
        (fastLoop (divOut val d) (d + 1)).map fun r => (d :: r.1, r.2)
      else fastLoop val (d + 1)
    else some ([], val)
  else none
termination_by 2 ^ 64 - d

/-- The arbitrary-width loop of `factorize`, `lib/Utils/APIntUtils.cpp:137-149`.  The
comparison is done at twice the width so `d * d` does not wrap.  `d` stays below the width
bound as long as `d * d ≤ n`, so it is a natural here. -/
def slowLoop (n d : Nat) : List Nat × Nat :=
  if h : d * d ≤ n ∧ 2 ≤ d then
    if n % d = 0 then
      let r := slowLoop (divOut n d) (d + 1)
      (d :: r.1, r.2)
    else slowLoop n (d + 1)
  else ([], n)
termination_by n + 1 - d
decreasing_by
  · have hd : divOut n d ≤ n := divOut_le n d
    have : d ≤ d * d := Nat.le_mul_self d
    omega
  · have : d ≤ d * d := Nat.le_mul_self d
    omega

/-- `factorize`, `lib/Utils/APIntUtils.cpp:114-154`, on the unsigned value of its argument
(the factors are at most the argument, so they fit its width). -/
def factorize (n : Nat) : Option (List Nat) :=
  if n < 2 then some []
  else if n.size ≤ 64 then
    (fastLoop n 2).map fun r => if r.2 > 1 then r.1 ++ [r.2] else r.1
  else
    let r := slowLoop n 2
    some (if r.2 > 1 then r.1 ++ [r.2] else r.1)

/-! ## primitive roots -/

/-- `is_primitive` for one candidate, `lib/Utils/MathUtils.cpp:70-76`. -/
def isPrimitiveCand (q g phi : BitVec w) : List Nat → Option Bool
  | [] => some true
  | p :: ps => do
    if p % 2 ^ w = 0 then none
    let x ← modExp g (phi.udiv (BitVec.ofNat w p)) q
    if x = 1#w then some false else isPrimitiveCand q g phi ps

/-- The candidate loop of `findPrimitiveRoot`, `lib/Utils/MathUtils.cpp:68-78`.  `g` is a
`uint64_t`: after `2^64 - 1` it wraps to `0`; that case (only possible for `q > 2^64`
without a primitive root below `2^64`) is the `none` outcome. -/
def rootLoop (q phi : BitVec w) (factors : List Nat) (g : Nat) : Option (Option (BitVec w)) :=
  if h : g < q.toNat then
    if 2 ^ 64 ≤ g then none
    else
      match isPrimitiveCand q (BitVec.ofNat w g) phi factors with
      | none => none
      | some true => some (some (BitVec.ofNat w g))
      | some false => rootLoop q phi factors (g + 1)
  else some none
termination_by q.toNat - g

/-- `findPrimitiveRoot`, `lib/Utils/MathUtils.cpp:58-80`.  Outer `none`: undefined behaviour;
`some none`: `std::nullopt`. -/
def findPrimitiveRoot (q : BitVec w) : Option (Option (BitVec w)) :=
  if q.toNat ≤ 1 then some none
  else if q.getLsbD 0 = false then
    if q.toNat = 2 then some (some 1#w) else some none
  else do
    let phi := q - 1#w
    let factors ← factorize phi.toNat
    rootLoop q phi factors 2

/-- `findPrimitive2nthRoot`, `lib/Utils/MathUtils.cpp:94-107`; `n : uint64_t`.  The `APInt`
constructor asserts that `2 n` fits the width; `urem` by zero is undefined. -/
def findPrimitive2nthRoot (q : BitVec w) (n : Nat) : Option (Option (BitVec w)) :=
  let twoN := 2 * n % 2 ^ 64
  if 2 ^ w ≤ twoN ∨ twoN = 0 then none
  else
    let twoNap := BitVec.ofNat w twoN
    if q.umod twoNap ≠ 1#w then some none
    else do
      match ← findPrimitiveRoot q with
      | none => some none
      | some g => do
        let r ← modExp g ((q - 1#w).udiv twoNap) q
        some (some r)

/-! ## powers of two -/

/-- `nextPowerOfTwo`, `lib/Utils/MathUtils.h:17-28`. -/
def nextPowerOfTwo (v : BitVec 64) : BitVec 64 :=
  let v := v - 1#64
  let v := v ||| v >>> 1
  let v := v ||| v >>> 2
  let v := v ||| v >>> 4
  let v := v ||| v >>> 8
  let v := v ||| v >>> 16
  let v := v ||| v >>> 32
  v + 1#64

/-- `isPowerOfTwo`, `lib/Utils/MathUtils.h:30`, on `int64_t` (`n - 1` is only evaluated for
positive `n`, so it does not overflow). -/
def isPowerOfTwo (n : BitVec 64) : Bool := decide (0 < n.toInt) && (n &&& (n - 1#64)) == 0#64

end Heir.NumTheory
