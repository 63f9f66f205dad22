import Verif.RNS.Model

/-!
# Model of the coefficient-form polynomial lowering

`lib/Dialect/Polynomial/Conversions/PolynomialToModArith/PolynomialToModArith.cpp`:
constants, naive multiplication, and the generated polynomial-mod function (textbook long
division).  A polynomial of a ring whose modulus has degree `n` is a tensor of `n` coefficients.
The coefficient arithmetic is a parameter `Coeff`, instantiated with the lowered `mod_arith`
operations for a single modulus and for an RNS type.
-/

namespace Heir.Poly

open Heir.Arith Heir.Loop Heir.NumTheory Heir.ModArith Heir.NTT

/-- Outcome of running emitted code with a data-dependent loop. -/
inductive Run (α : Type) where
  | done (a : α)
  /-- undefined behaviour (out-of-bounds access, division by zero) -/
  | ub
  /-- the iteration budget of the model was exhausted -/
  | timeout
deriving DecidableEq, Repr

/-- The operations of a coefficient type as lowered to `arith`; `none` is undefined behaviour. -/
structure Coeff (α : Type) where
  zero : α
  add : α → α → Option α
  sub : α → α → Option α
  mul : α → α → Option α
  /-- conversion of the scalar of `mul_scalar` before it is replicated -/
  splat : α → Option α
  isZero : α → Option Bool

variable {w : Nat} {α : Type}

/-- Single-modulus coefficients.  `splat`: `mod_arith.lift standard` then `encapsulate`
(`PolynomialToModArith.cpp:500-504`, `533-537`); `isZero`: lines 721-727. -/
def modCoeff (q : BitVec w) : Coeff (BitVec w) where
  zero := 0#w
  add := lowerAdd q
  sub := lowerSub q
  mul := lowerMul q
  splat := lowerLiftStandard q
  isZero a := do
    let r ← lowerLiftStandard q a
    some (r == 0#w)

/-- Limb-wise binary operation. -/
def zipLimbs {β : Type} (f : β → α → α → Option α) : List β → List α → List α → Option (List α)
  | [], [], [] => some []
  | q :: qs, a :: as, b :: bs => do
    let r ← f q a b
    let rs ← zipLimbs f qs as bs
    some (r :: rs)
  | _, _, _ => none

/-- The zero test over the limbs, `PolynomialToModArith.cpp:706-720` (`and` of all tests, none
short-circuited). -/
def allZero : List (BitVec w) → List (BitVec w) → Option Bool
  | [], [] => some true
  | q :: qs, a :: as => do
    let r ← lowerLiftStandard q a
    let rest ← allZero qs as
    some ((r == 0#w) && rest)
  | _, _ => none

/-- RNS coefficients: the list of limbs; `mod_arith` operations act limb by limb.  The scalar is
splatted as it is, `PolynomialToModArith.cpp:478-485`. -/
def rnsCoeff (qs : List (BitVec w)) : Coeff (List (BitVec w)) where
  zero := List.replicate qs.length 0#w
  add := zipLimbs lowerAdd qs
  sub := zipLimbs lowerSub qs
  mul := zipLimbs lowerMul qs
  splat := some
  isZero := allZero qs

/-! ## Constants -/

/-- Residue of an integer coefficient, `PolynomialToModArith.cpp:374-381`, also `325-329` for
RNS: `sextOrTrunc`, `srem`, then add the modulus to a negative remainder. -/
def constResidue {wc : Nat} (q : BitVec w) (c : BitVec wc) : Option (BitVec w) :=
  if q = 0#w then none
  else
    let r := (c.signExtend w).srem q
    some (if r.msb then r + q else r)

/-- `IntegerAttr::get(ty, coeff.getSExtValue())`, `PolynomialToModArith.cpp:383`: asserts that
the value has at most 64 significant bits. -/
def viaInt64 (c : BitVec w) : Option (BitVec w) :=
  if -2 ^ 63 ≤ c.toInt ∧ c.toInt < 2 ^ 63 then some (BitVec.ofInt w c.toInt) else none

/-- Stored coefficient of a single-modulus constant. -/
def constCoeff {wc : Nat} (q : BitVec w) (c : BitVec wc) : Option (BitVec w) := do
  let r ← constResidue q c
  viaInt64 r

/-- Stored limbs of an RNS constant, `PolynomialToModArith.cpp:321-331`. -/
def constLimbs {wc : Nat} (qs : List (BitVec w)) (c : BitVec wc) : Option (List (BitVec w)) :=
  mapLimbs (fun q => constResidue q c) qs

/-- An integer polynomial: terms `(exponent, coefficient)` in increasing order of exponents
(`lib/Utils/Polynomial/Polynomial.h`). -/
abbrev Terms (wc : Nat) := List (Nat × BitVec wc)

/-- `ConvertConstant`, `PolynomialToModArith.cpp:283-404`: the tensor of `m` coefficients; an
exponent outside of the tensor writes out of bounds. -/
def constTensor {wc : Nat} (K : Coeff α) (conv : BitVec wc → Option α) (m : Nat) :
    Terms wc → Option (List α)
  | ts => ts.foldlM (fun t (e, c) => do
      let v ← conv c
      put t e v) (List.replicate m K.zero)

/-! ## Multiplication -/

/-- The naive product, `PolynomialToModArith.cpp:886-940`: `c[i+j] += a[i]*b[j]` on a tensor of
`2n - 1` zeros (`polymulOutputTensorType`, 850-856).  The `linalg.generic` declares both
dimensions parallel although they collide in the output; it is modelled as the sequential loop
nest of the code comment. -/
def polyMul (K : Coeff α) (n : Nat) (a b : List α) : Option (List α) :=
  forN n (fun i t => forN n (fun j t => do
    let x ← get a i
    let y ← get b j
    let acc ← get t (i + j)
    let p ← K.mul x y
    let s ← K.add p acc
    put t (i + j) s) t) (List.replicate (2 * n - 1) K.zero)

/-- The `scf.while` of `ConvertLeadingTerm`, `PolynomialToModArith.cpp:690-738`; the argument is
the index plus one, so `0` is the read at index `-1`. -/
def leadingLoop (K : Coeff α) (t : List α) : Nat → Option Nat
  | 0 => none
  | i + 1 => do
    let c ← get t i
    let z ← K.isZero c
    if z then leadingLoop K t i else some i

/-- `ConvertLeadingTerm`, `PolynomialToModArith.cpp:659-744`. -/
def leadingTerm (K : Coeff α) (t : List α) : Option (Nat × α) := do
  let d ← leadingLoop K t t.length
  let c ← get t d
  some (d, c)

/-- `ConvertMonicMonomialMul`, `PolynomialToModArith.cpp:561-657`: cyclic shift by `k`. -/
def cyclicShift (t : List α) (k : Nat) : Option (List α) :=
  if k ≤ t.length then some (t.drop (t.length - k) ++ t.take (t.length - k)) else none

/-- `ConvertMulScalar`, `PolynomialToModArith.cpp:451-540`. -/
def mulScalar (K : Coeff α) (t : List α) (s : α) : Option (List α) := do
  let s ← K.splat s
  mapLimbs (fun x => K.mul x s) t

/-- Elementwise subtraction (`ConvertPolyBinop`, `PolynomialToModArith.cpp:812-848`). -/
def polySub (K : Coeff α) (a b : List α) : Option (List α) :=
  zipLimbs (fun _ x y => K.sub x y) a a b

/-- The body of the division loop, `PolynomialToModArith.cpp:1222-1254`.  `n` is the degree of
the divisor, `D` its tensor in the ring `x^(2n-1) - 1`, `inv` the inverse of its leading
coefficient. -/
def modBody (K : Coeff α) (n : Nat) (D : List α) (inv : α) (rem : List α) : Option (List α) := do
  let (d, c) ← leadingTerm K rem
  let lc ← K.mul c inv
  let scaled ← mulScalar K D lc
  let inc ← cyclicShift scaled (d - n)
  polySub K rem inc

/-- The division loop, `PolynomialToModArith.cpp:1203-1255`, with an iteration budget. -/
def modLoop (K : Coeff α) (n : Nat) (D : List α) (inv : α) : Nat → List α → Run (List α)
  | 0, _ => .timeout
  | fuel + 1, rem =>
    match leadingTerm K rem with
    | none => .ub
    | some (d, _) =>
      if n ≤ d then
        match modBody K n D inv rem with
        | none => .ub
        | some rem' => modLoop K n D inv fuel rem'
      else .done rem

/-- The generated function, `PolynomialToModArith.cpp:1055-1274`: divide, keep the low `n`
coefficients. -/
def polyMod (K : Coeff α) (n : Nat) (D : List α) (inv : α) (fuel : Nat) (t : List α) : Run (List α) :=
  match modLoop K n D inv fuel t with
  | .done r => if n ≤ r.length then .done (r.take n) else .ub
  | .ub => .ub
  | .timeout => .timeout

/-- The emitted code of a coefficient-form product. -/
def polyMulMod (K : Coeff α) (n : Nat) (D : List α) (inv : α) (fuel : Nat) (a b : List α) : Run (List α) :=
  match polyMul K n a b with
  | none => .ub
  | some t => polyMod K n D inv fuel t

/-- Inverse of the leading coefficient at compile time, `PolynomialToModArith.cpp:1166-1195` with
`extendWidthsToLargest` (both zero extended).  Outer `none`: assertion; inner `none`: pass
failure. -/
def leadingInverse {wc : Nat} (q : BitVec w) (lc : BitVec wc) : Option (Option (BitVec (max wc w))) := do
  let inv ← multiplicativeInverse (lc.setWidth (max wc w)) (q.setWidth (max wc w))
  if inv = 0#_ then some none else some (some inv)

/-- Single modulus: the inverse as a constant of the coefficient type, through `getSExtValue`
(`PolynomialToModArith.cpp:1192-1194`, `getConstantCoefficient`). -/
def modInverse {wc : Nat} (q : BitVec w) (lc : BitVec wc) : Option (Option (BitVec w)) := do
  match ← leadingInverse q lc with
  | none => some none
  | some inv =>
    let v ← viaInt64 inv
    some (some (BitVec.ofInt w v.toInt))

/-- RNS: one inverse per limb, `PolynomialToModArith.cpp:1168-1188`. -/
def rnsInverse {wc : Nat} (qs : List (BitVec w)) (lc : BitVec wc) : Option (Option (List (BitVec w))) :=
  mapLimbsOpt (fun q => do
    match ← leadingInverse q lc with
    | none => some none
    | some inv => some (some (inv.setWidth w))) qs

/-- Degree and leading coefficient of the ring modulus: its last term. -/
def leadingOf {wc : Nat} (ts : Terms wc) : Option (Nat × BitVec wc) := ts.getLast?

/-- Lowered `polynomial.mul` over a single modulus.  Outer `none`: assertion or out-of-bounds
access while compiling; inner `none`: the pass fails. -/
def lowerPolyMul {wc : Nat} (q : BitVec w) (ts : Terms wc) (fuel : Nat) (a b : List (BitVec w)) :
    Option (Option (Run (List (BitVec w)))) := do
  let (n, lc) ← leadingOf ts
  match ← modInverse q lc with
  | none => some none
  | some inv =>
    let D ← constTensor (modCoeff q) (constCoeff q) (2 * n - 1) ts
    some (some (polyMulMod (modCoeff q) n D inv fuel a b))

/-- Lowered `polynomial.mul` over an RNS type. -/
def lowerPolyMulRNS {wc : Nat} (qs : List (BitVec w)) (ts : Terms wc) (fuel : Nat)
    (a b : List (List (BitVec w))) : Option (Option (Run (List (List (BitVec w))))) := do
  let (n, lc) ← leadingOf ts
  match ← rnsInverse qs lc with
  | none => some none
  | some inv =>
    let D ← constTensor (rnsCoeff qs) (constLimbs qs) (2 * n - 1) ts
    some (some (polyMulMod (rnsCoeff qs) n D inv fuel a b))

end Heir.Poly
