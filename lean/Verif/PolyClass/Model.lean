import Verif.Loop
import Mathlib.Algebra.Ring.Defs
import Mathlib.Data.List.Sort

/-!
# Model of the `Polynomial` classes

`lib/Utils/Polynomial/Polynomial.h`, `Polynomial.cpp`.  A polynomial is its vector of terms
`(exponent, coefficient)`.  The coefficients range over an arbitrary commutative ring: 64-bit
`APInt` is the ring of integers modulo `2^64`, and `APFloat` is idealised to exact arithmetic.
Exponents are 64-bit `APInt`s in the code and natural numbers here (`getDegree` and
`combinedDegree` further narrow them to 32 bits).  `none` is a failed assertion or an
out-of-bounds access.
-/

namespace Heir.PolyClass

open Heir.Loop

variable {R : Type} [CommRing R] [DecidableEq R]

/-- `PolynomialBase::terms`, `Polynomial.h:350`. -/
abbrev Terms (R : Type) := List (Nat × R)

/-- `canonicalize`, `Polynomial.h:176-184`. -/
def canonicalize (p : Terms R) : Terms R := p.filter fun x => x.2 ≠ 0

/-- The loop of `add`, `Polynomial.h:190-222`.  The flag is set inside of the second inner
`while` (lines 210-214), which goes on to line 217 without looking at the first iterator again;
line 217 asserts that the exponents agree (line 61). -/
def addAux (second : Bool) : Terms R → Terms R → Option (Terms R)
  | [], [] => some []
  | [], b :: q => do
    let r ← addAux false [] q
    some (b :: r)
  | a :: p, [] => do
    let r ← addAux false p []
    some (a :: r)
  | a :: p, b :: q =>
    if second = false ∧ a.1 < b.1 then do
      let r ← addAux false p (b :: q)
      some (a :: r)
    else if b.1 < a.1 then do
      let r ← addAux true (a :: p) q
      some (b :: r)
    else if a.1 = b.1 then do
      let r ← addAux false p q
      some (if a.2 + b.2 = 0 then r else (a.1, a.2 + b.2) :: r)
    else none
termination_by p q => p.length + q.length

/-- `add`, `Polynomial.h:186-224`. -/
def add (p q : Terms R) : Option (Terms R) := addAux false p q

/-- `scale`, `Polynomial.h:303-309`, `69-75`. -/
def scale (p : Terms R) (s : R) : Terms R := p.map fun x => (x.1, x.2 * s)

/-- `sub`, `Polynomial.h:375-377`, `398-400`. -/
def sub (p q : Terms R) : Option (Terms R) := add p (scale q (-1))

/-- `monomialMul` with a non-negative exponent, `Polynomial.h:292-301`. -/
def monomialMul (p : Terms R) (k : Nat) : Terms R := p.map fun x => (x.1 + k, x.2)

/-- `getDegree`, `Polynomial.h:339-341`: `terms.back()`, undefined on the zero polynomial. -/
def getDegree (p : Terms R) : Option Nat := p.getLast?.map Prod.fst

/-- Terms of a coefficient vector whose first exponent is `k`. -/
def denseFrom (k : Nat) : List R → Terms R
  | [] => []
  | c :: t => (k, c) :: denseFrom (k + 1) t

/-- The accumulation loops of `naiveMul`, `Polynomial.h:234-242`. -/
def mulLoop (p q : Terms R) (t : List R) : Option (List R) :=
  p.foldlM (fun t (x : Nat × R) =>
    q.foldlM (fun t (y : Nat × R) => do
      let c ← get t (x.1 + y.1)
      put t (x.1 + y.1) (c + x.2 * y.2)) t) t

/-- `naiveMul`, `Polynomial.h:226-246`. -/
def naiveMul (p q : Terms R) : Option (Terms R) := do
  let dp ← getDegree p
  let dq ← getDegree q
  let t ← mulLoop p q (List.replicate (dp + dq + 1) 0)
  some (canonicalize (denseFrom 0 t))

/-- `getCoeffMap`, `Polynomial.h:248-254`: `DenseMap::insert` keeps the first value. -/
def coeffAt (p : Terms R) (i : Nat) : Option R := (p.find? fun x => x.1 = i).map Prod.snd

/-- The Horner loop of `compose`, `Polynomial.h:279-286`, for the exponents `i - 1, …, 0`. -/
def composeLoop (p q : Terms R) : Nat → Terms R → Option (Terms R)
  | 0, r => some r
  | i + 1, r => do
    let r ← naiveMul r q
    match coeffAt p i with
    | some c => do
      let r ← add r [(0, c)]
      composeLoop p q i r
    | none => composeLoop p q i r

/-- `compose`, `Polynomial.h:257-290`. -/
def compose (p q : Terms R) : Option (Terms R) := do
  let l ← p.getLast?
  let r ← composeLoop p q l.1 [(0, l.2)]
  some (canonicalize r)

/-- `fromMonomialsImpl`, `Polynomial.cpp:36-52`: sort by exponent, fail on equal neighbours. -/
def fromMonomials (ms : Terms R) : Option (Terms R) :=
  let s := ms.insertionSort fun x y => x.1 ≤ y.1
  if List.IsChain (fun x y : Nat × R => x.1 ≠ y.1) s then some s else none

/-- `fromCoefficientsImpl`, `Polynomial.cpp:64-77`. -/
def fromCoefficients (cs : List R) : Option (Terms R) :=
  fromMonomials ((denseFrom 0 cs).filter fun x => x.2 ≠ 0)

/-- `getDenseCoefficientVector`, `Polynomial.cpp:83-92`. -/
def denseVector (p : Terms R) : Option (List R) :=
  if p.isEmpty then some []
  else do
    let d ← getDegree p
    p.foldlM (fun t (x : Nat × R) => put t x.1 x.2) (List.replicate (d + 1) 0)

/-! ## Chebyshev polynomials -/

/-- The loop of `getChebyshevPolynomials`, `Polynomial.cpp:225-229`; `last` and `secondLast` are
the two newest entries and the result lists `k` further ones. -/
def chebLoop (secondLast last : Terms R) : Nat → Option (List (Terms R))
  | 0 => some []
  | k + 1 => do
    let t ← sub (scale (monomialMul last 1) 2) secondLast
    let r ← chebLoop last t k
    some (t :: r)

/-- `getChebyshevPolynomials`, `Polynomial.cpp:210-230`.  The two seeds are
`fromCoefficients({1.})` and `fromCoefficients({0., 1.})`. -/
def getChebyshev (n : Nat) : Option (List (Terms R)) :=
  if n < 1 then some []
  else do
    let t0 ← fromCoefficients [(1 : R)]
    if n < 2 then some [t0]
    else do
      let t1 ← fromCoefficients [(0 : R), 1]
      let r ← chebLoop t0 t1 (n - 2)
      some (t0 :: t1 :: r)

/-- `chebyshevToMonomial`, `Polynomial.cpp:21-32`. -/
def sumLoop : List R → List (Terms R) → Terms R → Option (Terms R)
  | [], _, r => some r
  | c :: cs, t :: ts, r => do
    let r ← add r (scale t c)
    sumLoop cs ts r
  | _ :: _, [], _ => none

/-- `toStandardBasis`, `Polynomial.cpp:98-100`. -/
def toStandardBasis (c : List R) : Option (Terms R) := do
  let ts ← getChebyshev c.length
  sumLoop c ts []

/-- One entry of `2 y d_{k+1}` in the Chebyshev basis, `Polynomial.cpp:155-177`; reads beyond the
end of `d` are the `APFloat(0.0)` alternatives. -/
def clenshawEntry (a b : R) (d : List R) : Nat → R
  | 0 => a * d.getD 1 0 + b * d.getD 0 0 * 2
  | 1 => a * (d.getD 0 0 * 2 + d.getD 2 0) + b * d.getD 1 0 * 2
  | m + 2 => a * (d.getD (m + 1) 0 + d.getD (m + 3) 0) + b * d.getD (m + 2) 0 * 2

/-- `d_k` from `d_{k+1}` and `d_{k+2}`, `Polynomial.cpp:151-185`; `len` is `n - k + 1`. -/
def clenshawStep (a b ck : R) (len : Nat) (d1 d2 : List R) : List R :=
  (List.range len).map fun m =>
    clenshawEntry a b d1 m + (if m = 0 then ck else 0) - d2.getD m 0

/-- The loop `k = i - 1, …, 0`, `Polynomial.cpp:149-192`; the last component is `d_2_coeffs`. -/
def clenshawLoop (a b : R) (c : List R) (n : Nat) :
    Nat → List R → List R → List R → Option (List R × List R)
  | 0, d1, _, s => some (d1, s)
  | k + 1, d1, d2, s => do
    let ck ← get c k
    let d := clenshawStep a b ck (n - k + 1) d1 d2
    clenshawLoop a b c n k d d1 (if k = 2 then d else s)

/-- `ChebyshevPolynomial::compose` with `other = b + a x`, `Polynomial.cpp:112-208`.  `half` is
`APFloat(0.5)`.  The degree is `terms.size() - 1`, or zero for an empty vector (`Polynomial.h:442`),
so that an empty vector is read out of bounds (line 146). -/
def chebCompose (half a b : R) (c : List R) : Option (List R) := do
  let n := c.length - 1
  let cn ← get c n
  let (d0, d2) ← clenshawLoop a b c n n [cn] [] []
  let c0 ← get c 0
  some ((List.range (n + 1)).map fun i =>
    (d0.getD i 0 - d2.getD i 0) * half + (if i = 0 then c0 * half else 0))

end Heir.PolyClass
