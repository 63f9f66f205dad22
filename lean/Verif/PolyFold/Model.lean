import Verif.NTT.Model

/-! # Folding of polynomial constants: `lib/Dialect/Polynomial/IR/PolynomialOps.cpp:739-1121`

Typed integer polynomial constants over a ring `Z_q[X]/(f)`, with `q` the modulus of a
`!mod_arith.int` of storage width `w`.  Rings of plain integers and of floats are left out.
A fold returns `none` on undefined behaviour (or a failed assertion), `some none` when the
operation is not folded and `some (some c)` for the constant `c`. -/

namespace Heir.PolyFold

open Heir.NTT

/-- `IntPolynomial`: terms `(exponent, coefficient)`, `apintBitWidth = 64`
(`lib/Utils/Polynomial/Polynomial.h:33`, `356-378`).  Exponents are natural numbers. -/
abbrev Terms := List (Nat × BitVec 64)

/-- `getDegree`: the last exponent (terms are sorted), `Polynomial.h:339-341`.  Of no
terms it is undefined; `naiveMul` below asks for terms, and polynomial moduli have some. -/
def degree (ts : Terms) : Nat := (ts.getLast?.map Prod.fst).getD 0

/-- One coefficient of `getSingleLimbRNSPolynomial`, `PolynomialOps.cpp:760-763`. -/
def residue {w : Nat} (q : BitVec w) (c : BitVec 64) : BitVec w :=
  let r := (c.signExtend w).srem q
  if r.msb then r + q else r

/-- The term loop of `getSingleLimbRNSPolynomial`, `PolynomialOps.cpp:756-764`. -/
def readTerms {w : Nat} (q : BitVec w) (n : Nat) : List Nat → Terms → Option (List Nat)
  | data, [] => some data
  | data, (e, c) :: ts =>
    if n ≤ e then none else readTerms q n (data.set e (residue q c).toNat) ts

/-- `getSingleLimbRNSPolynomial`, `PolynomialOps.cpp:739-768` (the single limb; modulus and form
are carried by the caller). -/
def singleLimb {w : Nat} (q : BitVec w) (f ts : Terms) : Option (List Nat) :=
  if 2 ^ 64 ≤ q.toNat then none
  else readTerms q (degree f) (List.replicate (degree f) 0) ts

/-- `getTypedIntPolynomialAttr`, `PolynomialOps.cpp:770-786`, from position `i` on. -/
def writeFrom (i : Nat) : List Nat → Terms
  | [] => []
  | v :: vs =>
    if BitVec.ofNat 64 v = 0 then writeFrom (i + 1) vs
    else (i, BitVec.ofNat 64 v) :: writeFrom (i + 1) vs

/-- The test for `X^N + 1`, `PolynomialOps.cpp:811-816`. -/
def isNegacyclic (f : Terms) : Bool :=
  f.length == 2 && f.head?.map Prod.fst == some 0 && f.head?.map Prod.snd == some 1#64 &&
    f.getLast?.map Prod.snd == some 1#64

/-- The loop of `reduceModuloPolynomial`, `PolynomialOps.cpp:828-833`; the argument is the number
of degrees still to be reduced: `currentDegree = k + n`, `reducedDegree = k`. -/
def reduceLoop (n : Nat) : Nat → List (BitVec 64) → List (BitVec 64)
  | 0, r => r
  | k + 1, r => reduceLoop n k (r.set k (r[k]?.getD 0 - r[k + n]?.getD 0))

/-- `reduceModuloPolynomial`, `PolynomialOps.cpp:806-837`. -/
def reduceModuloPolynomial (c : List (BitVec 64)) (f : Terms) : Option (List (BitVec 64)) :=
  if isNegacyclic f then
    let n := degree f
    let r := c ++ List.replicate (n - c.length) 0
    some ((reduceLoop n (r.length - n) r).take n)
  else none

/-- `normalizeMod`, `PolynomialOps.cpp:839-844`. -/
def normalizeMod (v : BitVec 64) (m : Nat) : BitVec 64 :=
  let r := v.srem (BitVec.ofNat 64 m)
  if r.msb then r + BitVec.ofNat 64 m else r

/-- One limb of `monomialMulCoeffModulo`, `PolynomialOps.cpp:855-867`. -/
def monomialMulLimb (m e : Nat) (a : List Nat) (f : Terms) : Option (List Nat) :=
  let shifted := List.replicate e 0 ++ a.map (BitVec.ofNat 64)
  match reduceModuloPolynomial shifted f with
  | none => none
  | some r => if r.length ≠ a.length then none else some (r.map fun c => (normalizeMod c m).toNat)

/-- The limb loop of `monomialMulCoeffModulo`, `PolynomialOps.cpp:846-874`. -/
def monomialMulCoeff (p : RNSPoly) (e : Nat) (f : Terms) : Option RNSPoly :=
  if p.form ≠ .coeff then none
  else
    match mapLimbs (fun ml : Nat × List Nat => monomialMulLimb ml.1 e ml.2 f)
      (List.zip p.moduli p.limbs) with
    | none => none
    | some ls => some ⟨ls, p.moduli, .coeff⟩

/-- `MonicMonomialMulOp::fold` on a typed integer constant in coefficient form,
`PolynomialOps.cpp:980-994`; the fallback of lines 996-1000 is the parameter `other`. -/
def foldMonomialMul {w : Nat} (other : Option Terms) (q : BitVec w) (f : Terms) (e : Nat) (a : Terms) :
    Option Terms :=
  match singleLimb q f a with
  | none => other
  | some l => (monomialMulCoeff ⟨[l], [q.toNat], .coeff⟩ e f).map fun p => writeFrom 0 p.limbs.flatten

/-- `MulScalarOp::fold` on a typed integer constant and a `mod_arith` scalar,
`PolynomialOps.cpp:904-914`. -/
def foldMulScalar {w ws : Nat} (q : BitVec w) (f : Terms) (a : Terms) (s : BitVec ws) :
    Option (Option Terms) :=
  if 2 ^ 64 ≤ s.toNat then none
  else
    match singleLimb q f a with
    | none => some none
    | some l =>
      ((⟨[l], [q.toNat], .coeff⟩ : RNSPoly).scalarMul [s.toNat]).map fun r =>
        r.map fun p => writeFrom 0 p.limbs.flatten

/-- `foldBinaryPoly` on typed integer constants of the same form, `PolynomialOps.cpp:1028-1051`. -/
def foldBinary {w : Nat} (rnsFn : RNSPoly → RNSPoly → Option RNSPoly) (intFn : Terms → Terms → Terms)
    (q : BitVec w) (f : Terms) (form : Form) (a b : Terms) : Option Terms :=
  match singleLimb q f a, singleLimb q f b with
  | some l, some r =>
    (rnsFn ⟨[l], [q.toNat], form⟩ ⟨[r], [q.toNat], form⟩).map fun p => writeFrom 0 p.limbs.flatten
  | _, _ => some (intFn a b)

/-- One product added by `naiveMul`, `Polynomial.h:236-241`; the dense accumulator. -/
def naiveStep (acc : List (BitVec 64)) (s t : Nat × BitVec 64) : List (BitVec 64) :=
  acc.set (s.1 + t.1) (acc[s.1 + t.1]?.getD 0 + s.2 * t.2)

/-- The terms of a dense vector, zero coefficients dropped (`canonicalize`). -/
def denseTerms (i : Nat) : List (BitVec 64) → Terms
  | [] => []
  | v :: vs => if v = 0 then denseTerms (i + 1) vs else (i, v) :: denseTerms (i + 1) vs

/-- `naiveMul`, `Polynomial.h:226-246`; `getDegree` reads the last of no terms for a zero polynomial. -/
def naiveMul (a b : Terms) : Option Terms :=
  if a = [] ∨ b = [] then none
  else some <| denseTerms 0 (a.foldl (fun acc s => b.foldl (fun acc t => naiveStep acc s t) acc)
    (List.replicate (degree a + degree b + 1) 0))

/-- `MulOp::fold` on typed integer constants in coefficient form, `PolynomialOps.cpp:1094-1118`. -/
def foldMul {w : Nat} (q : BitVec w) (f : Terms) (a b : Terms) : Option (Option Terms) :=
  match singleLimb q f a, singleLimb q f b with
  | some l, some r =>
    ((⟨[l], [q.toNat], .coeff⟩ : RNSPoly).mul (degree f) ⟨[r], [q.toNat], .coeff⟩).map fun o =>
      o.map fun p => writeFrom 0 p.limbs.flatten
  | _, _ => (naiveMul a b).map some

end Heir.PolyFold
