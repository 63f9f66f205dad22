import Verif.NTT.Model
import Mathlib.Data.Nat.Log

/-!
# Model of RNS residue conversion

`mod_switch` between `Z/Q` and an RNS type (`ModArithToArith.cpp`), and `rns.convert_basis`
(`lib/Dialect/RNS/IR/RNSOps.cpp`, `lib/Dialect/RNS/Transforms/LowerConvertBasis.cpp`).
A value of RNS type with basis `q_0, …, q_{L-1}` is the list of its limbs.  All basis types
of an RNS type have the same storage width (`ModArithType::isCompatibleWith`,
`ModArithTypes.cpp:24-40`).
-/

namespace Heir.RNS

open Heir.Arith Heir.Loop Heir.NumTheory Heir.ModArith Heir.NTT

variable {w wo : Nat}

/-- `RNSType::verify` with `ModArithType::isCompatibleWith`, `RNSTypes.cpp:15-47`,
`ModArithTypes.cpp:24-40`: pairwise coprime moduli. -/
def typeVerifyRNS (qs : List (BitVec w)) : Prop :=
  (∀ q ∈ qs, typeVerify q = true) ∧ qs.Pairwise fun a b => Nat.gcd a.toNat b.toNat = 1

/-- The product computed by `verifySingleToMultiModSwitch`, `ModArithOps.cpp:151-160`, at the
width of the big modulus (it wraps). -/
def verifyProduct (wo : Nat) (qs : List (BitVec w)) : BitVec wo :=
  qs.foldl (fun p q => p * q.setWidth wo) 1#wo

/-- `verifySingleToMultiModSwitch`, `ModArithOps.cpp:124-170`. -/
def verifySwitch (allowInjection : Bool) (Q : BitVec wo) (qs : List (BitVec w)) : Bool :=
  decide (2 ≤ qs.length) && decide (w ≤ wo) &&
    (decide (verifyProduct wo qs = Q) || (allowInjection && Q.slt (verifyProduct wo qs)))

/-- `ConvertModSwitch` from `Z/Q` to RNS, one limb, `ModArithToArith.cpp:514-521`.
`arith.trunci` needs a strictly narrower result type: otherwise the emitted IR is invalid,
the `none` outcome. -/
def toRNSLimb (a : BitVec wo) (q : BitVec w) : Option (BitVec w) :=
  if w < wo then do
    let r ← remui a (q.setWidth wo)
    some (r.setWidth w)
  else none

/-- `ConvertModSwitch` from `Z/Q` to RNS, `ModArithToArith.cpp:503-527`. -/
def lowerToRNS (qs : List (BitVec w)) (a : BitVec wo) : Option (List (BitVec w)) :=
  mapLimbs (toRNSLimb a) qs

/-- The intermediate width, `ModArithToArith.cpp:551-552`; `Log2_64_Ceil` of a positive
number is the ceiling of the binary logarithm. -/
def fromWidth (wo w L : Nat) : Nat := wo + 2 * w + Nat.clog 2 L

/-- The constant of one limb, `ModArithToArith.cpp:560-564` (compile time). -/
def fromCoeff {W : Nat} (Q : BitVec W) (q : BitVec W) : Option (BitVec W) := do
  if q = 0#W then none
  let tmp := Q.udiv q
  let inv ← multiplicativeInverse (tmp.umod q) q
  some (tmp * inv)

/-- The limb loop, `ModArithToArith.cpp:557-571`. -/
def fromSum {W : Nat} (Q : BitVec W) : List (BitVec w × BitVec w) → BitVec W → Option (BitVec W)
  | [], sum => some sum
  | (q, limb) :: rest, sum => do
    let c ← fromCoeff Q (q.setWidth W)
    fromSum Q rest (sum + limb.setWidth W * c)

/-- `ConvertModSwitch` from RNS to `Z/Q`, `ModArithToArith.cpp:528-575`. -/
def lowerFromRNS (Q : BitVec wo) (qs limbs : List (BitVec w)) : Option (BitVec wo) := do
  let W := fromWidth wo w qs.length
  let big := Q.setWidth W
  let sum ← fromSum big (qs.zip limbs) 0#W
  let r ← remui sum big
  some (r.setWidth wo)

/-! ## `rns.convert_basis` -/

/-- The loop of `buildQInvProds`, `RNSOps.cpp:154-181`; `P` is the running product (its width
grows so it never wraps), `q` the current modulus, the list the following ones.
Outer `none`: assertion; inner `none`: the pass fails with an error. -/
def qInvLoop (P : Nat) (q : BitVec w) : List (BitVec w) → Option (Option (List (BitVec w)))
  | [] => some (some [])
  | m :: rest => do
    let P := P * q.toNat
    -- `urem` by zero is undefined
    if m = 0#w then none
    let inv ← multiplicativeInverse (BitVec.ofNat w (P % m.toNat)) m
    if inv = 0#w then some none
    else
      match ← qInvLoop P m rest with
      | none => some none
      | some l => some (some (inv :: l))

/-- `buildQInvProds`, `RNSOps.cpp:132-184`. -/
def buildQInvProds : List (BitVec w) → Option (Option (List (BitVec w)))
  | [] => some (some [])
  | q :: rest => qInvLoop 1 q rest

/-- The Horner loop shared by `computeMixedRadixCoeffs` (`RNSOps.cpp:92-117`) and
`LowerConvertBasisOp` (`LowerConvertBasis.cpp:184-206`): `count` iterations with
`j = count - 1 - index`, accumulating `temp * const_j + c_j` modulo `q`. -/
def hornerLoop (q : BitVec w) (const : Nat → Option (BitVec w)) (mrcs : List (BitVec w)) (count : Nat)
    (temp : BitVec w) : Option (BitVec w) :=
  forN count (fun index temp => do
    let j := count - 1 - index
    let cj ← get mrcs j
    let red ← lowerReduce q cj
    let qj ← const j
    lowerMac q temp qj red) temp

/-- One iteration of the coefficient loop of `computeMixedRadixCoeffs`, `RNSOps.cpp:73-128`.
`const i j` is the constant multiplied in at step `j` of limb `i`. -/
def mrcStep (const : Nat → Nat → Option (BitVec w)) (qs xs invs : List (BitVec w)) (i : Nat)
    (mrcs : List (BitVec w)) : Option (List (BitVec w)) := do
  let xi ← get xs i
  let qi ← get qs i
  let prev ← get mrcs (i - 1)
  let temp ← lowerReduce qi prev
  let temp ← hornerLoop qi (const i) mrcs (i - 1) temp
  let ci ← lowerSub qi xi temp
  let inv ← get invs (i - 1)
  let ci ← lowerMul qi ci inv
  let lifted ← lowerLiftCentered qi ci
  some (mrcs ++ [lifted])

/-- `computeMixedRadixCoeffs`, `RNSOps.cpp:34-130`, with the Horner constants as a parameter. -/
def mrcWith (const : Nat → Nat → Option (BitVec w)) (qs xs invs : List (BitVec w)) :
    Option (List (BitVec w)) := do
  let x0 ← get xs 0
  let q0 ← get qs 0
  let c0 ← lowerLiftCentered q0 x0
  forN (qs.length - 1) (fun t mrcs => mrcStep const qs xs invs (t + 1) mrcs) [c0]

/-- The constants the code uses, `RNSOps.cpp:88-89`: `limbTy.getModulus()`, i.e. `q_i`
whatever `j` is. -/
def codeConst (qs : List (BitVec w)) (i _j : Nat) : Option (BitVec w) := get qs i

/-- The constants of the formula in the comment at `RNSOps.cpp:66-79`: `q_j`. -/
def formulaConst (qs : List (BitVec w)) (_i j : Nat) : Option (BitVec w) := get qs j

/-- One output limb, `LowerConvertBasis.cpp:151-209`. -/
def targetLimb (qs xs mrcs : List (BitVec w)) (p : BitVec w) : Option (BitVec w) :=
  -- the `DenseMap` keeps the last index of a modulus; moduli are pairwise coprime
  match (qs.zip xs).reverse.find? (fun qx => qx.1 == p) with
  | some qx => some qx.2
  | none => do
    let last ← get mrcs (mrcs.length - 1)
    let temp ← lowerReduce p last
    hornerLoop p (fun j => get qs j) mrcs (mrcs.length - 1) temp

/-- `LowerConvertBasisOp`, `LowerConvertBasis.cpp:57-214`, and the semantics of the emitted
code; inner `none` is an emitted error.  `const` as in `mrcWith`. -/
def convertBasisWith (const : Nat → Nat → Option (BitVec w)) (qs ps xs : List (BitVec w)) :
    Option (Option (List (BitVec w))) := do
  match ← buildQInvProds qs with
  | none => some none
  | some invs =>
    if ∃ q ∈ qs, q.getLsbD 0 = false then some none
    else if ∃ p ∈ ps, p.getLsbD 0 = false then some none
    else if qs = [] then some none
    -- `maTargetBasisTys[0]`
    else if ps = [] then none
    else do
      let mrcs ← mrcWith const qs xs invs
      let out ← mapLimbs (targetLimb qs xs mrcs) ps
      some (some out)

/-- The code as it is. -/
def convertBasis (qs ps xs : List (BitVec w)) : Option (Option (List (BitVec w))) :=
  convertBasisWith (codeConst qs) qs ps xs

end Heir.RNS
