import Mathlib.Analysis.SpecialFunctions.Log.Basic
import Mathlib.Algebra.BigOperators.Fin
import Mathlib.Data.Rat.Floor

/-! # Rewriting of selections, comparisons, activations, softmax, masks and reductions

The patterns of `SelectRewrite`, `CompareToSignRewrite`, `ActivationCanonicalizations`,
`SoftmaxCanonicalizations`, `SoftmaxToCgfSoftmax`, `FoldPlaintextMasks` and
`ReductionCanonicalizations` in `lib/Transforms`. -/

namespace Heir.Rewrite

/-! ## Selections -/

/-- A value of a scalar or of a shaped type; the elements of a shaped value in row-major order, so two
shapes with the same number of elements are one. -/
inductive Sh (α : Type)
  | scalar (a : α)
  | shaped (l : List α)
  deriving DecidableEq

/-- An elementwise operation. -/
def Sh.map {α β : Type} (f : α → β) : Sh α → Sh β
  | .scalar a => .scalar (f a)
  | .shaped l => .shaped (l.map f)

/-- An elementwise operation on two values of one type; otherwise the operation is invalid. -/
def Sh.zip {α β γ : Type} (f : α → β → γ) : Sh α → Sh β → Option (Sh γ)
  | .scalar a, .scalar b => some (.scalar (f a b))
  | .shaped l, .shaped m => if l.length = m.length then some (.shaped (List.zipWith f l m)) else none
  | _, _ => none

/-- Whether two values have types of the same shape. -/
def Sh.same {α β : Type} : Sh α → Sh β → Bool
  | .scalar _, .scalar _ => true
  | .shaped l, .shaped m => l.length == m.length
  | _, _ => false

/-- `matchShapedType`, `SelectRewrite.cpp:25-34`. -/
def matchShapedType {α β : Type} (op : Sh α) (target : Sh β) : Sh α :=
  match op, target with
  | .scalar a, .shaped l => .shaped (List.replicate l.length a)
  | op, _ => op

/-- An integer type or `index`. -/
inductive IntTy
  | int (w : Nat)
  | index

/-- The width; that of `index` is 64. -/
def IntTy.width : IntTy → Nat
  | .int w => w
  | .index => 64

/-- Whether `arith.extui` from `i1` to the type is valid: to wider integers only. -/
def IntTy.extends : IntTy → Bool
  | .int w => decide (1 < w)
  | .index => false

/-- `arith.extui` of a condition to the type of another value; `none` if the operation is invalid. -/
def extui (ty : IntTy) (c : Sh (BitVec 1)) (like : Sh (BitVec ty.width)) : Option (Sh (BitVec ty.width)) :=
  if ty.extends && c.same like then some (c.map (BitVec.setWidth ty.width)) else none

/-- `SelectRewritePatternInt`, `SelectRewrite.td:32-44`; `getMatchingOne` is the one of the type of the
condition. `none` is invalid IR. -/
def selectInt (ty : IntTy) (cond : Sh (BitVec 1)) (t f : Sh (BitVec ty.width)) :
    Option (Sh (BitVec ty.width)) :=
  let c := matchShapedType cond t
  let notCond := c.map fun x => 1#1 - x
  (extui ty c t).bind fun extCond => (extCond.zip (· * ·) t).bind fun trueMul =>
    (extui ty notCond f).bind fun extNot => (extNot.zip (· * ·) f).bind fun falseMul =>
      trueMul.zip (· + ·) falseMul

/-- `arith.uitofp` of a condition to the type of another value. -/
def uitofp {α : Type} [NatCast α] (c : Sh (BitVec 1)) (like : Sh α) : Option (Sh α) :=
  if c.same like then some (c.map fun x => (x.toNat : α)) else none

/-- `SelectRewritePatternFloat`, `SelectRewrite.td:47-58`, on a ring. -/
def selectFloat {α : Type} [Ring α] (cond : Sh (BitVec 1)) (t f : Sh α) : Option (Sh α) :=
  let notCond := cond.map fun x => 1#1 - x
  (uitofp cond t).bind fun extCond => (extCond.zip (· * ·) t).bind fun trueMul =>
    (uitofp notCond f).bind fun extNot => (extNot.zip (· * ·) f).bind fun falseMul =>
      trueMul.zip (· + ·) falseMul

/-! ## Comparisons -/

/-- The predicates, of `cmpf` without the order of NaN, of `cmpi` with the sign. -/
inductive Pred
  | lt | gt | ult | ugt | other
  deriving DecidableEq

/-- `math_ext.sign`, `MathExtOps.td:14-23`. -/
def sign (x : ℚ) : ℚ := if x < 0 then -1 else if x = 0 then 0 else 1

/-- `0.5 * (sign(sub) + 1)`. -/
def halfSign (sub : ℚ) : ℚ := (sign sub + 1) * (1 / 2)

/-- `arith.fptosi` to `i1`: towards zero; poison unless the result is −1 or 0. -/
def fptosi1 (x : ℚ) : Option (BitVec 1) :=
  let z := if 0 ≤ x then ⌊x⌋ else ⌈x⌉
  if -1 ≤ z ∧ z ≤ 0 then some (BitVec.ofInt 1 z) else none

/-- The outcome of a rewriting: not applied, a dereferenced null value, or a new result, itself `none`
if it is poison. -/
inductive Out (α : Type)
  | failure
  | ub
  | ok (r : Option α)
  deriving DecidableEq

/-- `CmpFOpRewritePattern`, `CompareToSignRewrite.cpp:29-65`, on exact numbers. The ordered and the
unordered predicate are one. -/
def cmpF (p : Pred) (a b : ℚ) : Out (BitVec 1) :=
  match p with
  | .lt => .ok (fptosi1 (halfSign (a - b)))
  | .gt => .ok (fptosi1 (halfSign (b - a)))
  | _ => .failure

/-- `CmpIOpRewritePattern`, `CompareToSignRewrite.cpp:75-125`. The conversion to `f32` is `round`. For
`ugt` no branch sets `sub`. -/
def cmpI {w : Nat} (round : ℤ → ℚ) (p : Pred) (a b : BitVec w) : Out (BitVec 1) :=
  match p with
  | .other => .failure
  | .lt | .ult => .ok (fptosi1 (halfSign (round a.toInt - round b.toInt)))
  | .gt => .ok (fptosi1 (halfSign (round b.toInt - round a.toInt)))
  | .ugt => .ub

/-! ## Activations -/

/-- A float: a number or NaN. Signed zeros and infinities are numbers. -/
inductive Fl
  | num (q : ℚ)
  | nan
  deriving DecidableEq

/-- `cmpf ugt` and `uge`: true on NaN. -/
def Fl.ugt : Fl → Fl → Bool
  | .num a, .num b => decide (a > b)
  | _, _ => true

/-- See `Fl.ugt`. -/
def Fl.uge : Fl → Fl → Bool
  | .num a, .num b => decide (a ≥ b)
  | _, _ => true

/-- `arith.maximumf`. -/
def Fl.maximumf : Fl → Fl → Fl
  | .num a, .num b => .num (max a b)
  | _, _ => .nan

/-- The selections matched and what they become, `ActivationCanonicalizations/Rewrites.td:16-31` and
`ActivationCanonicalizations.cpp:57-106`. -/
inductive Rectifier (w : Nat)
  | ugt | uge | sgt | sge

/-- `arith.select` on the comparison. -/
def Rectifier.select {w : Nat} (r : Rectifier w) (a c : BitVec w) : BitVec w :=
  match r with
  | .ugt => if c < a then a else c
  | .uge => if c ≤ a then a else c
  | .sgt => if c.slt a then a else c
  | .sge => if c.sle a then a else c

/-- `arith.maxui` or `arith.maxsi`. -/
def Rectifier.rewritten {w : Nat} (r : Rectifier w) (a c : BitVec w) : BitVec w :=
  match r with
  | .ugt | .uge => if a.toNat < c.toNat then c else a
  | .sgt | .sge => if a.toInt < c.toInt then c else a

/-- An operation in the body of a `linalg.generic`: whether it is a selection that is matched, and its
own bounds `domain_lower` and `domain_upper`. -/
structure Inner where
  matched : Bool
  lower : Option ℚ
  upper : Option ℚ
  deriving DecidableEq

/-- A `linalg.generic` with its bounds and the operations of its body. Operations nested deeper are not
matched with the bounds of the generic and not modelled. -/
structure Generic where
  lower : Option ℚ
  upper : Option ℚ
  body : List Inner
  deriving DecidableEq

/-- The bounds put on a `maximumf`, `ActivationCanonicalizations.cpp:81-101`. -/
def forwardDomain (g : Generic) (i : Inner) : Inner :=
  if i.matched then ⟨true, i.lower.orElse fun _ => g.lower, i.upper.orElse fun _ => g.upper⟩ else i

/-- `stripForwardedDomains`, `ActivationCanonicalizations.cpp:113-131`. -/
def strip (g : Generic) : Generic :=
  if g.lower.isNone && g.upper.isNone then g
  else if g.body.any fun i => i.lower.isSome || i.upper.isSome then ⟨none, none, g.body⟩
  else g

/-- The pass on a generic, `ActivationCanonicalizations.cpp:136-146`. -/
def activation (g : Generic) : Generic := strip ⟨g.lower, g.upper, g.body.map (forwardDomain g)⟩

/-! ## Softmax -/

/-- The quotient that is matched, `SoftmaxCanonicalizations.cpp:161-215`: `exp` of the scores, or of the
scores minus a broadcast along the last dimension, over the sum of its rows. -/
noncomputable def quotient {r n : Nat} (x : Fin r → Fin n → ℝ) (maxVal : Option (Fin r → ℝ)) (i : Fin r)
    (j : Fin n) : ℝ :=
  let e := fun i j => Real.exp (match maxVal with | some m => x i j - m i | none => x i j)
  e i j / (0 + ∑ k, e i k)

/-- The mean, `SoftmaxToCgfSoftmax.cpp:100-105`. -/
noncomputable def mean {n : Nat} (x : Fin n → ℝ) : ℝ := (∑ j, x j) * (1 / n)

/-- The variance, `SoftmaxToCgfSoftmax.cpp:107-122`. -/
noncomputable def variance {n : Nat} (x : Fin n → ℝ) : ℝ := (∑ j, (x j - mean x) * (x j - mean x)) * (1 / n)

/-- The shift, `SoftmaxToCgfSoftmax.cpp:124-134`. -/
noncomputable def shift {n : Nat} (x : Fin n → ℝ) : ℝ := mean x + variance x * (1 / 2) + Real.log n

/-- The result, `SoftmaxToCgfSoftmax.cpp:150-160`. -/
noncomputable def cgfSoftmax {n : Nat} (x : Fin n → ℝ) (j : Fin n) : ℝ := Real.exp (x j - shift x)

/-- The domain of the softmax. -/
structure Domain where
  lower : Option ℝ
  upper : Option ℝ

/-- `L_val`, `SoftmaxToCgfSoftmax.cpp:137-140`. -/
noncomputable def Domain.L (d : Domain) : ℝ := d.lower.getD (-1)

/-- `U_val`, `SoftmaxToCgfSoftmax.cpp:141-144`. -/
noncomputable def Domain.U (d : Domain) : ℝ := d.upper.getD 1

/-- `safe_lower`, `SoftmaxToCgfSoftmax.cpp:145-148`: the `domain_lower` of the exponential. -/
noncomputable def Domain.expLower (d : Domain) (n : Nat) : ℝ :=
  max (d.L - (d.U + (d.U - d.L) * (d.U - d.L) / 8 + Real.log n)) (-16)

/-- The `domain_upper` of the exponential, `SoftmaxToCgfSoftmax.cpp:158`. -/
noncomputable def Domain.expUpper (_ : Domain) : ℝ := 1 / 2

/-- The check of the pass, `SoftmaxToCgfSoftmax.cpp:173-202`. -/
def Domain.accepted (d : Domain) : Prop :=
  match d.lower, d.upper with
  | some l, some u => ¬ u - l > 4
  | _, _ => True

/-! ## Masks -/

/-- Overflow flags of `arith.muli`. -/
structure Flags where
  nsw : Bool
  nuw : Bool
  deriving DecidableEq

/-- `arith.muli` of two elements; `none` is poison. -/
def mulI {w : Nat} (fl : Flags) (a b : BitVec w) : Option (BitVec w) :=
  if (fl.nsw && BitVec.smulOverflow a b) || (fl.nuw && BitVec.umulOverflow a b) then none else some (a * b)

/-- `getIntegerOneHotVector`, `FoldPlaintextMasks.cpp:24-48`: all elements zero or one. -/
def isIntMask {w : Nat} (m : List (BitVec w)) : Bool := m.all fun x => x == 0#w || x == 1#w

/-- `intersectIntMasks`, `FoldPlaintextMasks.cpp:84-93`; the second mask read out of bounds is
undefined. -/
def intersectInt {w : Nat} (m1 m2 : List (BitVec w)) : Option (List (BitVec w)) :=
  if m1.length ≤ m2.length then some (List.zipWith (· &&& ·) m1 m2) else none

/-- The six shapes matched, `FoldPlaintextMasks/Patterns.td:12-66`. -/
inductive MaskPat
  | lhs1 | lhs2 | lhs3 | rhs1 | rhs2 | rhs3

/-- One element of the products matched, with the flags of the inner and the outer product. -/
def MaskPat.before {β : Type} (p : MaskPat) (mul1 mul2 : β → β → Option β) (v m1 m2 : β) : Option β :=
  match p with
  | .lhs1 => (mul1 m2 v).bind fun x => mul2 m1 x
  | .lhs2 => (mul1 v m2).bind fun x => mul2 m1 x
  | .lhs3 => (mul1 m1 m2).bind fun x => mul2 v x
  | .rhs1 => (mul1 m2 v).bind fun x => mul2 x m1
  | .rhs2 => (mul1 v m2).bind fun x => mul2 x m1
  | .rhs3 => (mul1 m1 m2).bind fun x => mul2 x v

/-- The element of the product that replaces them: the flags are those of the inner product. -/
def maskAfter {β : Type} (mul1 : β → β → Option β) (v m : β) : Option β := mul1 v m

/-- `getFloatOneHotVector`, `FoldPlaintextMasks.cpp:49-74`, on exact numbers. -/
def isFloatMask {α : Type} [Zero α] [One α] [DecidableEq α] (m : List α) : Bool :=
  m.all fun x => !(x != 0 && x != 1)

/-- `intersectFloatMasks`, `FoldPlaintextMasks.cpp:95-111`. -/
def intersectFloat {α : Type} [Zero α] [One α] [DecidableEq α] (m1 m2 : List α) : Option (List α) :=
  if m1.length ≤ m2.length then
    some (List.zipWith (fun a b => if a = 1 ∧ b = 1 then a else 0) m1 m2)
  else none

/-! ## Reductions -/

/-- The loop of `checkOutputMap`, `ReductionCanonicalizations.cpp:138-158`: `i` runs up to the number of
results, `resultIndex` counts those compared. A result is a dimension, or `none` for another expression.
The outer `none` is a read out of bounds. -/
def checkLoop (results : List (Option Nat)) (dims : List Nat) : Nat → Nat → Nat → Option Bool
  | 0, _, _ => some true
  | fuel + 1, i, resultIndex =>
    if dims.contains i then checkLoop results dims fuel (i + 1) resultIndex
    else match results[resultIndex]? with
      | none => none
      | some e => if e = some i then checkLoop results dims fuel (i + 1) (resultIndex + 1)
        else some false

/-- `checkOutputMap`, `ReductionCanonicalizations.cpp:122-159`. -/
def checkOutputMap (numDims : Nat) (results : List (Option Nat)) (dims : List Nat) : Option Bool :=
  if results.length ≠ numDims - dims.length then some false
  else if results.length = 0 then some true
  else checkLoop results dims results.length 0 0

/-- The dimensions of the reduction iterators, `ReductionCanonicalizations.cpp:58-70`. -/
def reductionDims (reduction : List Bool) : List Nat :=
  (List.range reduction.length).filter fun i => reduction.getD i false

/-- The points of an iteration domain in the order of the loops. -/
def points : List Nat → List (List Nat)
  | [] => [[]]
  | n :: shape => (List.range n).flatMap fun i => (points shape).map (i :: ·)

/-- `linalg.generic` with one input read by the identity and one output with the given map: at every
point the body combines the input and the output. -/
def generic {α : Type} (body : α → α → α) (shape : List Nat) (map : List Nat) (input init : List Nat → α) :
    List Nat → α :=
  (points shape).foldl (fun out p =>
    let q := map.map fun d => p.getD d 0
    fun i => if i = q then body (input p) (out q) else out i) init

/-- `linalg.reduce`: the output is indexed by the dimensions that are not reduced, in order. -/
def reduce {α : Type} (body : α → α → α) (shape : List Nat) (dims : List Nat) (input init : List Nat → α) :
    List Nat → α :=
  generic body shape ((List.range shape.length).filter fun d => !dims.contains d) input init

end Heir.Rewrite
