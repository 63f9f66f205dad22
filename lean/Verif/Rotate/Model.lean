import Mathlib.Algebra.BigOperators.Group.List.Basic

/-! # Rotation rewrites of the `tensor_ext` dialect

`lib/Dialect/TensorExt/IR/TensorExtCanonicalization.td`,
`lib/Dialect/TensorExt/IR/TensorExtOps.cpp:36-106` and
`lib/Dialect/TensorExt/Conversions/TensorExtToTensor/TensorExtToTensor.cpp`.

Simplifications. A value is a tree over its inputs, so the number of uses of an SSA value is not
represented and the patterns guarded by `HasOneUse` may fire more often than in the code. A shift
operand is its run-time bit pattern together with a flag telling whether a constant op defines it;
results of integer ops on shifts are evaluated, not kept as ops. Element values are any type and the
arithmetic ops any binary functions (overflow and fast-math flags are not represented). -/

namespace Heir.Rotate

/-- A ranked tensor type: the leading dimensions and the last one (`RotateOp::verify` requires rank
at least one, `TensorExtOps.cpp:108-114`). -/
structure Shape where
  lead : List Nat
  last : Nat

namespace Shape
variable (sh : Shape)
/-- `getShape()[0]` -/
def dim0 : Nat := sh.lead.headD sh.last
/-- `getRank()` -/
def rank : Nat := sh.lead.length + 1
/-- `getNumElements()` -/
def size : Nat := sh.lead.prod * sh.last
end Shape

/-- A shift operand: type of width `w` (64 for `index`), value, and whether it is a constant op. -/
structure Sh where
  w : Nat
  v : BitVec w
  const : Bool

/-- Result of a rewrite: the pattern does not apply, it makes IR that the verifier rejects, it makes
an op with undefined behaviour (or trips an assertion), or it gives the replacement. -/
inductive Res (β : Type) where
  | noMatch
  | invalid
  | ub
  | ok (b : β)
deriving DecidableEq

def Res.bind {β γ : Type} : Res β → (β → Res γ) → Res γ
  | .noMatch, _ => .noMatch
  | .invalid, _ => .invalid
  | .ub, _ => .ub
  | .ok b, f => f b

/-- Tensor expressions, all of one shape. `splat` and `dense` are `arith.constant` with a splat or
other dense attribute, elements in row-major order. -/
inductive TExpr (α : Type) where
  | leaf (v : Nat → α)
  | splat (x : α)
  | dense (elts : List α)
  | rotate (t : TExpr α) (s : Sh)
  | bin (op : α → α → α) (a b : TExpr α)

/-- `arith.addi` on shifts; operands of different types are rejected by the verifier. The sum of two
constants is folded to a constant. -/
def addi (a b : Sh) : Res Sh :=
  if h : b.w = a.w then .ok ⟨a.w, a.v + b.v.cast h, a.const && b.const⟩ else .invalid

/-- `IntegerAttr::getInt` / `getSExtValue`: asserts that the value fits in 64 bits. -/
def getInt (s : Sh) : Res Int :=
  if -2 ^ 63 ≤ s.v.toInt ∧ s.v.toInt < 2 ^ 63 then .ok s.v.toInt else .ub

variable {α : Type}

/-- `RotateDenseConstant`, `TensorExtCanonicalization.td:33-37` -/
def rotateDenseConstant : TExpr α → Res (TExpr α)
  | .rotate (.splat x) _ => .ok (.splat x)
  | _ => .noMatch

/-- `DropZeroRotation`, `TensorExtCanonicalization.td:40-44` -/
def dropZeroRotation : TExpr α → Res (TExpr α)
  | .rotate t s => if s.const && s.v == 0 then .ok t else .noMatch
  | _ => .noMatch

/-- `OutOfBoundsOfTensorDim`, `TensorExtCanonicalization.td:10-17` -/
def outOfBounds (sh : Shape) (s : Int) : Bool := decide (s < 0 ∨ (sh.dim0 : Int) < s)

/-- `arith.remui` of the shift by the first dimension cast to the type of the shift
(`TensorExtCanonicalization.td:53-59`); dividing by zero is undefined. -/
def remDim (sh : Shape) (s : Sh) : Res Sh :=
  if BitVec.ofNat s.w sh.dim0 = 0 then .ub
  else .ok ⟨s.w, s.v % BitVec.ofNat s.w sh.dim0, s.const⟩

/-- `NormalizeRotationIndex`, `TensorExtCanonicalization.td:50-63` -/
def normalizeRotationIndex (sh : Shape) : TExpr α → Res (TExpr α)
  | .rotate t s =>
    if s.const then
      (getInt s).bind fun x =>
        if outOfBounds sh x && sh.rank == 1 then
          (remDim sh s).bind fun s' => .ok (.rotate t s')
        else .noMatch
    else .noMatch
  | _ => .noMatch

/-- `CombineSequentialRotates`, `TensorExtCanonicalization.td:68-74` -/
def combineSequentialRotates : TExpr α → Res (TExpr α)
  | .rotate (.rotate t x) y =>
    if x.const && y.const then (addi x y).bind fun s => .ok (.rotate t s) else .noMatch
  | _ => .noMatch

open Classical in
/-- `FactorParallelRotationsThroughOp`, `TensorExtCanonicalization.td:92-99` and `:183-190`: both
rotations by the same SSA value. -/
noncomputable def factorParallelRotations : TExpr α → Res (TExpr α)
  | .bin op (.rotate a i) (.rotate b j) => if i = j then .ok (.rotate (.bin op a b) i) else .noMatch
  | _ => .noMatch

/-- `MergeRotationsSandwichingOp`, `TensorExtCanonicalization.td:109-121` and `:192-204` -/
def mergeSandwich : TExpr α → Res (TExpr α)
  | .rotate (.bin op (.rotate a s1) (.rotate b s2)) s3 =>
    (addi s3 s1).bind fun x => (addi s3 s2).bind fun y => .ok (.bin op (.rotate a x) (.rotate b y))
  | _ => .noMatch

/-- `MergeEquivalentRotationsEarlierLHS`, `TensorExtCanonicalization.td:133-166` and `:206-218` -/
def mergeEarlierLHS : TExpr α → Res (TExpr α)
  | .rotate (.bin op (.rotate a s1) b) s2 =>
    (addi s2 s1).bind fun x => .ok (.bin op (.rotate a x) (.rotate b s2))
  | _ => .noMatch

/-- `MergeEquivalentRotationsEarlierRHS`, `TensorExtCanonicalization.td:167-179` and `:220-232` -/
def mergeEarlierRHS : TExpr α → Res (TExpr α)
  | .rotate (.bin op a (.rotate b s1)) s2 =>
    (addi s2 s1).bind fun x => .ok (.bin op (.rotate a s2) (.rotate b x))
  | _ => .noMatch

/-- Source position in `rotateAttrValues` (`TensorExtOps.cpp:43-45`): `i + shift` is a signed 64-bit
addition (overflow undefined), then `+ size` and `% size` are unsigned. -/
def sourceIndex (size i : Nat) (shift : Int) : Option Nat :=
  if -2 ^ 63 ≤ i + shift ∧ i + shift < 2 ^ 63 then
    some ((BitVec.ofInt 64 (i + shift) + BitVec.ofNat 64 size) % BitVec.ofNat 64 size).toNat
  else none

/-- `rotateAttrValues`, `TensorExtOps.cpp:39-48`; an index outside the vector is undefined. -/
def rotateAttrValues (elts : List α) (shift : Int) : Option (List α) :=
  (List.range elts.length).mapM fun i =>
    (sourceIndex elts.length i shift).bind fun k => elts[k]?

/-- `FoldRotateOfConst`, `TensorExtOps.cpp:51-100`; the elements of a splat are enumerated too. -/
def foldRotateOfConst (sh : Shape) : TExpr α → Res (TExpr α)
  | .rotate (.splat x) s =>
    if s.const then
      (getInt s).bind fun k =>
        match rotateAttrValues (List.replicate sh.size x) k with
        | some e => .ok (.dense e)
        | none => .ub
    else .noMatch
  | .rotate (.dense elts) s =>
    if s.const then
      (getInt s).bind fun k =>
        match rotateAttrValues elts k with
        | some e => .ok (.dense e)
        | none => .ub
    else .noMatch
  | _ => .noMatch

/-- The canonicalization patterns of `RotateOp`, `TensorExtOps.cpp:102-106`. -/
noncomputable def patterns (sh : Shape) : List (TExpr α → Res (TExpr α)) :=
  [foldRotateOfConst sh, rotateDenseConstant, dropZeroRotation, normalizeRotationIndex sh,
   combineSequentialRotates, factorParallelRotations, mergeSandwich, mergeEarlierLHS, mergeEarlierRHS]

/-- One application of a pattern anywhere in the expression, as the greedy driver does. -/
inductive Step (sh : Shape) : TExpr α → TExpr α → Prop
  | root {p e e'} : p ∈ patterns sh → p e = .ok e' → Step sh e e'
  | rotate {t t' s} : Step sh t t' → Step sh (.rotate t s) (.rotate t' s)
  | left {op a a' b} : Step sh a a' → Step sh (.bin op a b) (.bin op a' b)
  | right {op a b b'} : Step sh b b' → Step sh (.bin op a b) (.bin op a b')

/-- `tensor.extract` from a tensor expression at one run-time index. -/
structure Extract (α : Type) where
  t : TExpr α
  index : BitVec 64

/-- `RotatePlusExtractToIndexedExtract`, `TensorExtCanonicalization.td:78-85`: one index, so rank 1;
the sum of a shift that is not of index type and the index is rejected by the verifier. -/
def rotatePlusExtract (sh : Shape) : Extract α → Res (Extract α)
  | ⟨.rotate t s, i⟩ =>
    if sh.rank = 1 then
      (addi s ⟨64, i, false⟩).bind fun k => .ok ⟨t, k.v.setWidth 64⟩
    else .noMatch
  | _ => .noMatch

/-! ## Lowering to slices, `TensorExtToTensor.cpp:31-168` -/

/-- Normalized shift and the width of the right slice in `ConvertRotateOp`. Constant shifts
(`TensorExtToTensor.cpp:61-67`, `:111-113`) are reduced in 64-bit integers, stored in the type of the
shift (`Builder::getIntegerAttr` truncates) and read again with `getInt`. Run-time shifts (`:68-81`,
`:114-123`) use `remsi`, `addi`, `remsi` with the dimension as a constant of that type (`:58-59`), an
`index_cast` and a subtraction. Signed remainder by zero or minus one is left undefined. -/
def normalizedShift (sh : Shape) (s : Sh) : Option (Int × Int) :=
  if sh.last = 0 then none
  else if s.const then
    match getInt s with
    | .ok k =>
      let r := k.tmod sh.last
      let ns := (BitVec.ofInt s.w (if r < 0 then r + sh.last else r)).toInt
      some (ns, sh.last - ns)
    | _ => none
  else
    let d := BitVec.ofNat s.w sh.last
    if d = 0 ∨ d = -1 then none
    else
      let ns := (((s.v.srem d) + d).srem d).toInt
      some (ns, d.toInt - ns)

/-- `tensor.extract_slice` / `tensor.insert_slice` along the last axis on flat row-major data: copy
`len` columns of every row of `src`, from column `from_` to column `to_` of `dst`. -/
def copyCols (n : Nat) (src dst : Nat → α) (from_ to_ len : Int) : Nat → α := fun f =>
  let c : Int := (f % n : Nat)
  if to_ ≤ c ∧ c < to_ + len then src (f / n * n + (c - to_ + from_).toNat) else dst f

/-- The result of `ConvertRotateOp`, `TensorExtToTensor.cpp:83-165`: the left slice (columns before
the shift) goes to the back and the right slice to the front. Slices that do not fit in the tensor are
rejected by the verifier or undefined. -/
def convertRotate (sh : Shape) (v : Nat → α) (s : Sh) : Option (Nat → α) :=
  (normalizedShift sh s).bind fun (k, dimMinusShift) =>
    if 0 ≤ k ∧ 0 ≤ dimMinusShift ∧ k + dimMinusShift ≤ sh.last then
      let withLeft := copyCols sh.last v v 0 dimMinusShift k
      some (copyCols sh.last v withLeft k 0 dimMinusShift)
    else none

end Heir.Rotate
