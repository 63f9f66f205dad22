import Verif.Forward.Model

/-! # Folding ops on constant tensors

Model of the constant folds in `lib/Transforms/LinalgCanonicalizations` and
`lib/Transforms/FoldConstantTensors`. Constants are the lists of their elements in row-major order;
extents, indices, offsets and strides are nonnegative, and products of extents fit `int64_t`. -/

namespace Heir.Fold

open Forward (getFlattenedIndex)

variable {α : Type}

/-- The second loop of `getIndicesFromRowMajorShape`, lib/Utils/TensorUtils.cpp:46-53. Dividing by
zero is undefined. -/
def unflattenLoop : List Nat → Nat → Nat → Option (List Nat)
  | [], _, _ => some []
  | d :: ds, mod, remainder =>
    if d = 0 ∨ mod / d = 0 then none
    else
      let index := remainder / (mod / d)
      (unflattenLoop ds (mod / d) (remainder - index * (mod / d))).map (index :: ·)

/-- `getIndicesFromRowMajorShape`, lib/Utils/TensorUtils.cpp:38-55. -/
def getIndicesFromRowMajorShape (flattenedIndex : Nat) (shape : List Nat) : Option (List Nat) :=
  unflattenLoop shape (shape.foldl (· * ·) 1) flattenedIndex

/-- The first loop of `convertTransposedIndexToOriginalIndex`, LinalgCanonicalizations.cpp:276-288,
over the extents `inputShape[permutation[dim]]`. -/
def transposedIndicesLoop : List Nat → Nat → Nat → Option (List Nat)
  | [], _, _ => some []
  | d :: ds, size, remainder =>
    if d = 0 ∨ size / d = 0 then none
    else (transposedIndicesLoop ds (size / d) (remainder % (size / d))).map
      (remainder / (size / d) :: ·)

/-- The second loop, LinalgCanonicalizations.cpp:290-294; writing outside the vector is
undefined. -/
def scatter : List Nat → List Nat → List Nat → Option (List Nat)
  | p :: ps, i :: is, out => if p < out.length then scatter ps is (out.set p i) else none
  | _, _, out => some out

/-- The third loop, LinalgCanonicalizations.cpp:296-303. -/
def originalIndexLoop : List Nat → List Nat → Nat → Nat → Option Nat
  | d :: ds, i :: is, size, acc =>
    if d = 0 then none else originalIndexLoop ds is (size / d) (acc + i * (size / d))
  | _, _, _, acc => some acc

/-- `convertTransposedIndexToOriginalIndex`, LinalgCanonicalizations.cpp:271-304. Reading
`inputShape` outside is undefined. -/
def convertTransposedIndexToOriginalIndex (inputShape : List Nat) (totalSize : Nat)
    (permutation : List Nat) (transposedIndex : Nat) : Option Nat :=
  (permutation.mapM fun p => inputShape[p]?).bind fun extents =>
    (transposedIndicesLoop extents totalSize transposedIndex).bind fun transposedIndices =>
      (scatter permutation transposedIndices (List.replicate permutation.length 0)).bind
        fun originalIndices => originalIndexLoop inputShape originalIndices totalSize 0

/-- `convertConstantToTransposedElementsAttr`, LinalgCanonicalizations.cpp:248-269. The counter is an
`int`, so from 2^31 elements on the loop is undefined. -/
def foldTranspose (elements : List α) (inputShape permutation : List Nat) : Option (List α) :=
  if elements.length ≥ 2147483648 then none
  else (List.range elements.length).mapM fun i =>
    (convertTransposedIndexToOriginalIndex inputShape elements.length permutation i).bind fun k =>
      elements[k]?

/-- The entries of a vector at the output dimensions that are not added by the broadcast: the loops
over `outToInDim`, LinalgCanonicalizations.cpp:101-110 and 138-143, also 382-390 and 402-406. -/
def keep (dimensions : List Nat) : Nat → List α → List α
  | _, [] => []
  | dim, x :: xs =>
    if dim ∈ dimensions then keep dimensions (dim + 1) xs else x :: keep dimensions (dim + 1) xs

/-- `inputValues[flatIndex.value()]` with the position computed by `getFlattenedIndex`. -/
def readFlat (elements : List α) (shape : List Nat) (indices : List Nat) : Option α :=
  (getFlattenedIndex shape (indices.map Int.ofNat)).bind fun k =>
    if 0 ≤ k then elements[k.toNat]? else none

/-- `FoldConstantBroadcast`, LinalgCanonicalizations.cpp:333-422, for constants that are no
splats. -/
def foldBroadcast (elements : List α) (inShape outShape dimensions : List Nat) : Option (List α) :=
  (List.range (outShape.foldl (· * ·) 1)).mapM fun i =>
    (getIndicesFromRowMajorShape i outShape).bind fun resultIndices =>
      readFlat elements inShape (keep dimensions 0 resultIndices)

/-- The loop over the source dimensions, LinalgCanonicalizations.cpp:127-136. -/
def fullSourceIndices : List Bool → List Nat → List Nat → List Nat → Option (List Nat)
  | [], [], [], _ => some []
  | dropped :: ds, o :: os, s :: ss, resultIndices =>
    if dropped then (fullSourceIndices ds os ss resultIndices).map (o :: ·)
    else match resultIndices with
      | r :: rs => (fullSourceIndices ds os ss rs).map ((o + r * s) :: ·)
      | [] => none
  | _, _, _, _ => none

/-- `FoldBroadcastExtractSlice`, LinalgCanonicalizations.cpp:54-158. -/
def foldBroadcastSlice (elements : List α) (inShape dimensions : List Nat) (droppedDims : List Bool)
    (offsets strides resultShape : List Nat) : Option (List α) :=
  (List.range (resultShape.foldl (· * ·) 1)).mapM fun i =>
    (getIndicesFromRowMajorShape i resultShape).bind fun resultIndices =>
      (fullSourceIndices droppedDims offsets strides resultIndices).bind fun full =>
        readFlat elements inShape (keep dimensions 0 full)

/-- `InsertAfterConstant`, FoldConstantTensors.cpp:48-94, with constant indices and a constant
scalar. MLIR's `getFlattenedIndex` on attributes; writing outside the vector is undefined. -/
def insertAfterConstant (elements : List α) (shape : List Nat) (indices : List Int) (scalar : α) :
    Option (List α) :=
  let k := Forward.attrPosition shape indices
  if k < elements.length then some (elements.set k scalar) else none

/-- One `tensor.insert` of a chain: the value inserted, the indices, and whether its result has
exactly one use. -/
structure Insert where
  scalar : Nat
  indices : List Forward.Idx
  oneUse : Bool
  deriving DecidableEq, Repr

/-- The outcome of a pattern. -/
inductive Out (β : Type) where
  | fail
  | ub
  | new (b : β)
  deriving DecidableEq, Repr

/-- The loop of `InsertIntoFromElements`, FoldConstantTensors.cpp:138-159: each insert is the only
user of the one before. -/
def collect (shape : List Nat) : List Insert → List (Int × Nat) → Out (List (Int × Nat))
  | [], m => .new m
  | i :: rest, m =>
    match Forward.constInts i.indices with
    | none => .fail
    | some is =>
      match getFlattenedIndex shape is with
      | none => .ub
      | some k =>
        if (m.lookup k).isSome then .fail
        else if !i.oneUse then .fail
        else collect shape rest ((k, i.scalar) :: m)

/-- One operand: the inserted value or the element of the constant,
FoldConstantTensors.cpp:164-173. -/
def element (m : List (Int × Nat)) (elements : List α) (i : Nat) : Option (Forward.Found α) :=
  match m.lookup (i : Int) with
  | some v => some (.value v)
  | none => (elements[i]?).map .attr

/-- `InsertIntoFromElements`, FoldConstantTensors.cpp:116-186: the operands of
`tensor.from_elements`. -/
def insertIntoFromElements (elements : List α) (shape : List Nat) (chain : List Insert) :
    Out (List (Forward.Found α)) :=
  match collect shape chain [] with
  | .fail => .fail
  | .ub => .ub
  | .new m =>
    match (List.range (shape.foldl (· * ·) 1)).mapM (element m elements) with
    | some l => .new l
    | none => .ub

end Heir.Fold
