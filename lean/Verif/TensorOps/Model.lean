import Verif.TensorOps.Spec

/-!
# Model of passes that take tensors apart

`lib/Transforms/TensorToScalars/TensorToScalars.cpp`,
`lib/Transforms/ElementwiseToAffine/ElementwiseToAffine.cpp`,
`lib/Transforms/TensorLinalgToAffineLoops/TensorLinalgToAffineLoops.cpp` and
`lib/Transforms/ForwardInsertSliceToExtractSlice/ForwardInsertSliceToExtractSlice.cpp`.

All shapes are static.  Tensors are functions of their indices; only indices within the shape matter.
-/

namespace Heir.TensorOps

/-! ### Tensors as scalars -/

/-- The body of the `while` loop of `getAllIndices`, `TensorToScalars.cpp:43-57`. -/
def extend (old : List (List Nat)) (d : Nat) : List (List Nat) :=
  (List.range d).flatMap fun i => (if old = [] then [[i]] else []) ++ old.map (· ++ [i])

/-- `getAllIndices`, `TensorToScalars.cpp:40-61`. -/
def getAllIndices (shape : List Nat) : List (List Nat) := shape.foldl extend []

/-- The loops over the indices, `TensorToScalars.cpp:138-149` and `178-191`. -/
def offsetLoop : List Nat → List Nat → Nat → Nat → Nat
  | d :: ds, i :: is, multiplier, offset => offsetLoop ds is (multiplier * d) (offset + i * multiplier)
  | _, _, _, offset => offset

/-- The place of an element among the scalars. -/
def offset (shape idx : List Nat) : Nat := offsetLoop shape idx 1 0

/-- `buildExtractOps`, `TensorToScalars.cpp:71-96`; the largest dimension of no dimensions is
undefined. -/
def buildExtractOps {α : Type} (shape : List Nat) (t : List Nat → α) : Option (List α) :=
  if shape = [] then none else some ((getAllIndices shape).map t)

/-- `buildFromElementsOp`, `TensorToScalars.cpp:65-69`. -/
def buildFromElements {α : Type} (shape : List Nat) (vals : List α) : List Nat → Option α :=
  fromElements shape vals

/-- `ConvertConstantOp`, `TensorToScalars.cpp:201-239`: the values of the attribute in its order. -/
def convertConstant {α : Type} (shape : List Nat) (t : List Nat → α) : List α := (box shape).map t

/-- `ConvertFromElementsOp`, `TensorToScalars.cpp:100-119`, as its comment says. -/
def convertFromElements {α : Type} (operands : List α) : List α := operands

/-- `ConvertExtractOp`, `TensorToScalars.cpp:161-199`; past the end is undefined. -/
def convertExtract {α : Type} (shape : List Nat) (vals : List α) (idx : List Nat) : Option α :=
  vals[offset shape idx]?

/-- `ConvertInsertOp`, `TensorToScalars.cpp:121-159`. -/
def convertInsert {α : Type} (shape : List Nat) (vals : List α) (idx : List Nat) (x : α) :
    Option (List α) :=
  if offset shape idx < vals.length then some (vals.set (offset shape idx) x) else none

/-! ### Operations on elements as loops -/

/-- The slice of an operand of which `mapped` are mapped over, `ElementwiseToAffine.cpp:179-215`: the
index in the operand for an index in the slice. -/
def sliceIndex (mapped : List Nat) (ivs : List Nat) : Nat → Nat → List Nat → List Nat
  | _, 0, _ => []
  | d, n + 1, rest =>
    if d ∈ mapped then ivs.getD d 0 :: sliceIndex mapped ivs (d + 1) n rest
    else rest.headD 0 :: sliceIndex mapped ivs (d + 1) n rest.tail

/-- The operands of the operation in the loops, `ElementwiseToAffine.cpp:163-222`. -/
def newOperand {α : Type} (ivs : List Nat) : Operand α → Arg α
  | .whole a => a
  | .elems t => .elem (t ivs)
  | .prefix n rank t =>
    .sub (rank - n) fun rest =>
      if rest.length = rank - n then some (t (sliceIndex (List.range n) ivs 0 rank rest)) else none

/-- The loops, `ElementwiseToAffine.cpp:132-152` and `224-240`. -/
def elementLoops {α : Type} (op : List (Arg α) → α) (operands : List (Operand α)) :
    List Nat → List Nat → (List Nat → α) → (List Nat → α)
  | [], ivs, target => put target ivs (op (operands.map (newOperand ivs)))
  | d :: ds, ivs, target =>
    (List.range d).foldl (fun t i => elementLoops op operands ds (ivs ++ [i]) t) target

/-- `ConvertAnyElementwiseMappableOpOnRankedTensors`, `ElementwiseToAffine.cpp:90-246`; only the first
loop replaces the operation, hence without loops nothing does, and the `affine.yield` is outside of
any loop.  `e`: the undefined elements of `tensor.empty`. -/
def elementwise {α : Type} (op : List (Arg α) → α) (operands : List (Operand α)) (shape : List Nat)
    (e : List Nat → α) : Option (List Nat → α) :=
  if shape = [] then none else some (elementLoops op operands shape [] e)

/-! ### `linalg.generic` as loops -/

/-- `emitScalarImplementation` and `inlineRegionAndEmitStore`,
`TensorLinalgToAffineLoops.cpp:60-129`.  The body is cloned as it is: `linalg.index` in it is in no
`linalg` operation any more. -/
def scalarImpl {α : Type} (g : Generic α) (outs : List (List Nat → α)) (ivs : List Nat) :
    Option (List (List Nat → α)) :=
  let values := g.ins.map (Input.read ivs) ++ current g.maps ivs outs
  (g.body none values).map (written g.maps ivs outs)

/-- `buildAffineLoopNestWithCarriedIterArgs`, `TensorLinalgToAffineLoops.cpp:154-220`; each loop hands
the tensors to the next and yields its results. -/
def carriedLoops {α : Type} (body : List (List Nat → α) → List Nat → Option (List (List Nat → α))) :
    List Nat → List Nat → List (List Nat → α) → Option (List (List Nat → α))
  | [], ivs, outs => body outs ivs
  | d :: ds, ivs, outs =>
    (List.range d).foldlM (fun o i => carriedLoops body ds (ivs ++ [i]) o) outs

/-- `LowerLinalgGenericToLoops`, `TensorLinalgToAffineLoops.cpp:256-281`. -/
def lowerGeneric {α : Type} (g : Generic α) (outs : List (List Nat → α)) :
    Option (List (List Nat → α)) := carriedLoops (scalarImpl g) g.sizes [] outs

/-! ### Forwarding of inserted slices -/

/-- `getSliceInsertionRelation`, `lib/Utils/Layout/Utils.cpp:1144-1196`: the index in the large tensor
for an index of the small one; a dynamic offset is the number that stands for it, which is
negative. -/
def relate : List Dim → List Nat → Option (List Nat)
  | [], _ => some []
  | dim :: ds, src =>
    match dim.off with
    | .dyn _ => none
    | .static n =>
      if 1 < dim.size then (relate ds src.tail).map ((n + src.headD 0 * dim.stride) :: ·)
      else (relate ds src).map (n :: ·)

/-- The range of the relation: the bounds of both tensors are constraints. -/
def range (sl : List Dim) (shape destShape : List Nat) : List (List Nat) :=
  ((box shape).filterMap (relate sl)).filter fun r => decide (r ∈ box destShape)

/-- The ranges do not meet, `ForwardInsertSliceToExtractSlice.cpp:86-93`. -/
def disjoint (destShape : List Nat) (sl : List Dim) (shape : List Nat) (sl' : List Dim)
    (shape' : List Nat) : Bool :=
  (range sl shape destShape).all fun r => decide (r ∉ range sl' shape' destShape)

/-- `getValueAtSlice`, `ForwardInsertSliceToExtractSlice.cpp:33-117`: the value that replaces the
extraction of `sl` with the type `shape`. -/
def forward {α : Type} (destShape shape : List Nat) (sl : List Dim) :
    Prog α → Option (List Nat → Option α)
  | .other _ => none
  | .empty => some fun _ => none
  | .insert v shape' sl' dest =>
    if shape' = shape ∧ sl' = sl then some v
    else if disjoint destShape sl' shape' sl shape then forward destShape shape sl dest
    else none

end Heir.TensorOps
