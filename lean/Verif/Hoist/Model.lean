import Verif.Layout.Model

/-!
# Model of what is done with layouts when operations are moved past conversions

Sources: `lib/Transforms/LayoutOptimization/InterfaceImpl.cpp`,
`lib/Transforms/LayoutOptimization/Patterns.cpp`, `lib/Utils/Layout/Hoisting.cpp`,
`lib/Utils/Layout/Utils.cpp`.

An `IntegerRelation` is the set of its points: a relation of an index of the tensor (a list) with a
ciphertext and a slot.  Simplification of constraints keeps the set and is left out.
-/

namespace Heir.Hoist

open Heir.Layout

/-- A layout. -/
abbrev Rel := List Nat → Nat → Nat → Prop

/-! ### `tensor.collapse_shape`

The shape of the source is given by its groups, `reassociation` as the list of their sizes. -/

/-- `isTrivialRankReduction`, `InterfaceImpl.cpp:217-229`. -/
def isTrivialRankReduction (groups : List (List Nat)) : Bool :=
  groups.all fun g => decide ((g.filter (· ≠ 1)).length ≤ 1)

/-- `nonUnitIdx`, `InterfaceImpl.cpp:241-248`, as a position in the group. -/
def repDim (g : List Nat) : Nat :=
  match g.findIdx? (· ≠ 1) with
  | some p => p
  | none => 0

/-- The equalities for one group, `InterfaceImpl.cpp:250-261`. -/
def groupRel (g idx : List Nat) (o : Nat) : Prop :=
  idx.length = g.length ∧ ∀ p, p < g.length → idx.getD p 0 = if p = repDim g then o else 0

/-- `mapRel`, `InterfaceImpl.cpp:237-262`. -/
def mapRel : List (List Nat) → List Nat → List Nat → Prop
  | [], idx, out => idx = [] ∧ out = []
  | g :: gs, idx, o :: out => groupRel g (idx.take g.length) o ∧ mapRel gs (idx.drop g.length) out
  | _ :: _, _, [] => False

/-- `hoistLayoutThroughCollapseShape`, `InterfaceImpl.cpp:231-266`. -/
def hoistCollapse (groups : List (List Nat)) (rel : Rel) : Rel :=
  fun idx ct slot => ∃ out, mapRel groups idx out ∧ rel out ct slot

/-- `createCollapseShapeHoister`, `InterfaceImpl.cpp:268-286`: the layout of the operand. -/
def collapseHoister (groups : List (List Nat)) (toRel : Rel) : Option Rel :=
  if isTrivialRankReduction groups then some (hoistCollapse groups toRel) else none

/-! ### `tensor.pad` -/

/-- `getPaddingRelation`, `Utils.cpp:1215-1252`: an index of the padded tensor and one of the
source. -/
def paddingRel (padded unpadded low : List Nat) (P S : List Nat) : Prop :=
  InBounds padded P ∧ InBounds unpadded S ∧ P = S.zipWith (· + ·) low

/-- `hoistLayoutThroughPad`, `InterfaceImpl.cpp:288-298`. -/
def hoistPad (padded unpadded low : List Nat) (toRel : Rel) : Rel :=
  fun S ct slot => ∃ P, paddingRel padded unpadded low P S ∧ toRel P ct slot

/-! ### `collapseDimensions` and `expandDimensions` -/

/-- `IntegerRelation::setAndEliminate(pos, 0)`. -/
def setElim (rel : Rel) (pos : Nat) : Rel := fun idx => rel (idx.insertIdx pos 0)

/-- The positions that are eliminated for a group that begins at dimension `start`, in order,
`Utils.cpp:680-687`. -/
def elimGroup (start : Nat) (g : List Nat) : List Nat :=
  if g.length = 1 then []
  else ((g.zipIdx start).filter fun x => x.1 == 1).reverse.map (·.2)

/-- All positions, group by group, `Utils.cpp:675-688`. -/
def elims : Nat → List (List Nat) → List Nat
  | _, [] => []
  | start, g :: gs => elimGroup start g ++ elims (start + g.length) gs

/-- `collapseDimensions`, `Utils.cpp:671-690`. -/
def collapseDimensions (groups : List (List Nat)) (rel : Rel) : Rel :=
  (elims 0 groups).foldl setElim rel

/-- `insertVar` of a domain variable that is bounded to be zero. -/
def insertZero (rel : Rel) (pos : Nat) : Rel :=
  fun idx ct slot => idx[pos]? = some 0 ∧ rel (idx.eraseIdx pos) ct slot

/-- The positions at which variables are inserted, `Utils.cpp:713-735`; `oldDim` counts. -/
def inserts : Nat → List (List Nat) → List Nat
  | _, [] => []
  | oldDim, g :: gs =>
    (if g.length = 1 then [] else ((g.zipIdx oldDim).filter fun x => !decide (1 < x.1)).map (·.2))
      ++ inserts (oldDim + g.length) gs

/-- `expandDimensions`, `Utils.cpp:692-741`, for a result of the given groups; `rank` is the number
of dimensions of the source.  `none`: the assertion on the rank fails. -/
def expandDimensions (rank : Nat) (groups : List (List Nat)) (rel : Rel) : Option Rel :=
  if rank + (inserts 0 groups).length = groups.flatten.length then
    some ((inserts 0 groups).foldl insertZero rel)
  else none

/-! ### `pushSliceLayoutThroughInsertSlice` -/

/-- The number of the slice, `Hoisting.cpp:157-162` (`product` is an `unsigned`, which is taken to
be large enough). -/
def sliceNumber : List Nat → List Nat → List Nat → Nat → Nat
  | s :: ss, d :: ds, i :: is, p =>
    if s = 1 then i * p + sliceNumber ss ds is (p * d) else sliceNumber ss ds is p
  | _, _, _, _ => 0

/-- The coordinates in the slice. -/
def strip : List Nat → List Nat → List Nat
  | s :: ss, i :: is => if s = 1 then strip ss is else i :: strip ss is
  | _, _ => []

/-- The bounds of the unit dimensions, `Hoisting.cpp:126`, `:148`. -/
def unitBounds : List Nat → List Nat → List Nat → Prop
  | s :: ss, d :: ds, i :: is => (s = 1 → i < d) ∧ unitBounds ss ds is
  | [], [], [] => True
  | _, _, _ => False

/-- The number of domain variables of the result, `Hoisting.cpp:122-150`. -/
def pushedRank (numDomain : Nat) (sizes : List Nat) : Nat :=
  if numDomain < sizes.length then numDomain + (sizes.filter (· = 1)).length else numDomain

/-- `pushSliceLayoutThroughInsertSlice`, `Hoisting.cpp:86-191`, for a layout of the slice in terms
of the dimensions that are not units; `numCt` is the upper bound of its ciphertexts.  (If the layout
has all dimensions, constraints that mention a unit dimension are dropped, `:134-149`; for layouts
read from attributes, which isl has solved for that dimension, that leaves the same relation.)
`none`: the assertion on the sizes fails. -/
def pushSlice (sizes shape : List Nat) (numCt : Nat) (rel : Rel) : Option Rel :=
  if List.Forall₂ (fun s d => s ≠ 1 → s = d) sizes shape then
    some fun idx ct' slot => unitBounds sizes shape idx ∧ ∃ ct, ct ≤ numCt ∧
      rel (strip sizes idx) ct slot ∧ ct' = sliceNumber sizes shape idx 1 * (numCt + 1) + ct
  else none

/-! ### matrix-vector products -/

/-- Layouts of a vector in one ciphertext, and of a matrix. -/
abbrev VecRel := Nat → Nat → Prop
abbrev MatRel := Nat × Nat → Nat → Nat → Prop

/-- `hoistConversionThroughMatvec`, `Hoisting.cpp:26-84`: the slots of the matrix move as those of
the vector. -/
def hoistMatvec (matrix : MatRel) (fromVec toVec : VecRel) : MatRel :=
  fun idx ct slot => ∃ s, matrix idx ct s ∧ ∃ i, fromVec i s ∧ toVec i slot

/-- `createPrecomposingMatvecHoister`, `InterfaceImpl.cpp:318-360`: the layouts of the matrix, of
the vector and of the result after hoisting the conversion of the result. -/
def matvecHoister (matrix : MatRel) (fromVec toVec : VecRel) : MatRel × VecRel × VecRel :=
  (hoistMatvec matrix fromVec toVec, toVec, toVec)

/-- `foldVectorPermutationIntoMatrixLayout`, `Utils.cpp:607-631`. -/
def foldVec (vec : VecRel) (matrix : MatRel) : MatRel :=
  fun idx ct slot => ∃ s, vec idx.2 s ∧ matrix (idx.1, s) ct slot

/-- `isOneToOneSingleCiphertextPacking`, `Utils.cpp:562-587`, for a vector of `n` elements: as a
relation of elements to slots of the first ciphertext, bijective onto its range. -/
def oneToOne (vec : VecRel) : Prop :=
  (∀ i s s', vec i s → vec i s' → s = s') ∧ ∀ i i' s, vec i s → vec i' s → i = i'

end Heir.Hoist
