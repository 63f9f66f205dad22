import Verif.Fold.Model

/-! # Element-wise linalg ops, broadcasts and reshapes

Model of the element-wise and broadcast patterns in `lib/Transforms/LinalgCanonicalizations`. Shapes
are static. -/

namespace Heir.Linalg

/-! ## Element-wise ops -/

/-- A value used in the body of a `linalg.map` or `linalg.generic`: a block argument, a value defined
outside, or the result of the n-th op of the body. -/
inductive Val where
  | arg (i : Nat)
  | outer (v : Nat)
  | res (n : Nat)
  deriving DecidableEq, Repr

/-- An op of the body with one result. The attributes of the op are one opaque value. Constants are
not modelled; the greedy driver hoists them out of the body before the patterns run. -/
structure Op (ν : Type) where
  name : Nat
  attrs : Nat
  operands : List ν
  deriving DecidableEq, Repr

/-- A `linalg.map` on the tensors `0, …, numInputs - 1`. -/
structure MapOp where
  numInputs : Nat
  attrs : Nat
  body : List (Op Val)
  yielded : Val
  deriving DecidableEq, Repr

/-- `LinalgMapToElementwise`, LinalgCanonicalizations.cpp:426-456: the new op has the inputs and the
attributes of the `linalg.map`. `elementwise` is `hasTrait<Elementwise>`. -/
def mapToElementwise (elementwise : Nat → Bool) (m : MapOp) : Option (Op Nat) :=
  match m.body with
  | [op] => if elementwise op.name then some ⟨op.name, m.attrs, List.range m.numInputs⟩ else none
  | _ => none

/-- A tensor in the code that replaces a `linalg.generic`: an operand of it, a `tensor.splat`, or the
result of the n-th new op. -/
inductive TVal where
  | operand (i : Nat)
  | splat (v : Nat)
  | res (n : Nat)
  deriving DecidableEq, Repr

/-- The `IRMapping`; the newest entry first. -/
abbrev Bvm := List (Val × TVal)

/-- One step of the loop over the operands of an inner op, LinalgCanonicalizations.cpp:542-567.
`none`: an assertion fails. -/
def mapOperand (numInputs : Nat) (bvm : Bvm) : Val → Option Bvm
  | .arg i => if i < numInputs then some ((.arg i, .operand i) :: bvm) else none
  | .outer v => some ((.outer v, .splat v) :: bvm)
  | .res n => if (bvm.lookup (.res n)).isSome then some bvm else none

/-- The loop over the operands. -/
def mapOperands (numInputs : Nat) : List Val → Bvm → Option Bvm
  | [], bvm => some bvm
  | v :: vs, bvm => (mapOperand numInputs bvm v).bind (mapOperands numInputs vs)

/-- The loop over the body, LinalgCanonicalizations.cpp:511-587 without the yield: `n` ops have been
replaced. Attributes of the `linalg.generic` that are copied to the new ops are not modelled. -/
def mapBody (numInputs : Nat) : List (Op Val) → Nat → Bvm → List (Op TVal) →
    Option (Bvm × List (Op TVal))
  | [], _, bvm, ops => some (bvm, ops)
  | op :: rest, n, bvm, ops =>
    (mapOperands numInputs op.operands bvm).bind fun bvm =>
      (op.operands.mapM fun v => bvm.lookup v).bind fun newInputs =>
        mapBody numInputs rest (n + 1) ((.res n, .res n) :: bvm)
          (ops ++ [⟨op.name, op.attrs, newInputs⟩])

/-- One yielded value, LinalgCanonicalizations.cpp:512-536. -/
def mapYield (bvm : Bvm) (v : Val) : Option TVal :=
  match bvm.lookup v with
  | some t => some t
  | none => match v with
    | .outer v => some (.splat v)
    | _ => none

/-- `LinalgGenericToElementwise`, LinalgCanonicalizations.cpp:461-591, after the checks of the traits,
the indexing maps and the iterator types. -/
def genericToElementwise (numInputs numOutputs : Nat) (body : List (Op Val)) (yielded : List Val) :
    Option (List (Op TVal) × List TVal) :=
  let bvm := (List.range (numInputs + numOutputs)).map fun i => (Val.arg i, TVal.operand i)
  (mapBody numInputs body 0 bvm []).bind fun (bvm, ops) =>
    (yielded.mapM (mapYield bvm)).map fun results => (ops, results)

/-! ## Reshapes -/

/-- The loops of `getReassociationForReshapeAtDim`, lib/Utils/TensorUtils.cpp:70-82, as one pass over
the dimensions: `group` is the open group, and `started` whether it has a dimension that is no
position. -/
def reassociate (positions : List Nat) : List Nat → List Nat → Bool → List (List Nat)
  | [], group, started => if started then [group] else []
  | dim :: dims, group, started =>
    if dim ∈ positions then reassociate positions dims (group ++ [dim]) started
    else if started then group :: reassociate positions dims [dim] true
    else reassociate positions dims (group ++ [dim]) true

/-- `getReassociationForReshapeAtDim`, lib/Utils/TensorUtils.cpp:57-84. -/
def getReassociationForReshapeAtDim (rank : Nat) (positions : List Nat) : List (List Nat) :=
  reassociate positions (List.range rank) [] false

/-- MLIR's `isRankReducedType` on static shapes of the same element type (`computeRankReductionMask`):
extents are matched greedily, and the others are 1. -/
def isRankReduced : List Nat → List Nat → Bool
  | [], reduced => reduced.isEmpty
  | d :: ds, [] => d = 1 && isRankReduced ds []
  | d :: ds, r :: rs => if d = r then isRankReduced ds rs else d = 1 && isRankReduced ds (r :: rs)

/-- `BroadcastToExpandShape`, LinalgCanonicalizations.cpp:593-620: the reassociation of the
`tensor.expand_shape`. -/
def broadcastToExpandShape (initShape inputShape dimensions : List Nat) :
    Option (List (List Nat)) :=
  if isRankReduced initShape inputShape then
    some (getReassociationForReshapeAtDim initShape.length dimensions)
  else none

/-! ## Broadcasts of operands -/

/-- A result of an indexing map. -/
inductive Expr where
  | dim (i : Nat)
  | const (c : Nat)
  | other (e : Nat)
  deriving DecidableEq, Repr

/-- The dimensions used, LinalgCanonicalizations.cpp:1012-1017. -/
def usedDims : List Expr → List Nat
  | [] => []
  | .dim i :: es => i :: usedDims es
  | _ :: es => usedDims es

/-- `getBroadcastDimensions`, LinalgCanonicalizations.cpp:1010-1025. -/
def getBroadcastDimensions (map : List Expr) (numDims : Nat) : List Nat :=
  (List.range numDims).filter fun i => i ∉ usedDims map

/-- The loop of `tryCollapseUnitDims`, LinalgCanonicalizations.cpp:1112-1120. -/
def dimsToDrop : Nat → List Expr → List Nat → List Nat
  | j, .const _ :: es, d :: ds =>
    if d = 1 then j :: dimsToDrop (j + 1) es ds else dimsToDrop (j + 1) es ds
  | j, _ :: es, _ :: ds => dimsToDrop (j + 1) es ds
  | _, _, _ => []

/-- `tryCollapseUnitDims`, LinalgCanonicalizations.cpp:1106-1146: the dimensions dropped. -/
def tryCollapseUnitDims (shape : List Nat) (map : List Expr) (targetRank : Nat) :
    Option (List Nat) :=
  if shape.length ≤ targetRank then some []
  else
    let drop := dimsToDrop 0 map shape
    if drop = [] ∨ shape.length - drop.length > targetRank then none else some drop

/-- `materializeBroadcastForOperand`, LinalgCanonicalizations.cpp:1148-1172: the dimensions of the
operand that are collapsed and those the `linalg.broadcast` adds. -/
def materialize (shape : List Nat) (map : List Expr) (numDims : Nat) :
    Option (List Nat × List Nat) :=
  let added := getBroadcastDimensions map numDims
  (tryCollapseUnitDims shape map (numDims - added.length)).map fun drop => (drop, added)

end Heir.Linalg
