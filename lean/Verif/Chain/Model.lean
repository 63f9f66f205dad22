import Mathlib.Data.Finset.Card

/-! # Insertion chains

`lib/Dialect/TensorExt/Transforms/CollapseInsertionChains.cpp` and `get1DExtractionIndex` of
`lib/Dialect/Utils.h`.

Simplifications. A program is a straight-line list of SSA values, the operand of an op being the
position of an earlier value. Index arithmetic is on unbounded integers (the code uses `int64_t`).
Shapes are static. -/

namespace Heir.Chain

/-- An index operand: its run-time value and whether an `arith.constant` of index type defines it. -/
structure Idx where
  val : Int
  const : Bool
deriving DecidableEq

/-- Ops that matter to the pass; `other` is anything else. -/
inductive Kind where
  | other
  | extract (src : Nat) (idx : List Idx)
  | insert (scalar dest : Nat) (idx : List Idx)
  | rotate (src : Nat) (shift : Int)
deriving DecidableEq

/-- One SSA value: the shape of its type (empty for a scalar) and the op that defines it. -/
structure Op where
  shape : List Nat
  kind : Kind
deriving DecidableEq

/-- `cast<RankedTensorType>(v.getType()).getShape()` -/
def shapeAt (prog : List Op) (v : Nat) : List Nat := (prog[v]?.map Op.shape).getD []

/-- `get1DExtractionIndex`, `lib/Dialect/Utils.h:22-40` -/
def get1DIndex : List Idx → Option Int
  | [i] => if i.const then some i.val else none
  | _ => none

/-- `getScalar().getDefiningOp<tensor::ExtractOp>()`: source tensor and indices. -/
def definingExtract (prog : List Op) (scalar : Nat) : Option (Nat × List Idx) :=
  match prog[scalar]? with
  | some ⟨_, .extract src idx⟩ => some (src, idx)
  | _ => none

/-- The normalized offset of two indices, `CollapseInsertionChains.cpp:53-54` -/
def offset (size : Nat) (insertIdx extractIdx : Int) : Int :=
  if extractIdx - insertIdx < 0 then extractIdx - insertIdx + size else extractIdx - insertIdx

/-- `calculateShift`, `CollapseInsertionChains.cpp:40-63` -/
def calculateShift (prog : List Op) (dest : Nat) (insertIdx : List Idx) (src : Nat)
    (extractIdx : List Idx) : Option Int :=
  (get1DIndex insertIdx).bind fun i => (get1DIndex extractIdx).bind fun e =>
    if shapeAt prog dest ≠ shapeAt prog src then none
    else some (offset ((shapeAt prog dest).headD 0) i e)

/-- Loop variables of the walk: `current`, `accessedIndices`, `foundNext`. -/
structure Walk where
  current : Nat
  accessed : Finset Int
  found : Bool
deriving DecidableEq

/-- The insert op `user` in the loop over the users, `CollapseInsertionChains.cpp:114-136`. -/
def visitInsert (prog : List Op) (source : Nat) (shift : Int) (w : Walk) (user scalar dest : Nat)
    (idx : List Idx) : Option Walk :=
  match definingExtract prog scalar with
  | none => some w
  | some (src, eidx) =>
    if src ≠ source then none
    else (calculateShift prog dest idx src eidx).bind fun k =>
      if k ≠ shift then none
      else (get1DIndex idx).bind fun i => some ⟨user, insert i w.accessed, true⟩

/-- One user, `CollapseInsertionChains.cpp:112-138`; `none` is a match failure. -/
def visitUser (prog : List Op) (source : Nat) (shift : Int) (w : Walk) (user : Nat) : Option Walk :=
  match prog[user]? with
  | some ⟨_, .insert scalar dest idx⟩ => visitInsert prog source shift w user scalar dest idx
  | _ => some w

/-- The loop `CollapseInsertionChains.cpp:109-143`. The users of the value `current` had when the
inner loop started are visited. The fuel bounds the outer loop (`walk_fuel`). -/
def walk (prog : List Op) (users : Nat → List Nat) (source : Nat) (shift : Int) :
    Nat → Nat → Finset Int → Option (Nat × Finset Int)
  | 0, _, _ => none
  | fuel + 1, current, accessed =>
    ((users current).foldlM (visitUser prog source shift) ⟨current, accessed, false⟩).bind fun w =>
      if w.found then walk prog users source shift fuel w.current w.accessed
      else some (w.current, w.accessed)

/-- `matchAndRewrite`, `CollapseInsertionChains.cpp:65-178`, on the insert op at position `k`: the
program in which the last insertion reached is a rotation. `users` lists the users of every value in
the order of its use list. -/
def matchAndRewrite (prog : List Op) (users : Nat → List Nat) (k : Nat) : Option (List Op) :=
  match prog[k]? with
  | some ⟨_, .insert scalar dest idx⟩ =>
    (definingExtract prog scalar).bind fun e =>
      (calculateShift prog dest idx e.1 e.2).bind fun shift =>
        (get1DIndex idx).bind fun i =>
          (walk prog users e.1 shift prog.length k {i}).bind fun r =>
            if r.2.card ≠ (shapeAt prog e.1).headD 0 then none
            else some (prog.set r.1 ⟨shapeAt prog r.1, .rotate e.1 shift⟩)
  | _ => none

end Heir.Chain
