import Verif.Kernel.Model
import Verif.Graph.Model
import Mathlib.Data.Prod.Lex
import Mathlib.Data.Nat.Size
import Mathlib.Data.ZMod.Basic

/-!
# Model of shift networks

`lib/Dialect/TensorExt/Transforms/{ShiftScheme.h,ShiftScheme.cpp,ImplementShiftNetwork.cpp,
RotationGroupKernel.h}`.  Indices of ciphertexts and slots are natural numbers, `int64_t` does not
overflow.  A hash map is the list of its entries in the order of iteration; the keys are distinct.
`m` is `minSlotCount`, `num` is `numCiphertexts`.
-/

namespace Heir.Shift

open Heir.Dag Heir.Kernel Heir.Graph Heir.NumTheory

/-- `CtSlot`, `ShiftScheme.h:27-47`. -/
structure CtSlot where
  ct : Nat
  slot : Nat
  deriving DecidableEq

/-- `CtSlot::operator<`, `ShiftScheme.h:40-42`. -/
instance : LinearOrder CtSlot :=
  LinearOrder.lift' (fun p => toLex (p.ct, p.slot)) (by
    rintro ⟨a, b⟩ ⟨c, d⟩ h
    have := toLex.injective h
    simp_all)

/-- `SourceShift`, `ShiftScheme.h:135-144`. -/
structure SourceShift where
  source : CtSlot
  shift : Nat
  deriving DecidableEq

/-- `ShiftRound`, `ShiftScheme.h:152-159`. -/
structure Round where
  positions : List (SourceShift × CtSlot)
  amount : Nat

/-- The entries of `targetToSource`: targets and sources. -/
abbrev Mapping := List (CtSlot × CtSlot)

/-! ## The mapping -/

/-- `Mapping::getVirtualDistance`, `ShiftScheme.h:121-124`. -/
def distance (m : Nat) (a b : CtSlot) : Nat :=
  ((a.ct : Int) - b.ct).natAbs * m + ((a.slot : Int) - b.slot).natAbs

/-- `Mapping::add`, `ShiftScheme.h:93-107`. -/
def Mapping.add (m : Nat) (mp : Mapping) (source target : CtSlot) : Mapping :=
  match mp.lookup target with
  | none => mp ++ [(target, source)]
  | some existing =>
    if distance m target source < distance m target existing then
      mp.map fun e => if e.1 = target then (target, source) else e
    else mp

/-- The loops of `populateMappingFromLayoutAttr` and `populateMappingFromDenseElementsAttr`,
`ImplementShiftNetwork.cpp:178-206`, on pairs of source and target. -/
def populate (m : Nat) (pairs : List (CtSlot × CtSlot)) : Mapping :=
  pairs.foldl (fun mp p => mp.add m p.1 p.2) []

/-! ## The rounds -/

/-- `defaultShiftOrder`, `ShiftScheme.cpp:16-22`.  `1 << i` is an `int`, so that thirty-one is too
large for `i` (`none`). -/
def defaultShiftOrder (n : Nat) : Option (List Nat) :=
  let maxLog2 := if isPowerOfTwo (BitVec.ofNat 64 n) then Nat.size n - 1 else Nat.size n
  if maxLog2 ≤ 31 then some ((List.range maxLog2).map fun i => 1 <<< i) else none

/-- `normalizeShift`, `ShiftScheme.cpp:28-36`. -/
def normalizeShift (input output size : Int) : Int :=
  let shift := -((output - input).tmod size)
  if shift < 0 then shift + size else shift

/-- `getVirtualShift`, `ShiftScheme.cpp:38-43`. -/
def virtualShift (m num : Nat) (source target : CtSlot) : Nat :=
  (normalizeShift (source.ct * m + source.slot) (target.ct * m + target.slot) (num * m)).toNat

/-- The source shifts of the mapping, `ShiftScheme.cpp:47-52`. -/
def sourceShifts (m num : Nat) (mp : Mapping) : List SourceShift :=
  mp.map fun e => ⟨e.2, virtualShift m num e.2 e.1⟩

/-- The next position of a key, `ShiftScheme.cpp:73-83`. -/
def move (m num amount : Nat) (key : SourceShift) (pos : CtSlot) : CtSlot :=
  if amount &&& key.shift ≠ 0 then
    let v : Int := ((pos.ct * m + pos.slot : Int) - amount + (num * m : Nat)).tmod (num * m : Nat)
    ⟨(v.tdiv m).toNat, (v.tmod m).toNat⟩
  else pos

/-- The body of the loop over the rotation amounts, `ShiftScheme.cpp:66-96`; a missing key is an
assertion. -/
def nextRound (m num : Nat) (keys : List SourceShift) (last : Round) (amount : Nat) : Option Round :=
  (keys.mapM fun key => (last.positions.lookup key).map fun pos => (key, move m num amount key pos)).map
    fun posns => ⟨posns, amount⟩

/-- The loop, `ShiftScheme.cpp:65-97`: the rounds after the given one. -/
def roundsFrom (m num : Nat) (keys : List SourceShift) : Round → List Nat → Option (List Round)
  | _, [] => some []
  | last, a :: order => do
    let r ← nextRound m num keys last a
    let rs ← roundsFrom m num keys r order
    some (r :: rs)

/-- The shift order of a strategy, `ShiftScheme.h:172-174`. -/
def chosenOrder (n : Nat) (order : List Nat) : Option (List Nat) :=
  if order.isEmpty then defaultShiftOrder n else some order

/-- `ShiftStrategy::ShiftStrategy` and `evaluate`, `ShiftScheme.h:168-177`, `ShiftScheme.cpp:45-98`:
the rounds, the first of which is before any rotation. -/
def evaluate (m num : Nat) (mp : Mapping) (order : List Nat) : Option (List Round) := do
  guard (isPowerOfTwo (BitVec.ofNat 64 m))
  let order ← chosenOrder (num * m) order
  let keys := sourceShifts m num mp
  let initial : Round := ⟨keys.map fun ss => (ss, ss.source), 0⟩
  (roundsFrom m num keys initial order).map (initial :: ·)

/-! ## Rotation groups -/

/-- All pairs of an element and a later one. -/
def pairs {α : Type} : List α → List (α × α)
  | [] => []
  | a :: l => l.map (fun b => (a, b)) ++ pairs l

/-- The edges of the conflict graph due to one round, `ImplementShiftNetwork.cpp:65-80`. -/
def addConflicts (g : UGraph CtSlot) (r : Round) : UGraph CtSlot :=
  (pairs r.positions).foldl (fun g q =>
    if q.1.1.source ≠ q.2.1.source ∧ q.1.2 = q.2.2 then (g.addEdge q.1.1.source q.2.1.source).1
    else g) g

/-- The conflict graph, `ImplementShiftNetwork.cpp:58-81`. -/
def conflictGraph (mp : Mapping) (rounds : List Round) : UGraph CtSlot :=
  rounds.tail.foldl addConflicts (mp.foldl (fun g e => g.addVertex e.2) UGraph.empty)

/-- One entry of the colouring, `ImplementShiftNetwork.cpp:100-105`. -/
def insertColor (groups : List (List CtSlot)) (source : CtSlot) (color : Nat) : List (List CtSlot) :=
  let groups := if groups.length ≤ color then
      groups ++ List.replicate (color + 1 - groups.length) [] else groups
  groups.modify color (source :: ·)

/-- The group of a coloured source. -/
def addColored (col : CtSlot → Option Nat) (groups : List (List CtSlot)) (v : CtSlot) :
    List (List CtSlot) :=
  match col v with
  | some c => insertColor groups v c
  | none => groups

/-- `findShiftScheme`, `ImplementShiftNetwork.cpp:46-125`, without the cache: the rotation groups and
the rounds.  The colouring is a map from the vertices. -/
def findShiftScheme (pop : List (UGraph.Info CtSlot) → Option (UGraph.Info CtSlot × List (UGraph.Info CtSlot)))
    (m num : Nat) (mp : Mapping) (order : List Nat) : Option (List (List CtSlot) × List Round) := do
  let rounds ← evaluate m num mp order
  let g := conflictGraph mp rounds
  let col ← g.color pop
  some (g.vertices.foldl (addColored col) [], rounds)

/-- The choice of `findBestShiftScheme`, `ImplementShiftNetwork.cpp:127-156`, among the shuffled
orders. -/
def bestOrder (m num : Nat) (mp : Mapping) (shuffles : List (List Nat)) : Option (List Nat) :=
  (shuffles.foldlM (fun (best : Nat × List Nat) order => do
    let rounds ← evaluate m num mp order
    some (if rounds.length < best.1 then (rounds.length, order) else best)) (2 ^ 64 - 1, [])).map Prod.snd

/-! ## The kernel -/

section
variable {R : Type} {m : Nat} [CommRing R]

/-- `constantTensor` of a mask. -/
def constE (mask : List Bool) : KExpr R m :=
  .op0 (.leaf (.vec false fun i : ZMod m => if mask.getD (ZMod.val i) false then 1 else 0))

/-- `splat(0.0, …)`. -/
def zeroE : KExpr R m := .op0 (.splat 0)

/-- Masks with ones at the positions, `RotationGroupKernel.h:289-293`, `:315-319`; a position out of
range is undefined. -/
def maskAt (m num : Nat) (ps : List CtSlot) : Option (List (List Bool)) :=
  if ps.all fun p => decide (p.ct < num) && decide (p.slot < m) then
    some ((List.range num).map fun c => (List.range m).map fun s => decide (⟨c, s⟩ ∈ ps))
  else none

/-- The masked ciphertext, `RotationGroupKernel.h:91-100`. -/
def maskOrSkip (ct : KExpr R m) (mask : List Bool) : KExpr R m :=
  if mask.all (!·) then zeroE else if mask.all id then ct else mulE ct (constE mask)

/-- Add a rotated part to a target, `RotationGroupKernel.h:197-236`; nothing happens for an empty
mask. -/
def addInto (results : List (Option (KExpr R m))) (target rotation : Nat) (ct : KExpr R m)
    (mask : List Bool) : Option (List (Option (KExpr R m))) :=
  if mask.all (!·) then some results
  else
    let rotated := rotE (mulE ct (constE mask)) rotation
    match results[target]? with
    | none => none
    | some none => some (results.set target (some rotated))
    | some (some e) => some (results.set target (some (addE e rotated)))

/-- The single-ciphertext case, `RotationGroupKernel.h:160-170`. -/
def rotateSingle (ct : KExpr R m) (rotation : Nat) (mask : List Bool) : KExpr R m :=
  if mask.all (!·) then zeroE
  else if mask.all id then rotE ct rotation
  else rotE (mulE ct (constE mask)) rotation

/-- One ciphertext, `RotationGroupKernel.h:137-237`; `none` for the assertion. -/
def rotateOne (num rotation : Nat) (results : List (Option (KExpr R m))) (c : Nat) (ct : KExpr R m)
    (mask : List Bool) : Option (List (Option (KExpr R m))) :=
  let vn : Int := (num * m : Nat)
  let t1 := (((c * m : Nat) - (rotation : Int) + vn).tmod vn).tdiv m
  let t2 := (((c * m : Nat) + ((m : Int) - 1) - (rotation : Int) + vn).tmod vn).tdiv m
  if (t1 + 1).tmod num ≠ t2 then none
  else if t1 = t2 then
    if t1.toNat < results.length then
      some (results.set t1.toNat (some (rotateSingle ct rotation mask)))
    else none
  else do
    let mask1 := (List.range m).map fun i => decide (i < rotation) && mask.getD i false
    let mask2 := (List.range m).map fun i => !decide (i < rotation) && mask.getD i false
    let results ← addInto results t1.toNat rotation ct mask1
    addInto results t2.toNat rotation ct mask2

/-- `applyVirtualRotation`, `RotationGroupKernel.h:67-240`. -/
def applyVirtualRotation (input : List (KExpr R m)) (rotation : Nat) (masks : List (List Bool)) :
    Option (List (Option (KExpr R m))) :=
  let num := input.length
  if rotation % m = 0 then
    let masked := List.zipWith maskOrSkip input masks
    (List.range num).mapM fun target =>
      (masked[(target + rotation / m + num) % num]?).map some
  else
    (List.range num).foldlM (fun results c =>
      match input[c]?, masks[c]? with
      | some ct, some mask => rotateOne num rotation results c ct mask
      | _, _ => none) (List.replicate num none)

/-- The fixed part, `RotationGroupKernel.h:301-309`. -/
def fixedPart (ct : KExpr R m) (mask : List Bool) : Option (KExpr R m) :=
  if mask.all (!·) then none else if mask.all id then some ct else some (mulE ct (constE mask))

/-- The combination, `RotationGroupKernel.h:334-346`. -/
def combine (current : KExpr R m) : Option (KExpr R m) → Option (KExpr R m) → KExpr R m
  | none, none => current
  | none, some r => r
  | some f, none => f
  | some f, some r => addE f r

/-- The rotated part, `RotationGroupKernel.h:312-331`. -/
def rotatedPart (num amount : Nat) (rotatePositions : List CtSlot) (current : List (KExpr R m)) :
    Option (List (Option (KExpr R m))) :=
  if rotatePositions.isEmpty then some (List.replicate num none)
  else (maskAt m num rotatePositions).bind fun rotateMasks =>
    applyVirtualRotation current amount rotateMasks

/-- One round for a group, `RotationGroupKernel.h:264-346`. -/
def oneRound (num : Nat) (keys : List SourceShift) (prev : Round) (amount : Nat)
    (current : List (KExpr R m)) : Option (List (KExpr R m)) := do
  let posns ← keys.mapM fun ss => (prev.positions.lookup ss).map fun p => (ss, p)
  let rotatePositions := (posns.filter fun q => decide (q.1.shift &&& amount ≠ 0)).map (·.2)
  let fixedPositions := (posns.filter fun q => !decide (q.1.shift &&& amount ≠ 0)).map (·.2)
  let fixedMasks ← maskAt m num fixedPositions
  let fixedCurrent := List.zipWith fixedPart current fixedMasks
  let rotatedCurrent ← rotatedPart num amount rotatePositions current
  some (List.zipWith (fun c q => combine c q.1 q.2) current (fixedCurrent.zip rotatedCurrent))

/-- The loop over the rounds, `RotationGroupKernel.h:258-347`. -/
def groupRounds (num : Nat) (keys : List SourceShift) :
    Round → List Round → List (KExpr R m) → Option (List (KExpr R m))
  | _, [], current => some current
  | prev, r :: rs, current => do
    let current ← oneRound num keys prev r.amount current
    groupRounds num keys r rs current

/-- `rotateOneGroup`, `RotationGroupKernel.h:242-370`, with the source shifts of the group,
`RotationGroupKernel.h:386-393`. -/
def rotateOneGroup (mp : Mapping) (cts : List (Slots R m)) (rounds : List Round)
    (group : List CtSlot) : Option (List (KExpr R m)) := do
  let num := cts.length
  let keys := sourceShifts m num (mp.filter fun e => decide (e.2 ∈ group))
  let first ← rounds.head?
  let current ← groupRounds num keys first rounds.tail (cts.map leafV)
  let targets := (mp.filter fun e => decide (e.2 ∈ group)).map (·.1.ct)
  some (current.mapIdx fun i e => if i ∈ targets then e else zeroE)

/-- `implementShiftNetwork`, `RotationGroupKernel.h:412-434`, with `implementRotationGroups`; there
is at least one group. -/
def implementShiftNetwork (mp : Mapping) (cts : List (Slots R m)) (groups : List (List CtSlot))
    (rounds : List Round) : Option (List (KExpr R m)) := do
  let groupResults ← groups.mapM fun group => rotateOneGroup mp cts rounds group
  match groupResults with
  | [] => none
  | r :: rs => some (rs.foldl (List.zipWith addE) r)

/-- The lowering of a `remap` of `num` ciphertexts, `ImplementShiftNetwork.cpp:208-301`, on a mapping
with the given order of iteration. -/
def lowerRemap (pop : List (UGraph.Info CtSlot) → Option (UGraph.Info CtSlot × List (UGraph.Info CtSlot)))
    (mp : Mapping) (order : List Nat) (cts : List (Slots R m)) : Option (List (KExpr R m)) := do
  let (groups, rounds) ← findShiftScheme pop m cts.length mp order
  implementShiftNetwork mp cts groups rounds

end

end Heir.Shift
