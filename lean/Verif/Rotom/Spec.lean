/-
What the properties of Rotom layouts are stated with.
-/
import Verif.Rotom.Model
import Mathlib.Data.List.Dedup

namespace Heir.Rotom

/-- The ciphertext dims are the first `k`: the slot dims are the longest suffix
whose extent divides the number of slots. -/
def Split (ds : List Dim) (n k : Nat) : Prop :=
  k ≤ ds.length ∧ ((ds.drop k).map (·.size)).prod ∣ n ∧
    ∀ i, i < k → ¬ ((ds.drop i).map (·.size)).prod ∣ n

/-- The list of rolls, read two by two, has this pair. -/
def RollPair (rolls : List Int) (i j : Int) : Prop :=
  ∃ p q, rolls = p ++ i :: j :: q ∧ p.length % 2 = 0

/-- Some roll shifts by the dim at this position. -/
def UsedBy (rolls : List Int) (j : Nat) : Prop := ∃ p i q, rolls = p ++ i :: (j : Int) :: q ∧ p.length % 2 = 0

/-- The dim at this position is padding: a gap by which no roll shifts. -/
def Padding (l : Layout) (j : Nat) : Prop :=
  (∃ d, l.dims[j]? = some d ∧ d.dim = -2) ∧ ¬ UsedBy l.rolls j

/-- A dim of the ciphertext side with at least two values stands before padding
of the ciphertext side with at least two values. -/
def PaddingInside (l : Layout) : Prop :=
  ∃ k i j di dj, Split l.dims l.n k ∧ i < j ∧ j < k ∧ l.dims[i]? = some di ∧ l.dims[j]? = some dj ∧
    ¬ Padding l i ∧ 2 ≤ di.size ∧ Padding l j ∧ 2 ≤ dj.size

/-- A choice of an element and of one of its copies: indices within the axes,
replicas within the replications and blocks within the gaps in use. -/
def Rel.Copy (r : Rel) (ix d g : Nat → Int) : Prop :=
  Within ix r.axes ∧ Within d r.dB ∧
    ∀ (k b : Nat), r.gB[k]? = some b → r.rolled k = true → 0 ≤ g k ∧ g k < b

/-- Two choices are the same. -/
def Rel.Same (r : Rel) (ix d g ix' d' g' : Nat → Int) : Prop :=
  (∀ k, k < r.axes.length → ix k = ix' k) ∧ (∀ k, k < r.dB.length → d k = d' k) ∧
    (∀ k, k < r.gB.length → r.rolled k = true → g k = g' k)

/-- Some tensor element has a copy in this slot. -/
def Rel.Filled (r : Rel) (ct slot : Int) : Prop := ∃ ix, r.Holds ix ct slot

/-- The dim is a whole axis: no other dim of the list is a part of the same
axis with more than one value, and its stride is one. -/
def Whole (ds : List Dim) (d : Dim) : Prop :=
  0 ≤ d.dim ∧ d.stride = 1 ∧ ((ds.filter (fun x => x.dim = d.dim)).map (·.size)).prod = d.size

/-- A choice of how much of each axis goes into the slots: powers of two up to
the extents of the axes that multiply to the number of slots. -/
def TupleOf (dims : List Nat) (n : Nat) (t : List Nat) : Prop :=
  t.length = dims.length ∧
    (∀ (k x m : Nat), t[k]? = some x → dims[k]? = some m → x ≤ m ∧ ∃ a, x = 2 ^ a) ∧ t.prod = n

/-! ### What a layout means -/

/-- The number of a tensor dim among the tensor dims that the list names. -/
def axisNo (ds : List Dim) (id : Int) : Nat :=
  (((ds.map (·.dim)).filter (fun y => 0 ≤ y ∧ y < id)).dedup).length

/-- The number of entries of this dim before position `p`. -/
def before (ds : List Dim) (id : Int) (p : Nat) : Nat := ((ds.take p).filter (fun x => x.dim = id)).length

/-- The index at position `j`: a block of a gap, a replica, or the index of a
tensor dim. -/
def indexAt (ds : List Dim) (d g v : Nat → Int) (j : Nat) (dj : Dim) : Int :=
  if dj.dim = -2 then g (before ds (-2) j)
  else if dj.dim = -1 then d (before ds (-1) j)
  else v (axisNo ds dj.dim)

/-- The indices after `roll(i, j)`: the index of dim `i` becomes
`(index of dim i - index of dim j) mod (size of dim i)`. -/
def rollIx (ds : List Dim) (d g v : Nat → Int) (i j : Int) : Nat → Int :=
  match ds[i.toNat]?, ds[j.toNat]? with
  | some di, some dj => fun a =>
    if a = axisNo ds di.dim then (v a - indexAt ds d g v j.toNat dj) % (di.size : Int) else v a
  | _, _ => v

/-- The indices after all the rolls. -/
def rollsIx (ds : List Dim) (d g : Nat → Int) : List Int → (Nat → Int) → Nat → Int
  | i :: j :: rest, v => rollsIx ds d g rest (rollIx ds d g v i j)
  | _, v => v

open Classical in
/-- The digit at position `p`, from the indices after the rolls: padding has the
digit zero, and a part of a split tensor dim has the digit `(index / stride) mod
size`. -/
noncomputable def entry (l : Layout) (d g v : Nat → Int) (p : Nat) (x : Dim) : Int :=
  if x.dim < 0 then (if Padding l p then 0 else indexAt l.dims d g v p x)
  else if (l.dims.filter (fun y => y.dim = x.dim)).length = 1 then v (axisNo l.dims x.dim)
  else v (axisNo l.dims x.dim) / (x.stride : Int) % (x.size : Int)

/-- The digits of the dims from position `p` on. -/
noncomputable def entries (l : Layout) (d g v : Nat → Int) : Nat → List Dim → List (Nat × Int)
  | _, [] => []
  | p, x :: xs => (x.size, entry l d g v p x) :: entries l d g v (p + 1) xs

/-- Row-major position of digits with these sizes. -/
def rowMajor (cs : List (Nat × Int)) : Int := cs.foldl (fun acc c => acc * (c.1 : Int) + c.2) 0

end Heir.Rotom
