import Verif.Fold.Model
import Verif.Forward.Spec

/-! # Elements of tensors -/

namespace Heir.Fold

variable {α : Type}

/-- Position in row-major order; `none` outside the shape. -/
def pos : List Nat → List Nat → Option Nat
  | [], [] => some 0
  | d :: ds, i :: is => if i < d then (pos ds is).map (i * ds.prod + ·) else none
  | _, _ => none

/-- The element at an index; `none` outside. -/
def elem (l : List α) (shape idx : List Nat) : Option α := (pos shape idx).bind fun k => l[k]?

/-- A permuted vector, `linalg.transpose`'s output extents and indices: entry `d` is entry
`permutation[d]`. -/
def permuted (permutation v : List Nat) : List Nat := permutation.map fun p => v.getD p 0

/-- Removing entries at the given dimensions. -/
def without (dimensions : List Nat) (v : List α) : List α :=
  (v.zipIdx.filter fun p => p.2 ∉ dimensions).map Prod.fst

/-- Where element `idx` of a slice comes from: `dropped` dimensions have one element. -/
inductive SliceIndex : List Bool → List Nat → List Nat → List Nat → List Nat → Prop
  | nil : SliceIndex [] [] [] [] []
  | dropped {ds os ss o s idx full} : SliceIndex ds os ss idx full →
      SliceIndex (true :: ds) (o :: os) (s :: ss) idx (o :: full)
  | kept {ds os ss o s i idx full} : SliceIndex ds os ss idx full →
      SliceIndex (false :: ds) (o :: os) (s :: ss) (i :: idx) ((o + i * s) :: full)

/-- The tensor after a chain of insertions. -/
def chainTensor (elements : List α) (shape : List Nat) (chain : List Insert) : Forward.Tensor α :=
  chain.foldl (fun t i => .insert i.scalar t i.indices) (.dense elements shape)

end Heir.Fold
