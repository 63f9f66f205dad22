import Verif.Hoist.Model
import Verif.Layout.Spec
import Mathlib.Data.ZMod.Basic

/-!
# Specification for moving operations past conversions of layouts
-/

namespace Heir.Hoist

open Heir.Layout

variable {R : Type}

/-- The row-major number of an index. -/
def number : List Nat → List Nat → Nat
  | _ :: ds, i :: is => i * ds.prod + number ds is
  | _, _ => 0

/-- The index in the collapsed tensor. -/
def collapsedIdx : List (List Nat) → List Nat → List Nat
  | [], _ => []
  | g :: gs, idx => number g (idx.take g.length) :: collapsedIdx gs (idx.drop g.length)

/-- `y` is `x` collapsed, equivalently `x` is `y` expanded. -/
def IsCollapse (groups : List (List Nat)) (x y : List Nat → R) : Prop :=
  ∀ idx, InBounds groups.flatten idx → y (collapsedIdx groups idx) = x idx

/-- The shape of the collapsed tensor. -/
def collapsedShape (groups : List (List Nat)) : List Nat := groups.map (·.prod)

/-- A layout of a tensor of the shape. -/
def LayoutOf (shape : List Nat) (rel : Rel) : Prop := ∀ idx ct slot, rel idx ct slot → InBounds shape idx

/-- `y` is `x` padded by zeros. -/
def IsPad [Zero R] (padded unpadded low : List Nat) (x y : List Nat → R) : Prop :=
  ∀ P, InBounds padded P →
    (∀ S, InBounds unpadded S → P = S.zipWith (· + ·) low → y P = x S) ∧
    ((∀ S, InBounds unpadded S → P ≠ S.zipWith (· + ·) low) → y P = 0)

/-- The layouts of a tensor and of its collapsed form agree: the same slots hold the same element. -/
def Agree (groups : List (List Nat)) (full collapsed : Rel) : Prop :=
  ∀ out, out.length = groups.length → ∀ ct slot, collapsed out ct slot ↔
    ∃ idx, InBounds groups.flatten idx ∧ collapsedIdx groups idx = out ∧ full idx ct slot

/-- Only unit dimensions are dropped, and some dimension of each group is kept. -/
def KeepsOne (g : List Nat) : Prop := (g.filter (· ≠ 1)).length = 1

/-- A layout of a vector as a relation with ciphertexts, of which there is one. -/
def VecRel.at0 (v : VecRel) : Nat → Nat → Nat → Prop := fun i ct s => ct = 0 ∧ v i s

/-- The row-major layout of a vector of `n` elements in one ciphertext. -/
def rowVec (n N : Nat) : VecRel := fun i s => rowMajor [n] N [i] 0 s

/-- The layout in which element `i` of a vector of `N` elements is in slot `σ i`. -/
def movedVec {N : Nat} (σ : Equiv.Perm (ZMod N)) : VecRel :=
  fun i s => i < N ∧ s < N ∧ σ (i : ZMod N) = (s : ZMod N)

end Heir.Hoist
