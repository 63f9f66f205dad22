import Mathlib.Algebra.Ring.Defs

/-! # What a layout should be -/

namespace Heir.Layout

variable {ι R : Type}

/-- Every index of the tensor is stored somewhere. -/
def Complete (inBounds : ι → Prop) (rel : ι → Nat → Nat → Prop) : Prop :=
  ∀ idx, inBounds idx → ∃ ct slot, rel idx ct slot

/-- A slot stores at most one element. -/
def Unambiguous (rel : ι → Nat → Nat → Prop) : Prop :=
  ∀ idx idx' ct slot, rel idx ct slot → rel idx' ct slot → idx = idx'

/-- Ciphertexts `M` hold the tensor `A` in the layout; slots without an element are zero. -/
def Packs [Zero R] (rel : ι → Nat → Nat → Prop) (A : ι → R) (cts slots : Nat) (M : Nat → Nat → R) :
    Prop :=
  ∀ ct, ct < cts → ∀ slot, slot < slots →
    (∀ idx, rel idx ct slot → M ct slot = A idx) ∧ ((∀ idx, ¬ rel idx ct slot) → M ct slot = 0)

end Heir.Layout
