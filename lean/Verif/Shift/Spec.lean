import Verif.Shift.Model

/-! # What a shift network should do -/

namespace Heir.Shift

open Heir.Kernel

/-- A position of the ciphertexts. -/
def InRange (m num : Nat) (p : CtSlot) : Prop := p.ct < num ∧ p.slot < m

/-- Each power of two below the size, once. -/
def AllPowers (n : Nat) (order : List Nat) : Prop :=
  order.Nodup ∧ ∀ a, a ∈ order ↔ a < n ∧ ∃ i, a = 2 ^ i

/-- The slots between two positions, going over the ciphertexts and then over the slots. -/
def slotsApart (m : Nat) (p q : CtSlot) : Int := |(p.ct : Int) - q.ct| * m + |(p.slot : Int) - q.slot|

/-- Of the sources requested for a target, one that is closest. -/
def Closest (m : Nat) (pairs : List (CtSlot × CtSlot)) (source target : CtSlot) : Prop :=
  (source, target) ∈ pairs ∧
    ∀ q, (q, target) ∈ pairs → slotsApart m target source ≤ slotsApart m target q

/-- Rotation by powers of two below the number of slots only. -/
def powerKeys (m : Nat) : Int → Bool := fun a =>
  (List.range m).any fun i => decide (2 ^ i < m) && a == 2 ^ i

variable {R : Type} {m : Nat} [CommRing R]

/-- The slots of ciphertext `c` for the requested pairs of source and target: a closest source, or
zero where nothing is requested. -/
def Realizes (pairs : List (CtSlot × CtSlot)) (cts : List (Slots R m)) (c : Nat) (w : Slots R m) :
    Prop :=
  ∀ s < m,
    ((∀ q, (q, (⟨c, s⟩ : CtSlot)) ∉ pairs) → w (s : ZMod m) = 0) ∧
    ((∃ q, (q, (⟨c, s⟩ : CtSlot)) ∈ pairs) → ∃ q v, Closest m pairs q ⟨c, s⟩ ∧ cts[q.ct]? = some v ∧
      w (s : ZMod m) = v (q.slot : ZMod m))

end Heir.Shift
