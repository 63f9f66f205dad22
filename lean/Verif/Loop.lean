import Mathlib.Data.List.Basic
import Mathlib.Tactic.Ring

/-!
# Counted loops and checked array accesses

Shared by the models of imperative code.  A loop body returns `none` for undefined behaviour
or a failed assertion, which ends the execution.
-/

namespace Heir.Loop

variable {σ α : Type}

/-- `for (i = 0; i < n; ++i) s = body(i, s)`. -/
def forN (n : Nat) (body : Nat → σ → Option σ) (s : σ) : Option σ :=
  match n with
  | 0 => some s
  | n + 1 => (forN n body s).bind (body n)

/-- `a[i]`, out of bounds is `none`. -/
def get (a : List α) (i : Nat) : Option α := a[i]?

/-- `a[i] = v`, out of bounds is `none`. -/
def put (a : List α) (i : Nat) (v : α) : Option (List α) :=
  if i < a.length then some (a.set i v) else none

/-- The loop rule: an invariant that holds initially and is preserved by every defined
iteration (which must exist) holds at the end. -/
theorem forN_inv {n : Nat} {body : Nat → σ → Option σ} {s : σ} (P : Nat → σ → Prop)
    (h0 : P 0 s) (hs : ∀ i, i < n → ∀ t, P i t → ∃ t', body i t = some t' ∧ P (i + 1) t') :
    ∃ t, forN n body s = some t ∧ P n t := by
  induction n with
  | zero => exact ⟨s, rfl, h0⟩
  | succ n ih =>
    obtain ⟨t, ht, hp⟩ := ih (fun i hi => hs i (by omega))
    obtain ⟨t', ht', hp'⟩ := hs n (by omega) t hp
    exact ⟨t', by simp [forN, ht, ht'], hp'⟩

end Heir.Loop
