import Verif.Scale.Spec
import Mathlib.Data.List.GetD
import Mathlib.Tactic.Tauto

/-! # Sweeps over single-assignment programs -/

namespace Heir.Scale

variable {α : Type}

theorem upd_eq (t : Nat → α) (v : Nat) (a : α) : upd t v a v = a := by simp [upd]

theorem upd_ne (t : Nat → α) {v u : Nat} (a : α) (h : u ≠ v) : upd t v a u = t u := by simp [upd, h]

/-- The arities `SSA` demands. -/
def Arity (op : Op) : Prop :=
  (op.kind = .add ∨ op.kind = .sub ∨ op.kind = .mul → op.args.length = 2) ∧
    (op.kind = .init ∨ op.kind = .modReduce ∨ op.kind = .adjust ∨ op.kind = .bootstrap → op.args.length = 1)

/-- A step only looks at the operands. -/
def Local (st : (Nat → α) → Op → α) : Prop :=
  ∀ t t' op, Arity op → (∀ a ∈ op.args, t a = t' a) → st t op = st t' op

theorem ssa_res_not (N : Nat) (P : Nat → Prop) (l : List Op) (h : SSA N P l) : ∀ o ∈ l, ¬ P o.res := by
  induction l generalizing P with
  | nil => simp
  | cons o l ih =>
    intro o' ho' hP
    rcases List.mem_cons.1 ho' with rfl | ho'
    · exact h.2.1 hP
    · exact ih _ h.2.2.2.2.2 o' ho' (Or.inl hP)

theorem run_of_defined (N : Nat) (P : Nat → Prop) (st : (Nat → α) → Op → α) (l : List Op) (t : Nat → α)
    (h : SSA N P l) (v : Nat) (hv : P v) : run st l t v = t v := by
  induction l generalizing P t with
  | nil => rfl
  | cons o l ih =>
    rw [run, ih _ _ h.2.2.2.2.2 (Or.inl hv), upd_ne]
    rintro rfl
    exact h.2.1 hv

/-- After the sweep every operation's equation holds. -/
theorem run_fix (N : Nat) (P : Nat → Prop) (st : (Nat → α) → Op → α) (hst : Local st) (l : List Op)
    (t : Nat → α) (h : SSA N P l) : ∀ o ∈ l, run st l t o.res = st (run st l t) o := by
  induction l generalizing P t with
  | nil => simp
  | cons o l ih =>
    intro o' ho'
    rw [run]
    rcases List.mem_cons.1 ho' with rfl | ho'
    · rw [run_of_defined _ _ _ _ _ h.2.2.2.2.2 _ (Or.inr rfl), upd_eq]
      apply hst _ _ _ ⟨h.2.2.2.1, h.2.2.2.2.1⟩
      intro a ha
      rw [run_of_defined _ _ _ _ _ h.2.2.2.2.2 _ (Or.inl (h.1 a ha)), upd_ne]
      rintro rfl
      exact h.2.1 (h.1 _ ha)
    · exact ih _ _ h.2.2.2.2.2 o' ho'

/-- Reads an operand. -/
theorem getD_mem {l : List Nat} {i : Nat} (h : i < l.length) : l.getD i 0 ∈ l := by
  rw [List.getD_eq_getElem _ _ h]; exact List.getElem_mem h

theorem mapM_congr' {β γ : Type} (f g : β → Option γ) (l : List β) (h : ∀ a ∈ l, f a = g a) :
    l.mapM f = l.mapM g := by
  induction l with
  | nil => rfl
  | cons a l ih => rw [List.mapM_cons, List.mapM_cons, h a (by simp), ih fun a ha => h a (by simp [ha])]

theorem operandScales_congr (t t' : Nat → Fact) (args : List Nat) (h : ∀ a ∈ args, t a = t' a) :
    operandScales t args = operandScales t' args := by
  unfold operandScales
  rw [List.filter_congr (q := fun a => (t' a).scaled) fun a ha => by rw [h a ha]]
  exact mapM_congr' _ _ _ fun a ha => by rw [h a (List.mem_filter.1 ha).1]

theorem headD_mem {l : List Nat} (h : l.length = 1) : l.headD 0 ∈ l := by
  match l, h with
  | [a], _ => simp

theorem step_local (b : Bool) (cfg : Cfg) : Local (step b cfg) := by
  intro t t' op hA h
  have hany : (op.args.any fun a => (t a).sec) = op.args.any fun a => (t' a).sec := by
    rw [Bool.eq_iff_iff, List.any_eq_true, List.any_eq_true]
    constructor <;> rintro ⟨a, ha, hs⟩ <;> exact ⟨a, ha, by simpa [h a ha] using hs⟩
  have hsc : scaleStep b cfg t op = scaleStep b cfg t' op := by
    unfold scaleStep
    rw [operandScales_congr t t' op.args h, hany]
    cases hk : op.kind <;> simp only
    rw [h _ (headD_mem (hA.2 (by simp [hk])))]
  unfold step
  rw [hany, hsc]

theorem msgOp_local {M : Type} [CommRing M] (I : Kind → List M → M) : Local (msgOp I) := by
  intro t t' op hA h
  unfold msgOp
  have h2 : op.args.length = 2 → t (op.args.getD 0 0) = t' (op.args.getD 0 0) ∧
      t (op.args.getD 1 0) = t' (op.args.getD 1 0) := fun hl =>
    ⟨h _ (getD_mem (by omega)), h _ (getD_mem (by omega))⟩
  cases hk : op.kind <;> simp only
  any_goals (obtain ⟨e1, e2⟩ := h2 (hA.1 (by simp [hk])); rw [e1, e2])
  any_goals (rw [h _ (headD_mem (hA.2 (by simp [hk])))])
  all_goals (congr 1; exact List.map_congr_left h)

theorem heldOp_local {K M : Type} [Field K] [CommRing M] [Algebra K M] (β : K) (cfg : Cfg)
    (I : Kind → List M → M) (f : Nat → Fact) (sc : Nat → Option Int) : Local (heldOp β cfg I f sc) := by
  intro t t' op hA h
  unfold heldOp
  have h2 : op.args.length = 2 → t (op.args.getD 0 0) = t' (op.args.getD 0 0) ∧
      t (op.args.getD 1 0) = t' (op.args.getD 1 0) := fun hl =>
    ⟨h _ (getD_mem (by omega)), h _ (getD_mem (by omega))⟩
  cases hk : op.kind <;> simp only
  any_goals (obtain ⟨e1, e2⟩ := h2 (hA.1 (by simp [hk])); rw [e1, e2])
  any_goals (rw [h _ (headD_mem (hA.2 (by simp [hk])))])
  all_goals (congr 1; exact List.map_congr_left h)

theorem ssa_mem (N : Nat) (P : Nat → Prop) (l : List Op) (h : SSA N P l) :
    ∀ o ∈ l, Arity o := by
  induction l generalizing P with
  | nil => simp
  | cons o l ih =>
    intro o' ho'
    rcases List.mem_cons.1 ho' with rfl | ho'
    · exact ⟨h.2.2.2.1, h.2.2.2.2.1⟩
    · exact ih _ h.2.2.2.2.2 o' ho'

/-- Induction along the program: a property of all defined values. -/
theorem ssa_induction (N : Nat) (Q : Nat → Prop) (l : List Op) (P : Nat → Prop) (h : SSA N P l)
    (h0 : ∀ v, P v → Q v) (hs : ∀ o ∈ l, (∀ a ∈ o.args, Q a) → Q o.res) : ∀ o ∈ l, Q o.res ∧ ∀ a ∈ o.args, Q a := by
  induction l generalizing P with
  | nil => simp
  | cons o l ih =>
    have hq : Q o.res := hs o (by simp) fun a ha => h0 a (h.1 a ha)
    intro o' ho'
    rcases List.mem_cons.1 ho' with rfl | ho'
    · exact ⟨hq, fun a ha => h0 a (h.1 a ha)⟩
    · refine ih _ h.2.2.2.2.2 ?_ (fun o ho => hs o (by simp [ho])) o' ho'
      rintro v (hv | rfl)
      · exact h0 v hv
      · exact hq

end Heir.Scale
