import Verif.Forward.Spec

/-! # Runs as equations over the final environment -/

namespace Heir.Forward

variable {V : Type}

/-- The equation an op imposes on the values. -/
def Holds (S : Sem V) (E : Nat → V) (μ : Mem V) : Op → Prop
  | .pure r f a => E r = S.app f (a.map E)
  | .load r m idx => E r = μ (E m) (idx.map E)
  | .store .. => True
  | .call r f a | .region r f a => E r = (S.call f (a.map E) μ).1

/-- The memory after an op. -/
noncomputable def after (S : Sem V) (E : Nat → V) (μ : Mem V) : Op → Mem V
  | .pure .. | .load .. => μ
  | .store v m idx => μ.write (E m) (idx.map E) (E v)
  | .call _ f a | .region _ f a => (S.call f (a.map E) μ).2

def Exec (S : Sem V) (E : Nat → V) : List Op → Mem V → Mem V → Prop
  | [], μ, μ' => μ' = μ
  | op :: rest, μ, μ' => Holds S E μ op ∧ Exec S E rest (after S E μ op) μ'

theorem results_cons (op : Op) (rest : List Op) (a : Nat) :
    a ∈ results (op :: rest) ↔ op.res = some a ∨ a ∈ results rest := by
  unfold results
  cases h : op.res with
  | none => simp [h]
  | some r => simp [h, eq_comm]

theorem step_env_of_ne {S : Sem V} {s : St V} {op : Op} {a : Nat} (h : op.res ≠ some a) :
    (step S s op).env a = s.env a := by
  cases op <;> simp_all [step, Op.res, Function.update_apply, eq_comm]

theorem run_iff {S : Sem V} {E : Nat → V} {μ' : Mem V} : ∀ {p : List Op} {s : St V}, WF p →
    (run S p s = ⟨E, μ'⟩ ↔ Exec S E p s.mem μ' ∧ ∀ a, a ∉ results p → E a = s.env a) := by
  intro p
  induction p with
  | nil =>
    intro s _
    obtain ⟨e, m⟩ := s
    simp only [run, List.foldl_nil, St.mk.injEq, Exec, results, List.filterMap_nil,
      List.not_mem_nil, not_false_eq_true, forall_const]
    constructor
    · rintro ⟨rfl, rfl⟩
      exact ⟨rfl, fun _ => rfl⟩
    · rintro ⟨rfl, h⟩
      exact ⟨(funext h).symm, rfl⟩
  | cons op rest ih =>
    intro s wf
    obtain ⟨w1, w2, w3⟩ := wf
    have e : run S (op :: rest) s = run S rest (step S s op) := rfl
    rw [e, ih w3]
    -- values of operands
    have key : (∀ a ∈ op.operands, E a = s.env a) → (∀ r, op.res = some r → E r = (step S s op).env r) ↔
        ((∀ a ∈ op.operands, E a = s.env a) → Holds S E s.mem op) := by
      constructor
      · intro h ho
        cases op with
        | pure r f a =>
          have hm : a.map E = a.map s.env := List.map_congr_left ho
          simpa [Holds, hm, step, Op.res] using h ho r rfl
        | load r m idx =>
          have hm : idx.map E = idx.map s.env :=
            List.map_congr_left fun x hx => ho x (List.mem_cons_of_mem _ hx)
          have h1 : E m = s.env m := ho m List.mem_cons_self
          simpa [Holds, hm, h1, step, Op.res] using h ho r rfl
        | store v m idx => trivial
        | call r f a =>
          have hm : a.map E = a.map s.env := List.map_congr_left ho
          simpa [Holds, hm, step, Op.res] using h ho r rfl
        | region r f a =>
          have hm : a.map E = a.map s.env := List.map_congr_left ho
          simpa [Holds, hm, step, Op.res] using h ho r rfl
      · intro h ho r hr
        have hh := h ho
        cases op with
        | pure r f a =>
          cases hr
          have hm : a.map E = a.map s.env := List.map_congr_left ho
          simpa [Holds, hm, step] using hh
        | load r m idx =>
          cases hr
          have hm : idx.map E = idx.map s.env :=
            List.map_congr_left fun x hx => ho x (List.mem_cons_of_mem _ hx)
          have h1 : E m = s.env m := ho m List.mem_cons_self
          simpa [Holds, hm, h1, step] using hh
        | store v m idx => cases hr
        | call r f a =>
          cases hr
          have hm : a.map E = a.map s.env := List.map_congr_left ho
          simpa [Holds, hm, step] using hh
        | region r f a =>
          cases hr
          have hm : a.map E = a.map s.env := List.map_congr_left ho
          simpa [Holds, hm, step] using hh
    have hafter : (∀ a ∈ op.operands, E a = s.env a) → after S E s.mem op = (step S s op).mem := by
      intro ho
      cases op with
      | pure r f a => rfl
      | load r m idx => rfl
      | store v m idx =>
        have hm : idx.map E = idx.map s.env := List.map_congr_left fun x hx => ho x
          (List.mem_cons_of_mem _ (List.mem_cons_of_mem _ hx))
        simp only [after, step, hm, ho v List.mem_cons_self,
          ho m (List.mem_cons_of_mem _ List.mem_cons_self)]
      | call r f a =>
        have hm : a.map E = a.map s.env := List.map_congr_left ho
        simp only [after, step, hm]
      | region r f a =>
        have hm : a.map E = a.map s.env := List.map_congr_left ho
        simp only [after, step, hm]
    constructor
    · rintro ⟨h1, h2⟩
      have outside : ∀ a, a ∉ results (op :: rest) → E a = s.env a := by
        intro a ha
        rw [results_cons, not_or] at ha
        rw [h2 a ha.2, step_env_of_ne ha.1]
      have ho : ∀ a ∈ op.operands, E a = s.env a := fun a ha => outside a (w1 a ha)
      refine ⟨⟨key.1 (fun _ r hr => h2 r (w2 r hr)) ho, ?_⟩, outside⟩
      rw [hafter ho]
      exact h1
    · rintro ⟨⟨h1, h2⟩, outside⟩
      have ho : ∀ a ∈ op.operands, E a = s.env a := fun a ha => outside a (w1 a ha)
      rw [hafter ho] at h2
      refine ⟨h2, fun a ha => ?_⟩
      by_cases hr : op.res = some a
      · exact key.2 (fun _ => h1) ho a hr
      · rw [step_env_of_ne hr]
        exact outside a (by rw [results_cons, not_or]; exact ⟨hr, ha⟩)

theorem exec_append {S : Sem V} {E : Nat → V} {μ' : Mem V} : ∀ {p q : List Op} {μ : Mem V},
    Exec S E (p ++ q) μ μ' ↔ ∃ μ₁, Exec S E p μ μ₁ ∧ Exec S E q μ₁ μ' := by
  intro p
  induction p with
  | nil => intro q μ; simp [Exec]
  | cons op p ih =>
    intro q μ
    simp only [List.cons_append, Exec, ih]
    constructor
    · rintro ⟨h, μ₁, h1, h2⟩; exact ⟨μ₁, ⟨h, h1⟩, h2⟩
    · rintro ⟨μ₁, ⟨h, h1⟩, h2⟩; exact ⟨h, μ₁, h1, h2⟩

/-! ## Renaming -/

theorem eval_rename {E : Nat → V} {r v : Nat} (h : E r = E v) (a : Nat) : E (rename r v a) = E a := by
  unfold rename
  split
  · subst_vars; exact h.symm
  · rfl

theorem map_rename {E : Nat → V} {r v : Nat} (h : E r = E v) (l : List Nat) :
    (l.map (rename r v)).map E = l.map E := by
  rw [List.map_map]
  exact List.map_congr_left fun a _ => eval_rename h a

theorem exec_subst {S : Sem V} {E : Nat → V} {r v : Nat} (h : E r = E v) {μ' : Mem V} :
    ∀ {p : List Op} {μ : Mem V}, Exec S E (p.map (Op.subst r v)) μ μ' ↔ Exec S E p μ μ' := by
  intro p
  induction p with
  | nil => intro μ; rfl
  | cons op p ih =>
    intro μ
    have h1 : ∀ μ : Mem V, Holds S E μ (op.subst r v) ↔ Holds S E μ op := by
      intro μ
      cases op <;> simp [Op.subst, Holds, eval_rename h, map_rename h, -List.map_map]
    have h2 : ∀ μ : Mem V, after S E μ (op.subst r v) = after S E μ op := by
      intro μ
      cases op <;> simp [Op.subst, after, eval_rename h, map_rename h, -List.map_map]
    simp only [List.map_cons, Exec, h1, h2, ih]

theorem subst_res (r v : Nat) (op : Op) : (op.subst r v).res = op.res := by cases op <;> rfl

theorem results_subst (r v : Nat) (p : List Op) : results (p.map (Op.subst r v)) = results p := by
  induction p with
  | nil => rfl
  | cons op p ih =>
    simp only [results] at *
    simp only [List.map_cons, List.filterMap_cons, subst_res, ih]

theorem subst_operands (r v : Nat) (op : Op) :
    (op.subst r v).operands = op.operands.map (rename r v) := by cases op <;> simp [Op.subst, Op.operands]

theorem subst_access (r v : Nat) (op : Op) :
    (op.subst r v).access = op.access.map fun a => (rename r v a.1, a.2.map (rename r v)) := by
  cases op <;> simp [Op.subst, Op.access]

theorem results_append (p q : List Op) : results (p ++ q) = results p ++ results q := by
  simp [results]

theorem WF.append : ∀ {p q : List Op}, WF (p ++ q) → WF q ∧ ∀ op ∈ p, (∀ a ∈ op.operands, a ∉ results q) ∧
    ∀ r, op.res = some r → r ∉ results q := by
  intro p
  induction p with
  | nil => intro q h; exact ⟨h, by simp⟩
  | cons op p ih =>
    intro q h
    have h : WF (op :: (p ++ q)) := h
    obtain ⟨h1, h2, h3⟩ := h
    obtain ⟨i1, i2⟩ := ih h3
    refine ⟨i1, fun op' hop => ?_⟩
    rcases List.mem_cons.1 hop with rfl | hop
    · refine ⟨fun a ha hq => h1 a ha ?_, fun r hr hq => h2 r hr ?_⟩
      · rw [results_cons]; right; rw [results_append]; exact List.mem_append_right _ hq
      · rw [results_append]; exact List.mem_append_right _ hq
    · exact i2 op' hop

/-- Renaming to a value that nothing here defines. -/
theorem WF.subst {r v : Nat} : ∀ {p : List Op}, WF p → (r ∈ results p ∨ v ∉ results p) →
    (∀ {q : List Op} {op : Op} {q' : List Op}, p = q ++ op :: q' → op.res = some r → v ∉ results q') →
    WF (p.map (Op.subst r v)) := by
  intro p
  induction p with
  | nil => intros; trivial
  | cons op p ih =>
    intro h hv hq
    obtain ⟨h1, h2, h3⟩ := h
    refine ⟨?_, ?_, ?_⟩
    · intro a ha
      rw [← List.map_cons, results_subst]
      rw [subst_operands, List.mem_map] at ha
      obtain ⟨b, hb, rfl⟩ := ha
      unfold rename
      split
      · subst_vars
        rcases hv with hv | hv
        · exact absurd hv (h1 _ hb)
        · exact hv
      · exact h1 b hb
    · intro x hx
      rw [results_subst]
      rw [subst_res] at hx
      exact h2 x hx
    · refine ih h3 ?_ ?_
      · rcases hv with hv | hv
        · rw [results_cons] at hv
          rcases hv with hv | hv
          · exact Or.inr (hq (q := []) rfl hv)
          · exact Or.inl hv
        · rw [results_cons, not_or] at hv
          exact Or.inr hv.2
      · rintro q op' q' rfl hr
        exact hq (q := op :: q) rfl hr

theorem WF.eraseIdx {p q : List Op} {v m : Nat} {idx : List Nat}
    (h : WF (p ++ .store v m idx :: q)) : WF (p ++ q) := by
  have e : ∀ (p : List Op) a, a ∈ results (p ++ .store v m idx :: q) ↔ a ∈ results (p ++ q) := by
    intro p a
    rw [results_append, results_append, List.mem_append, List.mem_append, results_cons]
    simp [Op.res]
  induction p with
  | nil => exact h.2.2
  | cons op p ih =>
    obtain ⟨h1, h2, h3⟩ := h
    refine ⟨fun a ha hh => h1 a ha ((e (op :: p) a).2 hh), fun r hr hh => h2 r hr ((e p r).2 hh), ih h3⟩

end Heir.Forward
