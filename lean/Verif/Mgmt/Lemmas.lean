import Verif.Mgmt.Spec
import Mathlib.Data.List.GetD
import Mathlib.Tactic.Tauto

/-! # Sweeps over programs and insertion of chains of operations -/

namespace Heir.Mgmt

variable {α : Type}

theorem upd_eq (t : Nat → α) (v : Nat) (a : α) : upd t v a v = a := by simp [upd]

theorem upd_ne (t : Nat → α) {v u : Nat} (a : α) (h : u ≠ v) : upd t v a u = t u := by simp [upd, h]

theorem run_append (step : (Nat → α) → Op → α) (l₁ l₂ : List Op) (t : Nat → α) :
    run step (l₁ ++ l₂) t = run step l₂ (run step l₁ t) := by
  induction l₁ generalizing t with
  | nil => rfl
  | cons o l ih => simp [run, ih]

theorem run_of_not_res (step : (Nat → α) → Op → α) (l : List Op) (t : Nat → α) (v : Nat)
    (h : ∀ o ∈ l, o.res ≠ v) : run step l t v = t v := by
  induction l generalizing t with
  | nil => rfl
  | cons o l ih =>
    rw [run, ih _ (fun o ho => h o (by simp [ho])), upd_ne _ _ (Ne.symm (h o (by simp)))]

theorem eval_eq_run {D : Type} (I : Kind → List D → D) (l : List Op) (env : Nat → D) :
    eval I l env = run (evalOp I) l env := by
  induction l generalizing env with
  | nil => rfl
  | cons o l ih => rw [eval, run, ih]; rfl

/-- A projection of an analysis is an analysis. -/
theorem run_proj {β : Type} (π : α → β) (step : (Nat → α) → Op → α) (step' : (Nat → β) → Op → β)
    (h : ∀ t op, π (step t op) = step' (fun v => π (t v)) op) (l : List Op) (t : Nat → α) (v : Nat) :
    π (run step l t v) = run step' l (fun v => π (t v)) v := by
  induction l generalizing t with
  | nil => rfl
  | cons o l ih =>
    rw [run, run, ih]
    congr 1
    funext u
    by_cases hu : u = o.res
    · subst hu; rw [upd_eq, upd_eq, h]
    · rw [upd_ne _ _ hu, upd_ne _ _ hu]

/-- A property of each operation together with the state of the analysis before it. -/
def AllSteps (step : (Nat → α) → Op → α) (Pr : (Nat → α) → Op → Prop) : List Op → (Nat → α) → Prop
  | [], _ => True
  | op :: ops, t => Pr t op ∧ AllSteps step Pr ops (upd t op.res (step t op))

theorem allSteps_append (step : (Nat → α) → Op → α) (Pr : (Nat → α) → Op → Prop) (l₁ l₂ : List Op)
    (t : Nat → α) :
    AllSteps step Pr (l₁ ++ l₂) t ↔ AllSteps step Pr l₁ t ∧ AllSteps step Pr l₂ (run step l₁ t) := by
  induction l₁ generalizing t with
  | nil => simp [AllSteps, run]
  | cons o l ih => simp [AllSteps, run, ih, and_assoc]

theorem allSteps_true (step : (Nat → α) → Op → α) (l : List Op) (t : Nat → α) :
    AllSteps step (fun _ _ => True) l t := by
  induction l generalizing t with
  | nil => trivial
  | cons o l ih => exact ⟨trivial, ih _⟩

/-! ## SSA -/

theorem SSA.congr {N : Nat} {P Q : Nat → Prop} (h : ∀ v, P v ↔ Q v) :
    ∀ {l : List Op}, SSA N P l → SSA N Q l := by
  intro l hl
  have : P = Q := funext fun v => propext (h v)
  rwa [← this]

theorem ssa_append {N : Nat} (P : Nat → Prop) (l₁ l₂ : List Op) :
    SSA N P (l₁ ++ l₂) ↔ SSA N P l₁ ∧ SSA N (fun v => P v ∨ ∃ o ∈ l₁, o.res = v) l₂ := by
  induction l₁ generalizing P with
  | nil => simp [SSA]
  | cons o l ih =>
    simp only [List.cons_append, SSA, ih]
    have he : (fun v => (P v ∨ v = o.res) ∨ ∃ o ∈ l, o.res = v) =
        (fun v => P v ∨ ∃ o' ∈ o :: l, o'.res = v) := by
      funext v
      simp only [List.mem_cons, exists_eq_or_imp, eq_iff_iff]
      constructor <;> intro h <;> tauto
    rw [he]
    tauto

theorem SSA.mono {N M : Nat} (h : N ≤ M) {l : List Op} : ∀ {P : Nat → Prop}, SSA N P l → SSA M P l := by
  induction l with
  | nil => intro P _; trivial
  | cons o l ih =>
    intro P hs
    obtain ⟨a, b, c, d, e, f⟩ := hs
    exact ⟨a, b, by omega, d, e, ih f⟩

theorem SSA.res_lt {N : Nat} {l : List Op} : ∀ {P : Nat → Prop}, SSA N P l → ∀ o ∈ l, o.res < N := by
  induction l with
  | nil => intro P _ o ho; simp at ho
  | cons o l ih =>
    intro P hs o' ho'
    rcases List.mem_cons.1 ho' with rfl | h
    · exact hs.2.2.1
    · exact ih hs.2.2.2.2.2 _ h

/-- A defined value is not defined again. -/
theorem SSA.res_ne {N : Nat} {l : List Op} : ∀ {P : Nat → Prop}, SSA N P l → ∀ v, P v → ∀ o ∈ l, o.res ≠ v := by
  induction l with
  | nil => intro P _ v _ o ho; simp at ho
  | cons o l ih =>
    intro P hs v hv o' ho'
    rcases List.mem_cons.1 ho' with rfl | h
    · rintro rfl; exact hs.2.1 hv
    · exact ih hs.2.2.2.2.2 v (Or.inl hv) _ h

theorem SSA.args_lt {N : Nat} {l : List Op} :
    ∀ {P : Nat → Prop}, (∀ v, P v → v < N) → SSA N P l → ∀ o ∈ l, ∀ a ∈ o.args, a < N := by
  induction l with
  | nil => intro P _ _ o ho; simp at ho
  | cons o l ih =>
    intro P hP hs o' ho'
    rcases List.mem_cons.1 ho' with rfl | h
    · exact fun a ha => hP a (hs.1 a ha)
    · refine ih ?_ hs.2.2.2.2.2 _ h
      rintro v (hv | rfl)
      · exact hP v hv
      · exact hs.2.2.1

/-- In an SSA program the state of the operands at an operation is their final state, and the final state of
the result is what the visit computes. -/
theorem allSteps_of_final {N : Nat} (step : (Nat → α) → Op → α) (Pr : (Nat → α) → Op → Prop)
    (Pf : Op → Prop) (l : List Op) :
    ∀ (P : Nat → Prop) (t : Nat → α), SSA N P l →
      (∀ op ∈ l, Pf op → ∀ t', (∀ a ∈ op.args, t' a = run step l t a) →
        step t' op = run step l t op.res → Pr t' op) →
      (∀ op ∈ l, Pf op) → AllSteps step Pr l t := by
  induction l with
  | nil => intros; trivial
  | cons o l ih =>
    intro P t hs hp hf
    obtain ⟨h1, h2, h3, h4, h5, h6⟩ := hs
    refine ⟨hp o (by simp) (hf o (by simp)) t ?_ ?_, ih _ _ h6 ?_ ?_⟩
    · intro a ha
      have hne : a ≠ o.res := by rintro rfl; exact h2 (h1 _ ha)
      rw [run, run_of_not_res, upd_ne _ _ hne]
      exact SSA.res_ne h6 a (Or.inl (h1 a ha))
    · rw [run, run_of_not_res, upd_eq]
      exact SSA.res_ne h6 _ (Or.inr rfl)
    · intro op hop hfo t' ha hr
      exact hp op (by simp [hop]) hfo t' ha hr
    · exact fun op hop => hf op (by simp [hop])

/-- Conversely. -/
theorem final_of_allSteps {N : Nat} (step : (Nat → α) → Op → α) (Pr : (Nat → α) → Op → Prop) (l : List Op) :
    ∀ (P : Nat → Prop) (t : Nat → α), SSA N P l → AllSteps step Pr l t →
      ∀ op ∈ l, ∃ t', Pr t' op ∧ (∀ a ∈ op.args, t' a = run step l t a) ∧
        step t' op = run step l t op.res := by
  induction l with
  | nil => intro _ _ _ _ op h; simp at h
  | cons o l ih =>
    intro P t hs hp op hop
    obtain ⟨h1, h2, h3, h4, h5, h6⟩ := hs
    rcases List.mem_cons.1 hop with rfl | h
    · refine ⟨t, hp.1, ?_, ?_⟩
      · intro a ha
        have hne : a ≠ op.res := by rintro rfl; exact h2 (h1 _ ha)
        rw [run, run_of_not_res, upd_ne _ _ hne]
        exact SSA.res_ne h6 a (Or.inl (h1 a ha))
      · rw [run, run_of_not_res, upd_eq]
        exact SSA.res_ne h6 _ (Or.inr rfl)
    · exact ih _ _ h6 hp.2 op h

/-! ## Chains -/

theorem chain_mem {ks : List Kind} {v n : Nat} {o : Op} (h : o ∈ chain ks v n) :
    n ≤ o.res ∧ o.res < n + ks.length ∧ o.kind ∈ ks ∧ ∃ u, o.args = [u] := by
  induction ks generalizing v n with
  | nil => simp [chain] at h
  | cons k ks ih =>
    rw [chain, List.mem_cons] at h
    rcases h with rfl | h
    · simp
    · obtain ⟨a, b, c, d⟩ := ih h
      refine ⟨by omega, by simp; omega, by simp [c], d⟩

theorem chainRes_lt {ks : List Kind} {v n : Nat} (h : v < n) : chainRes ks v n < n + ks.length := by
  induction ks generalizing v n with
  | nil => simpa [chainRes]
  | cons k ks ih =>
    have := ih (v := n) (n := n + 1) (by omega)
    simp only [chainRes, List.length_cons]
    omega

theorem run_chain_lt (step : (Nat → α) → Op → α) {ks : List Kind} {v n u : Nat} (t : Nat → α) (h : u < n) :
    run step (chain ks v n) t u = t u := by
  apply run_of_not_res
  intro o ho
  have := (chain_mem ho).1
  omega

/-- A relation kept by each kind of a chain holds at its end, and each of its operations meets `Post`. -/
theorem run_chain (step : (Nat → α) → Op → α) (Q : α → Prop) (Post : (Nat → α) → Op → Prop)
    (ks : List Kind) (hk : ∀ k ∈ ks, ∀ (t : Nat → α) u r, Q (t u) → Q (step t ⟨k, [u], r⟩))
    (hp : ∀ k ∈ ks, ∀ (t : Nat → α) u r, Q (t u) → Post t ⟨k, [u], r⟩) :
    ∀ (v n : Nat) (t : Nat → α), Q (t v) →
      Q (run step (chain ks v n) t (chainRes ks v n)) ∧ AllSteps step Post (chain ks v n) t := by
  induction ks with
  | nil => intro v n t h; exact ⟨h, trivial⟩
  | cons k ks ih =>
    intro v n t h
    rw [chain, chainRes, run, AllSteps]
    have := ih (fun k hk' => hk k (by simp [hk'])) (fun k hk' => hp k (by simp [hk'])) n (n + 1)
      (upd t n (step t ⟨k, [v], n⟩)) (by rw [upd_eq]; exact hk k (by simp) t v n h)
    exact ⟨this.1, hp k (by simp) t v n h, this.2⟩

theorem ssa_chain {N : Nat} (ks : List Kind) (hk : ∀ k ∈ ks, k.isMgmt = true) :
    ∀ (v n : Nat) (P : Nat → Prop), P v → (∀ u, P u → u < n) → n + ks.length ≤ N →
      SSA N P (chain ks v n) ∧ (P (chainRes ks v n) ∨ ∃ o ∈ chain ks v n, o.res = chainRes ks v n) := by
  induction ks with
  | nil => intro v n P hv _ _; exact ⟨trivial, Or.inl hv⟩
  | cons k ks ih =>
    intro v n P hv hP hN
    have hm := hk k (by simp)
    simp only [List.length_cons] at hN
    obtain ⟨h1, h2⟩ := ih (fun k h => hk k (by simp [h])) n (n + 1) (fun u => P u ∨ u = n) (Or.inr rfl)
      (by rintro u (h | rfl)
          · have := hP u h; omega
          · omega) (by omega)
    refine ⟨⟨by simpa using hv, ?_, by simp only; omega, fun _ => rfl, ?_, h1⟩, ?_⟩
    · intro h; have := hP _ h; simp at this
    · rintro (h | h | h) <;> simp only at h <;> subst h <;> simp [Kind.isMgmt] at hm
    · rw [chainRes]
      simp only [chain, List.mem_cons, exists_eq_or_imp]
      rcases h2 with (h | h) | ⟨o, ho, h⟩
      · exact Or.inl h
      · exact Or.inr (Or.inl h.symm)
      · exact Or.inr (Or.inr ⟨o, ho, h⟩)

/-! ## Insertion before an operation -/

/-- The states a pattern can reach at an operation by inserting chains of operations of kinds `K` on current
or original operands with an origin in `S`, and rewiring operands that have the value the chain starts at. -/
inductive Ext (K : Kind → Prop) (S : Nat → Prop) (op : Op) (n : Nat) : St → Prop
  | start (i : Nat) : Ext K S op n ⟨n, i, [], op.args⟩
  | step (s s' : St) (ks : List Kind) (j : Nat) (u : Nat) :
    Ext K S op n s → (∀ k ∈ ks, K k) → j < op.args.length → S (op.args.getD j 0) →
    (u = s.args.getD j 0 ∨ u = op.args.getD j 0) →
    s'.next = s.next + ks.length → s'.pre = s.pre ++ chain ks u s.next →
    s'.args.length = s.args.length →
    (∀ j < op.args.length, s'.args.getD j 0 = s.args.getD j 0 ∨
      (s.args.getD j 0 = u ∧ s'.args.getD j 0 = chainRes ks u s.next ∧ S (op.args.getD j 0))) →
    Ext K S op n s'

theorem Ext.len {K S op n s} (h : Ext K S op n s) : s.args.length = op.args.length := by
  induction h with
  | start => rfl
  | step s s' ks j u _ _ _ _ _ _ _ hl _ ih => rw [hl, ih]

theorem Ext.le {K S op n s} (h : Ext K S op n s) : n ≤ s.next := by
  induction h with
  | start => exact Nat.le_refl _
  | step s s' ks j u _ _ _ _ _ hn _ _ _ ih => omega

theorem Ext.pre_mem {K S op n s} (h : Ext K S op n s) :
    ∀ o ∈ s.pre, n ≤ o.res ∧ o.res < s.next ∧ K o.kind ∧ ∃ u, o.args = [u] := by
  induction h with
  | start => simp
  | step s s' ks j u h' hK _ _ _ hn hp _ _ ih =>
    intro o ho
    rw [hp, List.mem_append] at ho
    have := h'.le
    rcases ho with ho | ho
    · obtain ⟨a, b, c, d⟩ := ih o ho
      exact ⟨a, by omega, c, d⟩
    · obtain ⟨a, b, c, d⟩ := chain_mem ho
      exact ⟨by omega, by omega, hK _ c, d⟩

theorem getD_mem {l : List Nat} {j : Nat} (h : j < l.length) : l.getD j 0 ∈ l := by
  rw [List.getD_eq_getElem _ _ h]; exact List.getElem_mem h

theorem Ext.args_lt {K S op n s} (h : Ext K S op n s) (ha : ∀ a ∈ op.args, a < n) :
    ∀ j < op.args.length, s.args.getD j 0 < s.next := by
  induction h with
  | start => exact fun j hj => ha _ (getD_mem hj)
  | step s s' ks j u h' _ hj _ hu hn _ _ hr ih =>
    intro i hi
    have hle := h'.le
    have hlt : u < s.next := by
      rcases hu with rfl | rfl
      · exact ih _ hj
      · have := ha _ (getD_mem hj); omega
    rcases hr i hi with h | ⟨_, h, _⟩
    · rw [h, hn]; have := ih _ hi; omega
    · rw [h, hn]; exact chainRes_lt hlt

/-- What the sweep finds after the inserted operations. -/
theorem Ext.run {K S op n s} (h : Ext K S op n s) (ha : ∀ a ∈ op.args, a < n)
    (step : (Nat → α) → Op → α) (Q : α → α → Prop) (Post : (Nat → α) → Op → Prop) (t : Nat → α)
    (hQ : ∀ a ∈ op.args, Q (t a) (t a))
    (hK : ∀ k, K k → ∀ a ∈ op.args, S a → ∀ (t' : Nat → α) u r, Q (t a) (t' u) → Q (t a) (step t' ⟨k, [u], r⟩))
    (hP : ∀ k, K k → ∀ a ∈ op.args, S a → ∀ (t' : Nat → α) u r, Q (t a) (t' u) → Post t' ⟨k, [u], r⟩) :
    (∀ v < n, run step s.pre t v = t v) ∧
      (∀ j < op.args.length, Q (t (op.args.getD j 0)) (run step s.pre t (s.args.getD j 0))) ∧
      AllSteps step Post s.pre t := by
  induction h with
  | start => exact ⟨fun _ _ => rfl, fun j hj => hQ _ (getD_mem hj), trivial⟩
  | step s s' ks j u h' hks hj hS hu hn hp _ hr ih =>
    obtain ⟨i1, i2, i3⟩ := ih
    have hle := h'.le
    have hjm := getD_mem hj
    have hlt := h'.args_lt ha
    rw [hp]
    refine ⟨?_, ?_, ?_⟩
    · intro v hv
      rw [run_append, run_chain_lt _ _ (by omega), i1 v hv]
    · intro i hi
      rw [run_append]
      rcases hr i hi with h | ⟨h1, h2, h3⟩
      · rw [h, run_chain_lt _ _ (hlt i hi)]; exact i2 i hi
      · rw [h2]
        have him := getD_mem hi
        refine (run_chain step (Q (t (op.args.getD i 0))) Post ks
          (fun k hk t' u r hq => hK k (hks k hk) _ him h3 t' u r hq)
          (fun k hk t' u r hq => hP k (hks k hk) _ him h3 t' u r hq) u s.next _ ?_).1
        rw [← h1]; exact i2 i hi
    · rw [allSteps_append]
      refine ⟨i3, (run_chain step (Q (t (op.args.getD j 0))) Post ks
          (fun k hk t' u r hq => hK k (hks k hk) _ hjm hS t' u r hq)
          (fun k hk t' u r hq => hP k (hks k hk) _ hjm hS t' u r hq) u s.next _ ?_).2⟩
      rcases hu with rfl | rfl
      · exact i2 j hj
      · rw [i1 _ (ha _ hjm)]; exact hQ _ hjm

theorem Ext.ssa {K S op n s} (h : Ext K S op n s) (hK : ∀ k, K k → k.isMgmt = true) {N : Nat} (P : Nat → Prop)
    (hP : ∀ a ∈ op.args, P a) (hn : ∀ v, P v → v < n) (hN : s.next ≤ N) :
    SSA N P s.pre ∧ ∀ j < op.args.length, P (s.args.getD j 0) ∨ ∃ o ∈ s.pre, o.res = s.args.getD j 0 := by
  induction h with
  | start => exact ⟨trivial, fun j hj => Or.inl (hP _ (getD_mem hj))⟩
  | step s s' ks j u h' hks hj hS hu hn' hp hl hr ih =>
    have hle := h'.le
    obtain ⟨i1, i2⟩ := ih (by omega)
    have hu' : P u ∨ ∃ o ∈ s.pre, o.res = u := by
      rcases hu with rfl | rfl
      · exact i2 j hj
      · exact Or.inl (hP _ (getD_mem hj))
    obtain ⟨c1, c2⟩ := ssa_chain (N := N) ks (fun k hk => hK k (hks k hk)) u s.next
      (fun v => P v ∨ ∃ o ∈ s.pre, o.res = v) hu'
      (by rintro v (h | ⟨o, ho, rfl⟩)
          · have := hn v h; omega
          · exact (h'.pre_mem o ho).2.1) (by omega)
    rw [hp]
    refine ⟨(ssa_append _ _ _).2 ⟨i1, c1⟩, ?_⟩
    intro i hi
    rcases hr i hi with h | ⟨_, h, _⟩
    · rw [h]
      rcases i2 i hi with h | ⟨o, ho, h⟩
      · exact Or.inl h
      · exact Or.inr ⟨o, by simp [ho], h⟩
    · rw [h]
      rcases c2 with (h | ⟨o, ho, h⟩) | ⟨o, ho, h⟩
      · exact Or.inl h
      · exact Or.inr ⟨o, by simp [ho], h⟩
      · exact Or.inr ⟨o, by simp [ho], h⟩

/-- A walk inserting chains before operations. -/
inductive Ins (K : Kind → Prop) (S : Nat → Prop) : Nat → List Op → Nat → List Op → Prop
  | nil (n : Nat) : Ins K S n [] n []
  | cons (n : Nat) (op : Op) (ops : List Op) (s : St) (n' : Nat) (ops' : List Op) :
    Ext K S op n s → (op.kind = .relinearize → s.pre = [] ∧ s.args = op.args) →
    Ins K S s.next ops n' ops' → Ins K S n (op :: ops) n' (s.pre ++ { op with args := s.args } :: ops')

theorem Ins.le {K S n ops n' ops'} (h : Ins K S n ops n' ops') : n ≤ n' := by
  induction h with
  | nil => exact Nat.le_refl _
  | cons n op ops s n' ops' he _ _ ih => have := he.le; omega

theorem Ins.res {K S n ops n' ops'} (h : Ins K S n ops n' ops') :
    ∀ o ∈ ops, ∃ o' ∈ ops', o'.res = o.res ∧ o'.kind = o.kind := by
  induction h with
  | nil => simp
  | cons n op ops s n' ops' he _ _ ih =>
    intro o ho
    rcases List.mem_cons.1 ho with rfl | h
    · exact ⟨{ o with args := s.args }, by simp, rfl, rfl⟩
    · obtain ⟨o', h1, h2⟩ := ih o h
      exact ⟨o', by simp [h1], h2⟩

theorem Ins.ssa {K S n ops n' ops'} (h : Ins K S n ops n' ops') (hK : ∀ k, K k → k.isMgmt = true)
    {base N : Nat} (hb : base ≤ n) (hN : n' ≤ N) :
    ∀ (P P' : Nat → Prop), SSA base P ops → (∀ v, P v → v < base) → (∀ v < base, P' v ↔ P v) →
      (∀ v, P' v → v < n) → SSA N P' ops' := by
  induction h with
  | nil => intros; trivial
  | cons n op ops s n' ops' he hr hi ih =>
    intro P P' hs hP hPP hP'
    obtain ⟨h1, h2, h3, h4, h5, h6⟩ := hs
    have hle := he.le
    have hle' := hi.le
    have ha : ∀ a ∈ op.args, P' a := fun a ha => (hPP a (hP a (h1 a ha))).2 (h1 a ha)
    obtain ⟨e1, e2⟩ := he.ssa hK (N := N) P' ha hP' (by omega)
    refine (ssa_append _ _ _).2 ⟨e1, ?_, ?_, by simp only; omega, ?_, ?_, ?_⟩
    · intro a ha
      obtain ⟨j, hj, rfl⟩ := List.mem_iff_getElem.1 ha
      simp only at hj ⊢
      have := e2 j (by rw [← he.len]; exact hj)
      rwa [List.getD_eq_getElem _ _ hj] at this
    · rintro (h | ⟨o, ho, h⟩)
      · exact h2 ((hPP _ h3).1 h)
      · have := (he.pre_mem o ho).1
        simp only at h
        omega
    · intro hm; simp only; rw [he.len]; exact h4 hm
    · intro hm; simp only; rw [he.len]; exact h5 hm
    · refine ih (by omega) hN _ _ h6 ?_ ?_ ?_
      · rintro v (h | rfl)
        · exact hP v h
        · exact h3
      · intro v hv
        constructor
        · rintro ((h | ⟨o, ho, h⟩) | h)
          · exact Or.inl ((hPP v hv).1 h)
          · have := (he.pre_mem o ho).1; omega
          · exact Or.inr h
        · rintro (h | h)
          · exact Or.inl (Or.inl ((hPP v hv).2 h))
          · exact Or.inr h
      · rintro v ((h | ⟨o, ho, rfl⟩) | rfl)
        · have := hP' v h; omega
        · exact (he.pre_mem o ho).2.1
        · simp only; omega

/-- A sweep over the program with the inserted chains finds the same for the original values. -/
theorem Ins.run {K S n ops n' ops'} (h : Ins K S n ops n' ops') (step : (Nat → α) → Op → α)
    (Q : (Nat → α) → Op → α → α → Prop) (Pre Post : (Nat → α) → Op → Prop) {base : Nat} (hb : base ≤ n)
    (hid : ∀ o ∈ ops, o.res < base ∧ ∀ a ∈ o.args, a < base)
    (hQ : ∀ t op, op ∈ ops → Pre t op → ∀ a ∈ op.args, Q t op (t a) (t a))
    (hK : ∀ k, K k → ∀ t op, op ∈ ops → Pre t op → ∀ a ∈ op.args, S a → ∀ (t' : Nat → α) u r,
      Q t op (t a) (t' u) → Q t op (t a) (step t' ⟨k, [u], r⟩))
    (hP : ∀ k, K k → ∀ t op, op ∈ ops → op.kind ≠ .relinearize → Pre t op → ∀ a ∈ op.args, S a →
      ∀ (t' : Nat → α) u r, Q t op (t a) (t' u) → Post t' ⟨k, [u], r⟩)
    (hop : ∀ t t' op args', op ∈ ops → Pre t op → args'.length = op.args.length →
      (op.kind = .relinearize → args' = op.args) →
      (∀ v < base, t' v = t v) →
      (∀ j < op.args.length, Q t op (t (op.args.getD j 0)) (t' (args'.getD j 0))) →
      step t' { op with args := args' } = step t op ∧ Post t' { op with args := args' }) :
    ∀ (t t' : Nat → α), (∀ v < base, t' v = t v) → AllSteps step Pre ops t →
      (∀ v < base, run step ops' t' v = run step ops t v) ∧ AllSteps step Post ops' t' := by
  induction h with
  | nil => intro t t' h _; exact ⟨h, trivial⟩
  | cons n op ops s n' ops' he hr hi ih =>
    intro t t' htt hA
    obtain ⟨hA1, hA2⟩ := hA
    obtain ⟨hres, hargs⟩ := hid op (by simp)
    have hle := he.le
    have hta : ∀ a ∈ op.args, t' a = t a := fun a ha => htt a (hargs a ha)
    have key := he.run (fun a ha => by have := hargs a ha; omega) step (Q t op)
      (fun t' o => op.kind ≠ .relinearize → Post t' o) t'
      (by intro a ha; rw [hta a ha]; exact hQ t op (by simp) hA1 a ha)
      (by intro k hk a ha hS t'' u r hq; rw [hta a ha] at hq ⊢
          exact hK k hk t op (by simp) hA1 a ha hS t'' u r hq)
      (by intro k hk a ha hS t'' u r hq hne; rw [hta a ha] at hq
          exact hP k hk t op (by simp) hne hA1 a ha hS t'' u r hq)
    obtain ⟨k1, k2, k3⟩ := key
    have hlow : ∀ v < base, Heir.Mgmt.run step s.pre t' v = t v := fun v hv => by
      rw [k1 v (by omega), htt v hv]
    obtain ⟨o1, o2⟩ := hop t (Heir.Mgmt.run step s.pre t') op s.args (by simp) hA1 he.len
      (fun hk => (hr hk).2) hlow (by
        intro j hj
        have := k2 j hj
        rwa [hta _ (getD_mem hj)] at this)
    have hpre : AllSteps step Post s.pre t' := by
      by_cases hk : op.kind = .relinearize
      · rw [(hr hk).1]; trivial
      · clear k1 k2 o1 o2 hlow
        generalize s.pre = l at k3
        clear htt hta
        induction l generalizing t' with
        | nil => trivial
        | cons o l ih' => exact ⟨k3.1 hk, ih' _ k3.2⟩
    have htail := ih (by omega) (fun o ho => hid o (by simp [ho]))
      (fun t o ho => hQ t o (by simp [ho])) (fun k hk t o ho => hK k hk t o (by simp [ho]))
      (fun k hk t o ho => hP k hk t o (by simp [ho]))
      (fun t t' o args' ho => hop t t' o args' (by simp [ho]))
      (upd t op.res (step t op)) (upd (Heir.Mgmt.run step s.pre t') op.res
        (step (Heir.Mgmt.run step s.pre t') { op with args := s.args }))
      (by
        intro v hv
        by_cases hvr : v = op.res
        · subst hvr; rw [upd_eq, upd_eq, o1]
        · rw [upd_ne _ _ hvr, upd_ne _ _ hvr, hlow v hv]) hA2
    refine ⟨?_, ?_⟩
    · intro v hv
      rw [run_append]
      exact htail.1 v hv
    · rw [allSteps_append]
      exact ⟨hpre, o2, htail.2⟩

end Heir.Mgmt
