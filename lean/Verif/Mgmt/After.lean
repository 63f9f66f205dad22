import Verif.Mgmt.Passes

/-! # Insertion before the yield and after operations -/

namespace Heir.Mgmt

variable {α : Type}

/-! ## The yielded values -/

/-- A program whose yielded values are wrapped. -/
theorem yields_wf {K S} {p : Prog} (hw : p.WF) (hK : ∀ k, K k → k.isMgmt = true) {s : St} (o : Op)
    (ho : o.args = p.yields) (h : Ext K S o p.next s) :
    Prog.WF { p with ops := p.ops ++ s.pre, yields := s.args, next := s.next } := by
  have hle := h.le
  have hdef : ∀ a ∈ o.args, (a < p.nargs ∨ ∃ o ∈ p.ops, o.res = a) := by
    rw [ho]; exact hw.yields
  obtain ⟨e1, e2⟩ := h.ssa hK (N := s.next) (fun v => v < p.nargs ∨ ∃ o ∈ p.ops, o.res = v) hdef
    (by rintro v (hv | ⟨o, ho, rfl⟩)
        · exact Nat.lt_of_lt_of_le hv hw.nargs
        · exact hw.ssa.res_lt o ho) (Nat.le_refl _)
  refine ⟨Nat.le_trans hw.nargs hle, (ssa_append _ _ _).2 ⟨hw.ssa.mono hle, e1⟩, ?_⟩
  intro y hy
  obtain ⟨j, hj, rfl⟩ := List.mem_iff_getElem.1 hy
  simp only at hj ⊢
  have := e2 j (by rw [← h.len]; exact hj)
  rw [List.getD_eq_getElem _ _ hj] at this
  rcases this with (h | ⟨o, h1, h2⟩) | ⟨o, h1, h2⟩
  · exact Or.inl h
  · exact Or.inr ⟨o, by simp [h1], h2⟩
  · exact Or.inr ⟨o, by simp [h1], h2⟩

theorem yields_result {D : Type} {K S} {p : Prog} (hw : p.WF) (hK : ∀ k, K k → k.isMgmt = true) {s : St} (o : Op)
    (ho : o.args = p.yields) (h : Ext K S o p.next s) (I : Kind → List D → D) (env : Nat → D) :
    Prog.result I { p with ops := p.ops ++ s.pre, yields := s.args, next := s.next } env = p.result I env := by
  have hlt : ∀ a ∈ o.args, a < p.next := by rw [ho]; exact hw.yields_lt
  obtain ⟨_, k2, _⟩ := h.run hlt (evalOp I) (fun x y => x = y) (fun _ _ => True) (run (evalOp I) p.ops env)
    (fun _ _ => rfl) (fun k hk a _ _ t' u r hq => by rw [evalOp_mgmt I t' (hK k hk)]; exact hq)
    (fun _ _ _ _ _ _ _ _ _ => trivial)
  simp only [Prog.result, eval_eq_run, run_append]
  apply List.ext_getElem
  · simp [h.len, ho]
  · intro j h1 h2
    simp only [List.length_map] at h1 h2
    have := k2 j (by rw [ho]; exact h2)
    rw [List.getD_eq_getElem _ _ h1, List.getD_eq_getElem _ _ (by rw [ho]; exact h2)] at this
    simp only [List.getElem_map, ← this]
    congr 1
    simp [ho]

/-! ## Insertion after operations -/

/-- The renaming only changes values that are defined, to values the walk has created. -/
structure GoodRen (base n : Nat) (P : Nat → Prop) (σ : Nat → Nat) : Prop where
  lt : ∀ v < base, σ v < n
  cases : ∀ v, σ v = v ∨ (base ≤ σ v ∧ P v)

theorem GoodRen.id {base n : Nat} (h : base ≤ n) (P : Nat → Prop) : GoodRen base n P id :=
  ⟨fun v hv => Nat.lt_of_lt_of_le hv h, fun _ => Or.inl rfl⟩

theorem GoodRen.mono {base n m : Nat} {P Q : Nat → Prop} {σ} (h : GoodRen base n P σ) (hn : n ≤ m)
    (hP : ∀ v, P v → Q v) : GoodRen base m Q σ :=
  ⟨fun v hv => Nat.lt_of_lt_of_le (h.lt v hv) hn, fun v => (h.cases v).imp_right fun x => ⟨x.1, hP v x.2⟩⟩

theorem GoodRen.upd {base n : Nat} {P : Nat → Prop} {σ} (h : GoodRen base n P σ) (hb : base ≤ n) (r : Nat) :
    GoodRen base (n + 1) (fun v => P v ∨ v = r) (upd σ r n) := by
  refine ⟨fun v hv => ?_, fun v => ?_⟩
  · by_cases hr : v = r
    · subst hr; rw [upd_eq]; omega
    · rw [upd_ne _ _ hr]; have := h.lt v hv; omega
  · by_cases hr : v = r
    · subst hr; rw [upd_eq]; exact Or.inr ⟨hb, Or.inr rfl⟩
    · rw [upd_ne _ _ hr]; exact (h.cases v).imp_right fun x => ⟨x.1, Or.inl x.2⟩

theorem after_le (k : Kind) (hit : Op → Bool) (ops : List Op) : ∀ n σ, n ≤ (after k hit n σ ops).1 := by
  induction ops with
  | nil => exact fun n σ => Nat.le_refl _
  | cons op ops ih =>
    intro n σ
    rw [after]
    simp only
    split
    · have := ih (n + 1) (upd σ op.res n); simp only; omega
    · exact ih n σ

/-- A sweep over the changed program finds at the renamed values what a sweep over the original finds. -/
theorem after_eval {D : Type} (I : Kind → List D → D) {k : Kind} (hk : k.isMgmt = true) (hit : Op → Bool)
    {base : Nat} (ops : List Op) : ∀ (P : Nat → Prop) (n : Nat) (σ : Nat → Nat) (env env' : Nat → D),
      base ≤ n → SSA base P ops → (∀ v, P v → v < base) → GoodRen base n P σ →
      (∀ v < base, env' (σ v) = env v) →
      ∀ v < base, run (evalOp I) (after k hit n σ ops).2.2 env' ((after k hit n σ ops).2.1 v) =
        run (evalOp I) ops env v := by
  induction ops with
  | nil => intro P n σ env env' _ _ _ _ h; exact h
  | cons op ops ih =>
    intro P n σ env env' hb hs hP hσ he v hv
    obtain ⟨h1, h2, h3, h4, h5, h6⟩ := hs
    have hP' : ∀ v, P v ∨ v = op.res → v < base := by
      rintro v (h | rfl)
      · exact hP v h
      · exact h3
    have hval : evalOp I env' { op with args := op.args.map σ } = evalOp I env op := by
      apply evalOp_congr I env env' op _ (by simp) h4
      intro j hj
      have hj' : j < (op.args.map σ).length := by simpa using hj
      rw [List.getD_eq_getElem _ _ hj, List.getD_eq_getElem _ _ hj', List.getElem_map,
        he _ (hP _ (h1 _ (List.getElem_mem hj)))]
    have hne : ∀ v, v ≠ op.res → v < base → σ v ≠ op.res := by
      intro v hv _ h
      rcases hσ.cases v with h' | ⟨h', _⟩
      · exact hv (by rw [← h', h])
      · omega
    have hres : σ op.res = op.res := by
      rcases hσ.cases op.res with h | ⟨_, h⟩
      · exact h
      · exact absurd h h2
    rw [after]
    simp only
    split
    · refine ih _ (n + 1) _ _ _ (by omega) h6 hP' (hσ.upd hb op.res) ?_ v hv
      intro u hu
      simp only [hval]
      by_cases hur : u = op.res
      · subst hur
        rw [upd_eq, upd_eq, upd_eq, evalOp_mgmt I _ hk, upd_eq]
      · rw [upd_ne _ _ hur, upd_ne _ _ hur, upd_ne _ _ (by have := hσ.lt u hu; omega),
          upd_ne _ _ (hne u hur hu), he u hu]
    · refine ih _ n _ _ _ hb h6 hP' (hσ.mono (Nat.le_refl _) fun _ h => Or.inl h) ?_ v hv
      intro u hu
      simp only [hval]
      by_cases hur : u = op.res
      · subst hur
        rw [hres, upd_eq, upd_eq]
      · rw [upd_ne _ _ hur, upd_ne _ _ (hne u hur hu), he u hu]

theorem after_ssa {k : Kind} (hk : k.isMgmt = true) (hit : Op → Bool) {base N : Nat} (ops : List Op) :
    ∀ (P P' : Nat → Prop) (n : Nat) (σ : Nat → Nat),
      base ≤ n → (after k hit n σ ops).1 ≤ N → SSA base P ops → (∀ v, P v → v < base) → GoodRen base n P σ →
      (∀ v < base, P' v ↔ P v) → (∀ v, P v → P' (σ v)) → (∀ v, P' v → v < n) →
      SSA N P' (after k hit n σ ops).2.2 ∧
        (∀ v, (P v ∨ ∃ o ∈ ops, o.res = v) →
          P' ((after k hit n σ ops).2.1 v) ∨
            ∃ o ∈ (after k hit n σ ops).2.2, o.res = (after k hit n σ ops).2.1 v) := by
  induction ops with
  | nil =>
    intro P P' n σ _ _ _ _ _ _ h _
    refine ⟨trivial, ?_⟩
    rintro v (hv | ⟨o, ho, _⟩)
    · exact Or.inl (h v hv)
    · simp at ho
  | cons op ops ih =>
    intro P P' n σ hb hN hs hP hσ hPP hPσ hPn
    obtain ⟨h1, h2, h3, h4, h5, h6⟩ := hs
    have hle := after_le k hit (op :: ops) n σ
    have hP1 : ∀ v, P v ∨ v = op.res → v < base := by
      rintro v (h | rfl)
      · exact hP v h
      · exact h3
    have hres : σ op.res = op.res := by
      rcases hσ.cases op.res with h | ⟨_, h⟩
      · exact h
      · exact absurd h h2
    have hargs : ∀ a ∈ op.args.map σ, P' a := by
      intro a ha
      obtain ⟨b, hb', rfl⟩ := List.mem_map.1 ha
      exact hPσ b (h1 b hb')
    have hnres : ¬ P' op.res := fun h => h2 ((hPP _ h3).1 h)
    have hnargs : ∀ j, ({ op with args := op.args.map σ } : Op).kind = j →
        (op.args.map σ).length = op.args.length := fun _ _ => by simp
    rw [after] at hN ⊢
    simp only at hN ⊢
    split at hN
    · rename_i hh
      rw [if_pos hh]
      simp only at hN ⊢
      have hle' := after_le k hit ops (n + 1) (upd σ op.res n)
      obtain ⟨i1, i2⟩ := ih (fun v => P v ∨ v = op.res) (fun v => (P' v ∨ v = op.res) ∨ v = n) (n + 1)
        (upd σ op.res n) (by omega) hN h6 hP1 (hσ.upd hb op.res)
        (by intro v hv
            constructor
            · rintro ((h | h) | h)
              · exact Or.inl ((hPP v hv).1 h)
              · exact Or.inr h
              · omega
            · rintro (h | h)
              · exact Or.inl (Or.inl ((hPP v hv).2 h))
              · exact Or.inl (Or.inr h))
        (by intro v hv
            by_cases hr : v = op.res
            · subst hr; rw [upd_eq]; exact Or.inr rfl
            · rw [upd_ne _ _ hr]
              rcases hv with hv | hv
              · exact Or.inl (Or.inl (hPσ v hv))
              · exact absurd hv hr)
        (by rintro v ((h | rfl) | rfl)
            · have := hPn v h; omega
            · omega
            · omega)
      refine ⟨⟨hargs, hnres, by simp only; omega, ?_, ?_, ⟨by simp, ?_, by simp only; omega, fun _ => rfl, ?_, i1⟩⟩, ?_⟩
      · intro hm; simpa using h4 hm
      · intro hm; simpa using h5 hm
      · rintro (h | h)
        · have := hPn _ h; simp at this
        · simp only at h; omega
      · rintro (h | h | h) <;> simp only at h <;> subst h <;> simp [Kind.isMgmt] at hk
      · intro v hv
        have hv' : (P v ∨ v = op.res) ∨ ∃ o ∈ ops, o.res = v := by
          rcases hv with h | ⟨o, ho, h⟩
          · exact Or.inl (Or.inl h)
          · rcases List.mem_cons.1 ho with rfl | ho
            · exact Or.inl (Or.inr h.symm)
            · exact Or.inr ⟨o, ho, h⟩
        rcases i2 v hv' with ((h | h) | h) | ⟨o, ho, h⟩
        · exact Or.inl h
        · exact Or.inr ⟨_, List.mem_cons_self, h.symm⟩
        · exact Or.inr ⟨_, List.mem_cons_of_mem _ List.mem_cons_self, h.symm⟩
        · exact Or.inr ⟨o, by simp [ho], h⟩
    · rename_i hh
      rw [if_neg hh]
      simp only at hN ⊢
      have hle' := after_le k hit ops n σ
      obtain ⟨i1, i2⟩ := ih (fun v => P v ∨ v = op.res) (fun v => P' v ∨ v = op.res) n σ hb hN h6 hP1
        (hσ.mono (Nat.le_refl _) fun _ h => Or.inl h)
        (by intro v hv
            constructor
            · rintro (h | h)
              · exact Or.inl ((hPP v hv).1 h)
              · exact Or.inr h
            · rintro (h | h)
              · exact Or.inl ((hPP v hv).2 h)
              · exact Or.inr h)
        (by rintro v (hv | rfl)
            · exact Or.inl (hPσ v hv)
            · exact Or.inr hres)
        (by rintro v (h | rfl)
            · exact hPn v h
            · omega)
      refine ⟨⟨hargs, hnres, by simp only; omega, ?_, ?_, i1⟩, ?_⟩
      · intro hm; simpa using h4 hm
      · intro hm; simpa using h5 hm
      · intro v hv
        have hv' : (P v ∨ v = op.res) ∨ ∃ o ∈ ops, o.res = v := by
          rcases hv with h | ⟨o, ho, h⟩
          · exact Or.inl (Or.inl h)
          · rcases List.mem_cons.1 ho with rfl | ho
            · exact Or.inl (Or.inr h.symm)
            · exact Or.inr ⟨o, ho, h⟩
        rcases i2 v hv' with (h | h) | ⟨o, ho, h⟩
        · exact Or.inl h
        · exact Or.inr ⟨_, List.mem_cons_self, h.symm⟩
        · exact Or.inr ⟨o, by simp [ho], h⟩

theorem afterProg_wf {k : Kind} (hk : k.isMgmt = true) (hit : Op → Bool) {p : Prog} (hw : p.WF) :
    (afterProg k hit p).WF := by
  have hle := after_le k hit p.ops p.next id
  have hlt : ∀ v, v < p.nargs → v < p.next := fun v hv => Nat.lt_of_lt_of_le hv hw.nargs
  obtain ⟨h1, h2⟩ := after_ssa hk hit (N := (after k hit p.next id p.ops).1) p.ops (· < p.nargs) (· < p.nargs)
    p.next id (Nat.le_refl _) (Nat.le_refl _) hw.ssa hlt (GoodRen.id (Nat.le_refl _) _)
    (fun _ _ => Iff.rfl) (fun _ h => h) hlt
  refine ⟨Nat.le_trans hw.nargs hle, h1, ?_⟩
  intro y hy
  obtain ⟨x, hx, rfl⟩ := List.mem_map.1 hy
  exact h2 x (hw.yields x hx)

theorem afterProg_result {D : Type} {k : Kind} (hk : k.isMgmt = true) (hit : Op → Bool) {p : Prog} (hw : p.WF)
    (I : Kind → List D → D) (env : Nat → D) : (afterProg k hit p).result I env = p.result I env := by
  have hlt : ∀ v, v < p.nargs → v < p.next := fun v hv => Nat.lt_of_lt_of_le hv hw.nargs
  simp only [Prog.result, afterProg, eval_eq_run, List.map_map]
  apply List.map_congr_left
  intro y hy
  exact after_eval I hk hit p.ops (· < p.nargs) p.next id env env (Nat.le_refl _) hw.ssa hlt
    (GoodRen.id (Nat.le_refl _) _) (fun _ _ => rfl) y (hw.yields_lt y hy)

end Heir.Mgmt
