import Verif.Secret.Lemmas

/-! # If-to-select: whole programs -/

namespace Heir.Secret

variable {V : Type} {S : Sem V}

theorem ssa_iff {P : List Nat} {b : Blk} : SSA P b ↔ ∀ v, P.count v + (allDefs b).count v ≤ 1 := by
  unfold SSA
  rw [List.nodup_iff_count_le_one]
  simp only [List.count_append]

theorem SSA.disj {P : List Nat} {b : Blk} (h : SSA P b) {v : Nat} (hv : v ∈ P) : v ∉ allDefs b := by
  intro hb
  have := ssa_iff.mp h v
  have h1 := List.count_pos_iff.mpr hv
  have h2 := List.count_pos_iff.mpr hb
  omega

/-- `b'` may replace `b` where the values `P` are visible. -/
def OK (S : Sem V) (P : List Nat) (b b' : Blk) : Prop :=
  Sim S P b b' ∧ Valid P b' ∧ ∀ v, (allDefs b').count v ≤ (allDefs b).count v

theorem OK.ssa {P : List Nat} {b b' : Blk} (h : OK S P b b') (hs : SSA P b) : SSA P b' := by
  rw [ssa_iff] at hs ⊢
  intro v
  have := hs v
  have := h.2.2 v
  omega

theorem OK.trans {P : List Nat} {b b' b'' : Blk} (h : OK S P b b') (h' : OK S P b' b'') :
    OK S P b b'' :=
  ⟨h.1.trans h'.1, h'.2.1, fun v => Nat.le_trans (h'.2.2 v) (h.2.2 v)⟩

theorem OK.app {P : List Nat} {a b b' : Blk} (ha : Valid P a) (h : OK S (P ++ topDefs a) b b') :
    OK S P (a.app b) (a.app b') := by
  refine ⟨⟨?_, ?_⟩, (valid_app _ _ _).mpr ⟨ha, h.2.1⟩, ?_⟩
  · rw [topDefs_app, topDefs_app]
    intro v hv
    rcases List.mem_append.mp hv with h' | h'
    · exact List.mem_append_left _ h'
    · exact List.mem_append_right _ (h.1.1 h')
  · intro s s' hs
    rw [eval_app, eval_app, topDefs_app, ← List.append_assoc]
    exact h.1.2 _ _ ((sim_refl a P ha).2 s s' hs)
  · intro v
    have := h.2.2 v
    simp only [allDefs_app, List.count_append]
    omega

/-- Running a pure block changes nothing that was visible. -/
theorem same_pure {P : List Nat} {a : Blk} (ha : a.isPure = true) (hd : ∀ v ∈ P, v ∉ topDefs a)
    (s : St V) : SameOn P s (eval S a s) :=
  ⟨fun v hv => (eval_frame a s v (hd v hv)).symm, (eval_pure_mem a s ha).symm⟩

theorem hoist_thn {P res ty ey : List Nat} {c : Nat} {a t e rest : Blk} (ha : a.isPure = true)
    (hv : Valid P (.ite res c (a.app t) ty e ey rest))
    (hs : SSA P (.ite res c (a.app t) ty e ey rest)) :
    OK S P (.ite res c (a.app t) ty e ey rest) (a.app (.ite res c t ty e ey rest)) := by
  obtain ⟨h1, h2, h3, h4, h5, h6, h7, h8⟩ := hv
  have hd : ∀ v ∈ P, v ∉ topDefs a := by
    intro v hv hm
    refine hs.disj hv ?_
    simp only [allDefs, allDefs_app, List.mem_append]
    exact .inr (.inl (.inl (topDefs_subset a hm)))
  rw [valid_app] at h2
  rw [topDefs_app, ← List.append_assoc] at h3
  refine ⟨⟨?_, ?_⟩, (valid_app _ _ _).mpr ⟨h2.1, ?_⟩, ?_⟩
  · rw [topDefs_app]
    exact fun v hv => List.mem_append_right _ hv
  · intro s s' hs'
    rw [eval_app]
    have hu := same_pure (S := S) ha hd s'
    simp only [eval]
    have hc : (eval S a s').env c = s.env c := by rw [hs'.1 c h1]; exact (hu.1 c h1).symm
    rw [hc]
    have henv : ∀ v ∈ P, s.env v = (eval S a s').env v := fun v hv =>
      (hs'.1 v hv).trans (hu.1 v hv)
    have sub : P ++ topDefs (.ite res c (a.app t) ty e ey rest) ⊆ (res ++ P) ++ topDefs rest := by
      intro v hv
      simp only [topDefs, List.mem_append] at hv ⊢
      tauto
    split
    · have k1 := (sim_refl (S := S) a P h2.1).2 { s with ctl := s.ctl ++ [.branch true] } s' hs'
      have k2 := (sim_refl (S := S) t _ h2.2).2 _
        { eval S a s' with ctl := (eval S a s').ctl ++ [.branch true] } k1
      rw [← eval_app] at k2
      exact ((sim_refl rest _ h8).2 _ _ (k2.leave henv (k2.map h3) (by simpa using h4))).mono sub
    · have k2 := (sim_refl (S := S) e _ h5).2 { s with ctl := s.ctl ++ [.branch false] }
        { eval S a s' with ctl := (eval S a s').ctl ++ [.branch false] } (hs'.trans hu)
      exact ((sim_refl rest _ h8).2 _ _ (k2.leave henv (k2.map h6) (by simpa using h7))).mono sub
  · refine ⟨List.mem_append_left _ h1, h2.2, h3, h4,
      Valid.mono _ _ _ (fun v hv => List.mem_append_left _ hv) h5, ?_, h7,
      Valid.mono _ _ _ ?_ h8⟩
    · intro v hv
      have := h6 hv
      simp only [List.mem_append] at this ⊢
      tauto
    · intro v hv
      simp only [List.mem_append] at hv ⊢
      tauto
  · intro v
    simp only [allDefs, allDefs_app, List.count_append]
    omega

theorem hoist_els {P res ty ey : List Nat} {c : Nat} {a t e rest : Blk} (ha : a.isPure = true)
    (hv : Valid P (.ite res c t ty (a.app e) ey rest))
    (hs : SSA P (.ite res c t ty (a.app e) ey rest)) :
    OK S P (.ite res c t ty (a.app e) ey rest) (a.app (.ite res c t ty e ey rest)) := by
  obtain ⟨h1, h2, h3, h4, h5, h6, h7, h8⟩ := hv
  have hd : ∀ v ∈ P, v ∉ topDefs a := by
    intro v hv hm
    refine hs.disj hv ?_
    simp only [allDefs, allDefs_app, List.mem_append]
    exact .inr (.inr (.inl (.inl (topDefs_subset a hm))))
  rw [valid_app] at h5
  rw [topDefs_app, ← List.append_assoc] at h6
  refine ⟨⟨?_, ?_⟩, (valid_app _ _ _).mpr ⟨h5.1, ?_⟩, ?_⟩
  · rw [topDefs_app]
    exact fun v hv => List.mem_append_right _ hv
  · intro s s' hs'
    rw [eval_app]
    have hu := same_pure (S := S) ha hd s'
    simp only [eval]
    have hc : (eval S a s').env c = s.env c := by rw [hs'.1 c h1]; exact (hu.1 c h1).symm
    rw [hc]
    have henv : ∀ v ∈ P, s.env v = (eval S a s').env v := fun v hv =>
      (hs'.1 v hv).trans (hu.1 v hv)
    have sub : P ++ topDefs (.ite res c t ty (a.app e) ey rest) ⊆ (res ++ P) ++ topDefs rest := by
      intro v hv
      simp only [topDefs, List.mem_append] at hv ⊢
      tauto
    split
    · have k2 := (sim_refl (S := S) t _ h2).2 { s with ctl := s.ctl ++ [.branch true] }
        { eval S a s' with ctl := (eval S a s').ctl ++ [.branch true] } (hs'.trans hu)
      exact ((sim_refl rest _ h8).2 _ _ (k2.leave henv (k2.map h3) (by simpa using h4))).mono sub
    · have k1 := (sim_refl (S := S) a P h5.1).2 { s with ctl := s.ctl ++ [.branch false] } s' hs'
      have k2 := (sim_refl (S := S) e _ h5.2).2 _
        { eval S a s' with ctl := (eval S a s').ctl ++ [.branch false] } k1
      rw [← eval_app] at k2
      exact ((sim_refl rest _ h8).2 _ _ (k2.leave henv (k2.map h6) (by simpa using h7))).mono sub
  · refine ⟨List.mem_append_left _ h1,
      Valid.mono _ _ _ (fun v hv => List.mem_append_left _ hv) h2, ?_, h4, h5.2, h6, h7,
      Valid.mono _ _ _ ?_ h8⟩
    · intro v hv
      have := h3 hv
      simp only [List.mem_append] at this ⊢
      tauto
    · intro v hv
      simp only [List.mem_append] at hv ⊢
      tauto
  · intro v
    simp only [allDefs, allDefs_app, List.count_append]
    omega

theorem selects_eval {c : Nat} {rest : Blk} : ∀ (res ty ey : List Nat) (s : St V),
    ty.length = res.length → ey.length = res.length →
    (∀ v ∈ res, v ≠ c ∧ v ∉ ty ∧ v ∉ ey) →
    eval S (selects c res ty ey rest) s = eval S rest { s with
      env := setMany s.env res (if S.truth (s.env c) then ty.map s.env else ey.map s.env) } := by
  intro res
  induction res with
  | nil =>
    intro ty ey s h1 h2 _
    obtain rfl := List.length_eq_zero_iff.mp h1
    obtain rfl := List.length_eq_zero_iff.mp h2
    simp [selects, setMany]
  | cons r res ih =>
    intro ty ey s h1 h2 h3
    obtain _ | ⟨t, ty⟩ := ty
    · simp at h1
    obtain _ | ⟨e, ey⟩ := ey
    · simp at h2
    obtain ⟨q1, q2, q3⟩ := h3 r (by simp)
    simp only [List.mem_cons, not_or] at q2 q3
    simp only [selects, eval]
    rw [ih ty ey _ (by simpa using h1) (by simpa using h2) ?_]
    · have e1 : ∀ l : List Nat, r ∉ l → ∀ x : V, l.map (Function.update s.env r x) = l.map s.env := by
        intro l hl x
        apply List.map_congr_left
        intro v hv
        exact Function.update_of_ne (fun h : v = r => hl (h ▸ hv)) _ _
      simp only [e1 ty q2.2, e1 ey q3.2, Function.update_of_ne (Ne.symm q1), List.map_cons, List.map_nil,
        Fn.eval]
      split <;> rfl
    · intro v hv
      obtain ⟨p1, p2, p3⟩ := h3 v (List.mem_cons_of_mem _ hv)
      simp only [List.mem_cons, not_or] at p2 p3
      exact ⟨p1, p2.2, p3.2⟩

theorem topDefs_selects {c : Nat} {rest : Blk} : ∀ (res ty ey : List Nat), ty.length = res.length →
    ey.length = res.length → topDefs (selects c res ty ey rest) = res ++ topDefs rest ∧
      allDefs (selects c res ty ey rest) = res ++ allDefs rest ∧
      (selects c res ty ey rest).isPure = rest.isPure := by
  intro res
  induction res with
  | nil => intro ty ey h1 h2; simp [selects]
  | cons r res ih =>
    intro ty ey h1 h2
    obtain _ | ⟨t, ty⟩ := ty
    · simp at h1
    obtain _ | ⟨e, ey⟩ := ey
    · simp at h2
    obtain ⟨k1, k2, k3⟩ := ih ty ey (by simpa using h1) (by simpa using h2)
    simp [selects, topDefs, allDefs, Blk.isPure, k1, k2, k3]

theorem valid_selects {c : Nat} {rest : Blk} : ∀ (res ty ey P : List Nat), ty.length = res.length →
    ey.length = res.length → c ∈ P → ty ⊆ P → ey ⊆ P → Valid (res ++ P) rest →
    Valid P (selects c res ty ey rest) := by
  intro res
  induction res with
  | nil => intro ty ey P _ _ _ _ _ h; simpa [selects] using h
  | cons r res ih =>
    intro ty ey P h1 h2 hc hty hey hr
    obtain _ | ⟨t, ty⟩ := ty
    · simp at h1
    obtain _ | ⟨e, ey⟩ := ey
    · simp at h2
    obtain ⟨p1, p2⟩ := List.cons_subset.mp hty
    obtain ⟨q1, q2⟩ := List.cons_subset.mp hey
    refine ⟨?_, ih ty ey (r :: P) (by simpa using h1) (by simpa using h2)
      (List.mem_cons_of_mem _ hc) (p2.trans (List.subset_cons_self _ _))
      (q2.trans (List.subset_cons_self _ _)) (Valid.mono _ _ _ ?_ hr)⟩
    · intro v hv
      simp only [List.mem_cons, List.not_mem_nil, or_false] at hv
      rcases hv with rfl | rfl | rfl
      · exact hc
      · exact p1
      · exact q1
    · intro v hv
      simp only [List.cons_append, List.mem_cons, List.mem_append] at hv ⊢
      tauto

theorem to_selects {P res ty ey : List Nat} {c : Nat} {rest : Blk}
    (hv : Valid P (.ite res c .done ty .done ey rest))
    (hs : SSA P (.ite res c .done ty .done ey rest)) :
    OK S P (.ite res c .done ty .done ey rest) (selects c res ty ey rest) := by
  obtain ⟨h1, -, h3, h4, -, h6, h7, h8⟩ := hv
  simp only [topDefs, List.append_nil] at h3 h6
  obtain ⟨k1, k2, -⟩ := topDefs_selects (c := c) (rest := rest) res ty ey h4 h7
  have hd : ∀ v ∈ res, v ∉ P := by
    intro v hv hp
    refine hs.disj hp ?_
    simp only [allDefs, List.mem_append]
    exact .inl hv
  refine ⟨⟨?_, ?_⟩, valid_selects res ty ey P h4 h7 h1 h3 h6 h8, ?_⟩
  · rw [k1]; exact fun _ h => h
  · intro s s' hs'
    rw [selects_eval res ty ey s' h4 h7 (fun v hv =>
      ⟨fun h => hd v hv (h ▸ h1), fun h => hd v hv (h3 h), fun h => hd v hv (h6 h)⟩)]
    have sub : P ++ topDefs (.ite res c .done ty .done ey rest) ⊆ (res ++ P) ++ topDefs rest := by
      intro v hv
      simp only [topDefs, List.mem_append] at hv ⊢
      tauto
    simp only [eval]
    rw [← hs'.1 c h1, ← hs'.map h3, ← hs'.map h6]
    have hl : ∀ (vals : List V) (ctl : List Ctl), vals.length = res.length →
        SameOn (res ++ P) (St.leave { s with ctl := ctl } s.env res vals)
          { s' with env := setMany s'.env res vals } := by
      intro vals ctl hl
      exact ⟨setMany_same res P vals _ _ hs'.1 (by omega), hs'.2⟩
    split
    · exact ((sim_refl rest _ h8).2 _ _ (hl _ _ (by simpa using h4))).mono sub
    · exact ((sim_refl rest _ h8).2 _ _ (hl _ _ (by simpa using h7))).mono sub
  · intro v
    rw [k2]
    simp [allDefs]

theorem convertIf_ok {L : Labels} {P res ty ey : List Nat} {c : Nat} {t e rest b' : Blk}
    (h : convertIf L res c t ty e ey rest = some b') (hv : Valid P (.ite res c t ty e ey rest))
    (hs : SSA P (.ite res c t ty e ey rest)) : OK S P (.ite res c t ty e ey rest) b' := by
  unfold convertIf at h
  split at h
  · exact absurd h (by simp)
  split at h
  · rename_i hp
    simp only [Bool.and_eq_true] at hp
    injection h with h
    subst h
    have hv' := hv
    have hs' := hs
    rw [← app_done t] at hv' hs'
    have s1 := hoist_thn (S := S) hp.1 hv' hs'
    have q1 := (valid_app _ _ _).mp s1.2.1
    have q2 : SSA (P ++ topDefs t) (.ite res c .done ty e ey rest) := by
      have := ssa_iff.mp (s1.ssa hs')
      rw [ssa_iff]
      intro v
      have h1 := this v
      have h2 : (topDefs t).count v ≤ (allDefs t).count v := topCount t v
      simp only [allDefs_app, List.count_append] at h1 ⊢
      omega
    have hv2 := q1.2
    rw [← app_done e] at hv2 q2
    have s2 := hoist_els (S := S) hp.2 hv2 q2
    have q3 := (valid_app _ _ _).mp s2.2.1
    have q4 : SSA ((P ++ topDefs t) ++ topDefs e) (.ite res c .done ty .done ey rest) := by
      have := ssa_iff.mp (s2.ssa q2)
      rw [ssa_iff]
      intro v
      have h1 := this v
      have h2 : (topDefs e).count v ≤ (allDefs e).count v := topCount e v
      simp only [allDefs_app, List.count_append] at h1 ⊢
      omega
    have s3 := to_selects (S := S) q3.2 q4
    have s4 := s2.trans (OK.app q3.1 s3)
    rw [app_done] at s1 s4
    exact s1.trans (OK.app q1.1 s4)
  split at h
  · rename_i hp
    injection h with h
    subst h
    obtain ⟨e1, e2⟩ := split_app e
    have hv' := hv
    have hs' := hs
    rw [← app_done t] at hv' hs'
    have s1 := hoist_thn (S := S) hp hv' hs'
    have q1 := (valid_app _ _ _).mp s1.2.1
    have q2 : SSA (P ++ topDefs t) (.ite res c .done ty e ey rest) := by
      have := ssa_iff.mp (s1.ssa hs')
      rw [ssa_iff]
      intro v
      have h1 := this v
      have h2 : (topDefs t).count v ≤ (allDefs t).count v := topCount t v
      simp only [allDefs_app, List.count_append] at h1 ⊢
      omega
    have hv2 := q1.2
    rw [← e1] at hv2 q2
    have s2 := hoist_els (S := S) e2 hv2 q2
    rw [e1] at s2
    rw [app_done] at s1
    exact s1.trans (OK.app q1.1 s2)
  · injection h with h
    subst h
    obtain ⟨e1, e2⟩ := split_app t
    rw [← e1] at hv hs
    have s1 := hoist_thn (S := S) e2 hv hs
    rwa [e1] at s1
where
  topCount : ∀ (b : Blk) (v : Nat), (topDefs b).count v ≤ (allDefs b).count v := by
    intro b v
    induction b with
    | done => exact Nat.le_refl _
    | op r f x rest ih => simp only [topDefs, allDefs, List.count_cons]; omega
    | reg r f x c rest ih => simp only [topDefs, allDefs, List.count_cons]; omega
    | reveal r x rest ih => simp only [topDefs, allDefs, List.count_cons]; omega
    | eff r f x rest ih => simp only [topDefs, allDefs, List.count_cons]; omega
    | ite res c t ty e ey rest _ _ ih => simp only [topDefs, allDefs, List.count_append]; omega
    | loop res bs iv ps ins body ys rest _ ih =>
      simp only [topDefs, allDefs, List.count_append]; omega

theorem dead_ok {P : List Nat} {c : Nat} {t e rest : Blk} (ht : t.isPure = true)
    (he : e.isPure = true) (hv : Valid P (.ite [] c t [] e [] rest)) :
    OK S P (.ite [] c t [] e [] rest) rest := by
  obtain ⟨-, -, -, -, -, -, -, h8⟩ := hv
  simp only [List.nil_append] at h8
  refine ⟨⟨fun _ h => h, ?_⟩, h8, ?_⟩
  · intro s s' hs
    simp only [eval, topDefs, List.nil_append]
    split
    · exact (sim_refl rest _ h8).2 _ _ ⟨hs.1, (eval_pure_mem t _ ht).trans hs.2⟩
    · exact (sim_refl rest _ h8).2 _ _ ⟨hs.1, (eval_pure_mem e _ he).trans hs.2⟩
  · intro v
    simp only [allDefs, List.nil_append, List.count_append]
    omega

theorem Step.ok {L : Labels} {b b' : Blk} (h : Step L b b') : ∀ P : List Nat, Valid P b → SSA P b →
    OK S P b b' := by
  induction h with
  | convert _ h => intro P hv hs; exact convertIf_ok h hv hs
  | dead ht he => intro P hv hs; exact dead_ok ht he hv
  | @op r f a b b' _ ih =>
    intro P hv hs
    have k := ih (r :: P) hv.2 (by
      rw [ssa_iff] at hs ⊢; intro v; have := hs v
      simp only [allDefs, List.count_cons] at this ⊢; omega)
    refine ⟨sim_op hv.1 k.1, ⟨hv.1, k.2.1⟩, fun v => ?_⟩
    have := k.2.2 v
    simp only [allDefs, List.count_cons]; omega
  | @reg r f a c b b' _ ih =>
    intro P hv hs
    have k := ih (r :: P) hv.2.2 (by
      rw [ssa_iff] at hs ⊢; intro v; have := hs v
      simp only [allDefs, List.count_cons] at this ⊢; omega)
    refine ⟨sim_reg hv.1 hv.2.1 k.1, ⟨hv.1, hv.2.1, k.2.1⟩, fun v => ?_⟩
    have := k.2.2 v
    simp only [allDefs, List.count_cons]; omega
  | @reveal r a b b' _ ih =>
    intro P hv hs
    have k := ih (r :: P) hv.2 (by
      rw [ssa_iff] at hs ⊢; intro v; have := hs v
      simp only [allDefs, List.count_cons] at this ⊢; omega)
    refine ⟨sim_reveal hv.1 k.1, ⟨hv.1, k.2.1⟩, fun v => ?_⟩
    have := k.2.2 v
    simp only [allDefs, List.count_cons]; omega
  | @eff r f a b b' _ ih =>
    intro P hv hs
    have k := ih (r :: P) hv.2 (by
      rw [ssa_iff] at hs ⊢; intro v; have := hs v
      simp only [allDefs, List.count_cons] at this ⊢; omega)
    refine ⟨sim_eff hv.1 k.1, ⟨hv.1, k.2.1⟩, fun v => ?_⟩
    have := k.2.2 v
    simp only [allDefs, List.count_cons]; omega
  | @thn res c t t' ty e ey rest _ ih =>
    intro P hv hs
    obtain ⟨h1, h2, h3, h4, h5, h6, h7, h8⟩ := hv
    have k := ih P h2 (by
      rw [ssa_iff] at hs ⊢; intro v; have := hs v
      simp only [allDefs, List.count_append] at this ⊢; omega)
    refine ⟨sim_ite h1 k.1 h3 h4 (sim_refl _ _ h5) h6 h7 (sim_refl _ _ h8),
      ⟨h1, k.2.1, h3.trans ?_, h4, h5, h6, h7, h8⟩, fun v => ?_⟩
    · intro v hv
      exact (List.mem_append.mp hv).elim (List.mem_append_left _)
        (fun h => List.mem_append_right _ (k.1.1 h))
    · have := k.2.2 v
      simp only [allDefs, List.count_append]; omega
  | @els res c t e e' ty ey rest _ ih =>
    intro P hv hs
    obtain ⟨h1, h2, h3, h4, h5, h6, h7, h8⟩ := hv
    have k := ih P h5 (by
      rw [ssa_iff] at hs ⊢; intro v; have := hs v
      simp only [allDefs, List.count_append] at this ⊢; omega)
    refine ⟨sim_ite h1 (sim_refl _ _ h2) h3 h4 k.1 h6 h7 (sim_refl _ _ h8),
      ⟨h1, h2, h3, h4, k.2.1, h6.trans ?_, h7, h8⟩, fun v => ?_⟩
    · intro v hv
      exact (List.mem_append.mp hv).elim (List.mem_append_left _)
        (fun h => List.mem_append_right _ (k.1.1 h))
    · have := k.2.2 v
      simp only [allDefs, List.count_append]; omega
  | @after res c t e ty ey rest rest' _ ih =>
    intro P hv hs
    obtain ⟨h1, h2, h3, h4, h5, h6, h7, h8⟩ := hv
    have k := ih (res ++ P) h8 (by
      rw [ssa_iff] at hs ⊢; intro v; have := hs v
      simp only [allDefs, List.count_append] at this ⊢; omega)
    refine ⟨sim_ite h1 (sim_refl _ _ h2) h3 h4 (sim_refl _ _ h5) h6 h7 k.1,
      ⟨h1, h2, h3, h4, h5, h6, h7, k.2.1⟩, fun v => ?_⟩
    have := k.2.2 v
    simp only [allDefs, List.count_append]; omega
  | @body res bs iv ps ins b b' ys rest _ ih =>
    intro P hv hs
    obtain ⟨h1, h2, h3, h4, h5, h6, h7, h8⟩ := hv
    have k := ih (iv :: ps ++ P) h5 (by
      rw [ssa_iff] at hs ⊢; intro v; have := hs v
      simp only [allDefs, List.count_append] at this ⊢; omega)
    refine ⟨sim_loop h1 h2 h3 h4 k.1 h6 h7 (sim_refl _ _ h8),
      ⟨h1, h2, h3, h4, k.2.1, h6.trans ?_, h7, h8⟩, fun v => ?_⟩
    · intro v hv
      exact (List.mem_append.mp hv).elim (List.mem_append_left _)
        (fun h => List.mem_append_right _ (k.1.1 h))
    · have := k.2.2 v
      simp only [allDefs, List.count_append]; omega
  | @afterLoop res bs iv ps ins b ys rest rest' _ ih =>
    intro P hv hs
    obtain ⟨h1, h2, h3, h4, h5, h6, h7, h8⟩ := hv
    have k := ih (res ++ P) h8 (by
      rw [ssa_iff] at hs ⊢; intro v; have := hs v
      simp only [allDefs, List.count_append] at this ⊢; omega)
    refine ⟨sim_loop h1 h2 h3 h4 (sim_refl _ _ h5) h6 h7 k.1,
      ⟨h1, h2, h3, h4, h5, h6, h7, k.2.1⟩, fun v => ?_⟩
    have := k.2.2 v
    simp only [allDefs, List.count_append]; omega

end Heir.Secret
