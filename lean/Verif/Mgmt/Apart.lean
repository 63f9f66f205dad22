import Verif.Mgmt.Linear

/-! # Modulus reductions keep products of ciphertexts apart -/

namespace Heir.Mgmt

theorem SSA.args_def {N : Nat} {l : List Op} : ∀ {P : Nat → Prop}, SSA N P l → ∀ o ∈ l, ∀ a ∈ o.args,
    P a ∨ ∃ o' ∈ l, o'.res = a := by
  induction l with
  | nil => intro P _ o ho; simp at ho
  | cons o l ih =>
    intro P hs o' ho' a ha
    rcases List.mem_cons.1 ho' with rfl | h
    · exact Or.inl (hs.1 a ha)
    · rcases ih hs.2.2.2.2.2 o' h a ha with (h | h) | ⟨x, hx, h⟩
      · exact Or.inl h
      · exact Or.inr ⟨o, by simp, h.symm⟩
      · exact Or.inr ⟨x, by simp [hx], h⟩

theorem foldl_join_int (l : List Depth) : ∀ d, (∃ m, l.foldl Depth.join (.int d) = .int m) ∨
    l.foldl Depth.join (.int d) = .invalid := by
  have hinv : ∀ l : List Depth, l.foldl Depth.join .invalid = .invalid := by
    intro l
    induction l with
    | nil => rfl
    | cons x l ih => simpa [Depth.join] using ih
  induction l with
  | nil => exact fun d => Or.inl ⟨d, rfl⟩
  | cons x l ih =>
    intro d
    cases x with
    | uninit => exact ih d
    | int m => exact ih _
    | invalid => exact Or.inr (hinv l)

/-- The depth of a secret result. -/
theorem depths_res {p : Prog} (hw : p.WF) {op : Op} (h : op ∈ p.ops) (hs : secs p op.res = true) :
    (depths p op.res).dep ≠ .uninit ∧ (op.kind = .mul → (depths p op.res).dep ≠ .int 0) := by
  obtain ⟨t', _, h1, h2⟩ := final_of_allSteps depthStep (fun _ _ => True) p.ops _ (depthEntry p) hw.ssa
    (allSteps_true _ _ _) op h
  have hsec : (depthStep t' op).sec = true := by rw [h2, ← hs, ← depths_sec]; rfl
  have hany : (op.args.any fun a => (t' a).sec) = true := hsec
  have hdep : (depths p op.res).dep = (depthStep t' op).dep := by rw [h2]; rfl
  rw [hdep]
  simp only [depthStep, hany, if_true, deriveDepth]
  rcases foldl_join_int ((op.args.filter fun a => (t' a).sec).map fun a => (t' a).dep) 0 with ⟨m, hm⟩ | hm
  · rw [hm]
    split
    · rename_i d hd
      refine ⟨by split <;> simp, fun hk => ?_⟩
      rw [hk] at hd
      simp [Kind.increasesDepth] at hd
      subst hd
      split <;> simp
    · rename_i hne
      split at hne
      · exact absurd rfl (hne 0)
      · exact absurd rfl (hne _)
  · rw [hm]
    split
    · rename_i d hd
      split at hd
      · rename_i hk
        refine ⟨by split <;> simp, fun hk' => ?_⟩
        rw [hk'] at hk; exact absurd hk (by simp)
      · simp at hd
    · rename_i hne
      split at hne
      · exact absurd rfl (hne 0)
      · rename_i hk
        simp [hk]

theorem depths_defined {p : Prog} (hw : p.WF) {v : Nat} (hd : v < p.nargs ∨ ∃ o ∈ p.ops, o.res = v)
    (hs : secs p v = true) : (depths p v).dep ≠ .uninit := by
  rcases hd with h | ⟨o, ho, rfl⟩
  · rw [depths, run_of_not_res _ _ _ _ (hw.ssa.res_ne v h), depthEntry, if_pos h]
    simp
  · exact (depths_res hw ho hs).1

theorem effDepth_pos {ds : List Depth} (h1 : ∀ d ∈ ds, d ≠ .uninit) (h2 : ∃ d ∈ ds, d ≠ .int 0) :
    ∃ m, effDepth ds = some m ∧ 0 < m := by
  have key : ∀ (ds : List Depth) (m : Nat), (∀ d ∈ ds, d ≠ .uninit) →
      (0 < m ∨ ∃ d ∈ ds, d ≠ .int 0) → ∃ m', ds.foldl (fun acc d =>
        match acc, d with
        | some m, .int d => some (max m d)
        | some m, .invalid => some (max m 1)
        | _, _ => none) (some m) = some m' ∧ 0 < m' := by
    intro ds
    induction ds with
    | nil =>
      intro m _ h
      rcases h with h | ⟨d, hd, _⟩
      · exact ⟨m, rfl, h⟩
      · simp at hd
    | cons d ds ih =>
      intro m hu h
      rw [List.foldl_cons]
      have hu' : ∀ d ∈ ds, d ≠ .uninit := fun d hd => hu d (by simp [hd])
      cases d with
      | uninit => exact absurd rfl (hu _ (by simp))
      | int k =>
        refine ih _ hu' ?_
        rcases h with h | ⟨d, hd, hne⟩
        · left; omega
        · rcases List.mem_cons.1 hd with rfl | hd
          · left
            have : k ≠ 0 := by rintro rfl; exact hne rfl
            omega
          · exact Or.inr ⟨d, hd, hne⟩
      | invalid => exact ih _ hu' (Or.inl (by omega))
  exact key ds 0 h1 (Or.inr h2)

theorem modReduceFold_args (l : List Nat) {n : Nat} (hl : ∀ v ∈ l, v < n) : ∀ s : St, n ≤ s.next →
    ∀ x ∈ (l.foldl modReduceStep s).args, n ≤ x ∨ (x ∈ s.args ∧ x ∉ l) := by
  induction l with
  | nil => intro s _ x hx; exact Or.inr ⟨hx, by simp⟩
  | cons v l ih =>
    intro s hn x hx
    rw [List.foldl_cons] at hx
    rcases ih (fun v hv => hl v (by simp [hv])) _ (by simp [modReduceStep, St.emit]; omega) x hx with h | ⟨h1, h2⟩
    · exact Or.inl h
    · simp only [modReduceStep, replaceUses, List.mem_map] at h1
      obtain ⟨a, ha, rfl⟩ := h1
      by_cases hav : a = v
      · rw [if_pos hav]; exact Or.inl hn
      · rw [if_neg hav] at h2 ⊢
        refine Or.inr ⟨ha, ?_⟩
        simp only [List.mem_cons, not_or]
        exact ⟨hav, h2⟩

/-- After `ModReduceBefore` no secret operand of a multiplication is the result of a multiplication. -/
theorem modReduceMul_args {p : Prog} (hw : p.WF) (f : Bool) {op : Op} (hop : op ∈ p.ops) (hk : op.kind = .mul)
    {n i : Nat} (hn : p.next ≤ n) :
    ∀ x ∈ (modReduceMul (depths p) f ⟨n, i, [], op.args⟩ op).args, p.next ≤ x ∨
      (x ∈ op.args ∧ ¬ (secs p x = true ∧ ∃ o ∈ p.ops, o.res = x ∧ o.kind = .mul)) := by
  intro x hx
  have hargs := (hw.ids op hop).2
  by_cases hbad : ∃ x ∈ op.args, secs p x = true ∧ ∃ o ∈ p.ops, o.res = x ∧ o.kind = .mul
  · obtain ⟨b, hb, hbs, o, ho, hor, hok⟩ := hbad
    have hr : secs p op.res = true := by
      rw [secs_res hw hop, List.any_eq_true]
      exact ⟨b, hb, hbs⟩
    rw [modReduceMul, hk, depths_sec, hr] at hx
    simp only [decide_true, Bool.and_self, if_true, modReduceOperands] at hx
    have he : ∃ m, effDepth ((op.args.filter fun a => (depths p a).sec).map fun a => (depths p a).dep) = some m ∧
        0 < m := by
      apply effDepth_pos
      · intro d hd
        obtain ⟨a, ha, rfl⟩ := List.mem_map.1 hd
        rw [List.mem_filter, depths_sec] at ha
        exact depths_defined hw (hw.ssa.args_def op hop a ha.1) ha.2
      · refine ⟨(depths p b).dep, List.mem_map.2 ⟨b, ?_, rfl⟩, ?_⟩
        · rw [List.mem_filter, depths_sec]; exact ⟨hb, hbs⟩
        · subst hor; exact (depths_res hw ho hbs).2 hok
    obtain ⟨m, he, hm⟩ := he
    rw [he] at hx
    simp only at hx
    have hm0 : (m == 0) = false := by simp; omega
    rw [hm0, Bool.and_false] at hx
    simp only [Bool.false_eq_true, if_false] at hx
    rcases modReduceFold_args _ (n := n) (by
      intro v hv
      rw [List.mem_filter] at hv
      have := hargs v hv.1
      omega) _ (Nat.le_refl _) x hx with h | ⟨h1, h2⟩
    · left; omega
    · refine Or.inr ⟨h1, ?_⟩
      rintro ⟨hs, _⟩
      apply h2
      rw [List.mem_filter, depths_sec]
      exact ⟨h1, hs⟩
  · have hext := (modReduceMul_ext (depths p) f n i op (fun a ha => by have := hargs a ha; omega)).1
    obtain ⟨j, hj, rfl⟩ := List.mem_iff_getElem.1 hx
    have hjl : j < op.args.length := by rw [← hext.len]; exact hj
    rcases hext.orig j hjl with h | h
    · rw [List.getD_eq_getElem _ _ hj, List.getD_eq_getElem _ _ hjl] at h
      rw [h]
      refine Or.inr ⟨List.getElem_mem hjl, fun hc => hbad ⟨_, List.getElem_mem hjl, hc⟩⟩
    · rw [List.getD_eq_getElem _ _ hj] at h
      left; omega

theorem beforeT_mem {K S} (f : St → Op → St) {base : Nat} (ops : List Op)
    (hf : ∀ op ∈ ops, ∀ n i, base ≤ n → Ext K S op n (f ⟨n, i, [], op.args⟩ op)) :
    ∀ n i, base ≤ n → ∀ o ∈ (beforeT f n i ops).2.2,
      (∃ op ∈ ops, ∃ m j, base ≤ m ∧ o = { op with args := (f ⟨m, j, [], op.args⟩ op).args }) ∨
        (K o.kind ∧ base ≤ o.res) := by
  induction ops with
  | nil => intro n i _ o ho; simp [beforeT] at ho
  | cons op ops ih =>
    intro n i hn o ho
    have h1 := hf op (by simp) n i hn
    rw [beforeT] at ho
    simp only [List.mem_append, List.mem_cons] at ho
    rcases ho with ho | rfl | ho
    · obtain ⟨a, _, c, _⟩ := h1.pre_mem o ho
      exact Or.inr ⟨c, by omega⟩
    · exact Or.inl ⟨op, by simp, n, i, hn, rfl⟩
    · rcases ih (fun op h => hf op (by simp [h])) _ _ (Nat.le_trans hn h1.le) o ho with ⟨op', h2, h3⟩ | h
      · exact Or.inl ⟨op', by simp [h2], h3⟩
      · exact Or.inr h

theorem modReduceBefore_apart (cfg : Cfg) (f : Bool) {p : Prog} (hw : p.WF) :
    ProductsApart cfg (modReduceBefore f p) := by
  have hwq := (modReduceBefore_wf f hw).1
  have hextm : ∀ op ∈ p.ops, ∀ n i, p.next ≤ n →
      Ext (· = .modReduce) (fun a => (depths p a).sec = true) op n (modReduceMul (depths p) f ⟨n, i, [], op.args⟩ op) :=
    fun op hop n i hn => (modReduceMul_ext _ f n i op fun a ha => Nat.lt_of_lt_of_le ((hw.ids op hop).2 a ha) hn).1
  have hins : InsProg (· = .modReduce) (fun a => (depths p a).sec = true) p
      { p with ops := (beforeT (modReduceMul (depths p) f) p.next 0 p.ops).2.2
               next := (beforeT (modReduceMul (depths p) f) p.next 0 p.ops).1 } := by
    refine ⟨rfl, rfl, rfl, ?_⟩
    refine beforeT_ins (base := p.next) _ p.ops ?_ p.next 0 (Nat.le_refl _)
    intro op hop n i hn
    exact modReduceMul_ext _ f n i op fun a ha => Nat.lt_of_lt_of_le ((hw.ids op hop).2 a ha) hn
  have hle := hins.ins.le
  simp only at hle
  have hw1 := hins.wf (by rintro k rfl; rfl) hw
  have hext := modReduceOperands_ext (depths p) false
    (beforeT (modReduceMul (depths p) f) p.next 0 p.ops).1 0 ⟨.other 0, p.yields, 0⟩ hw1.yields_lt
  have hsec : ∀ v < p.next, secs (modReduceBefore f p) v = secs p v := by
    intro v hv
    rw [← hins.secs hw v hv]
    exact run_append_fresh hext secStep _ _ (by omega)
  have hmem : ∀ o ∈ (modReduceBefore f p).ops, o.kind = .mul → ∃ op ∈ p.ops, ∃ m j, p.next ≤ m ∧
      o = { op with args := (modReduceMul (depths p) f ⟨m, j, [], op.args⟩ op).args } := by
    intro o ho hk
    rw [modReduceBefore] at ho
    simp only [List.mem_append] at ho
    rcases ho with ho | ho
    · rcases beforeT_mem (base := p.next) _ p.ops hextm p.next 0 (Nat.le_refl _) o ho with h | ⟨h, _⟩
      · exact h
      · rw [hk] at h; exact absurd h (by simp)
    · obtain ⟨_, _, c, _⟩ := hext.pre_mem o ho
      rw [hk] at c; exact absurd c (by simp)
  intro op hop hk hall op' hop' hk' hall' hmem'
  simp only [facts_sec] at hall hall'
  have hs : secs (modReduceBefore f p) op'.res = true := hall _ hmem'
  obtain ⟨o1, ho1, m1, j1, hm1, rfl⟩ := hmem op hop hk
  obtain ⟨o2, ho2, m2, j2, hm2, rfl⟩ := hmem op' hop' hk'
  have hlt := (hw.ids o2 ho2).1
  rcases modReduceMul_args hw f ho1 hk hm1 _ hmem' with h | ⟨_, h⟩
  · simp only at h; omega
  · exact h ⟨by rw [← hsec _ hlt]; exact hs, o2, ho2, rfl, hk'⟩

theorem modReduceAfter_apart (cfg : Cfg) {p : Prog} (hw : p.WF) : ProductsApart cfg (modReduceAfter cfg p) := by
  have hlt : ∀ v, v < p.nargs → v < p.next := fun v hv => Nat.lt_of_lt_of_le hv hw.nargs
  have hsec : ∀ v < p.next, secs (modReduceAfter cfg p) v = secs p v := afterProg_secs _ hw
  classical
  let hitV : Nat → Bool := fun v => decide (∃ o ∈ p.ops, o.res = v ∧ o.kind = .mul) && secs p v
  have hV : ∀ v, hitV v = true ↔ (∃ o ∈ p.ops, o.res = v ∧ o.kind = .mul) ∧ secs p v = true := by
    intro v; simp [hitV]
  have hargs := after_args (k := .modReduce) (fun op => op.kind = .mul && (facts cfg p op.res).sec) hitV
    (base := p.next)
    (fun v hv => by obtain ⟨⟨o, ho, rfl, _⟩, _⟩ := (hV v).1 hv; exact (hw.ids o ho).1)
    p.ops (· < p.nargs) p.next id (Nat.le_refl _) hw.ssa (GoodRen.id (Nat.le_refl _) _)
    (by
      intro op hop args
      rw [Bool.eq_iff_iff, hV, facts_sec]
      simp only [Bool.and_eq_true, decide_eq_true_eq]
      refine and_congr ⟨fun h => ⟨op, hop, rfl, h⟩, ?_⟩ Iff.rfl
      rintro ⟨o, ho, hr, hk⟩
      rwa [← hw.ssa.inj o ho op hop hr])
    (by
      intro v hv
      cases hc : hitV (id v) with
      | false => rfl
      | true =>
        obtain ⟨⟨o, ho, hr, _⟩, _⟩ := (hV _).1 hc
        exact absurd hr (hw.ssa.res_ne v hv o ho))
  intro op hop hk hall op' hop' hk' hall' hmem'
  simp only [facts_sec] at hall hall'
  have h1 := hargs op hop (by rw [hk]; simp) _ hmem'
  have hs : secs (modReduceAfter cfg p) op'.res = true := hall _ hmem'
  rcases after_mem .modReduce _ (base := p.next) p.ops p.next id (Nat.le_refl _) op' hop' with ⟨o, ho, e1, e2⟩ | ⟨e, _⟩
  · have : hitV op'.res = true := by
      rw [hV]
      rw [hsec _ (by rw [e2]; exact (hw.ids o ho).1)] at hs
      exact ⟨⟨o, ho, e2.symm, by rw [← e1, hk']⟩, hs⟩
    rw [this] at h1
    exact absurd h1 (by simp)
  · rw [hk'] at e; exact absurd e (by simp)

theorem insertInit_apart (cfg : Cfg) {p : Prog} (hw : p.WF) (h : ProductsApart cfg p) :
    ProductsApart cfg (insertInit cfg p) := by
  have hins := insertInit_ins cfg p
  have hwq := insertInit_wf cfg hw
  have hsec := hins.secs hw
  simp only [ProductsApart, facts_sec] at h
  intro op hop hk hall op' hop' hk' hall' hmem'
  simp only [facts_sec] at hall hall'
  have hcase : ∀ o ∈ (insertInit cfg p).ops, o.kind = .mul → (∀ a ∈ o.args, secs (insertInit cfg p) a = true) →
      ∃ o0 ∈ p.ops, o0.kind = .mul ∧ o0.res = o.res ∧ (∀ a ∈ o0.args, secs p a = true) ∧
        ∀ x ∈ o.args, x < p.next → x ∈ o0.args := by
    intro o ho hk hall
    rcases hins.ins.mem (Nat.le_refl _) o ho with ⟨o0, ho0, m, s, hm, hext, rfl, hpre⟩ | ⟨e, _⟩
    · have ha : ∀ a ∈ o0.args, a < m := fun a ha => Nat.lt_of_lt_of_le ((hw.ids o0 ho0).2 a ha) hm
      refine ⟨o0, ho0, hk, rfl, ?_, ?_⟩
      · intro a haa
        obtain ⟨j, hj, rfl⟩ := List.mem_iff_getElem.1 haa
        have := hext.secs hwq ha hpre j hj
        have hj' : j < s.args.length := by rw [hext.len]; exact hj
        rw [List.getD_eq_getElem _ _ hj, List.getD_eq_getElem _ _ hj', hall _ (List.getElem_mem hj')] at this
        rw [← hsec _ ((hw.ids o0 ho0).2 _ haa), ← this]
      · intro x hx hlt
        obtain ⟨j, hj', rfl⟩ := List.mem_iff_getElem.1 hx
        simp only at hj' hlt ⊢
        have hj : j < o0.args.length := by rw [← hext.len]; exact hj'
        rcases hext.orig j hj with e | e
        · rw [List.getD_eq_getElem _ _ hj, List.getD_eq_getElem _ _ hj'] at e
          rw [e]; exact List.getElem_mem hj
        · rw [List.getD_eq_getElem _ _ hj'] at e; omega
    · rw [hk] at e; exact absurd e (by simp)
  obtain ⟨a, ha, ka, ra, sa, ma⟩ := hcase op hop hk hall
  obtain ⟨b, hb, kb, rb, sb, _⟩ := hcase op' hop' hk' hall'
  have hlt := (hw.ids b hb).1
  rw [← rb] at hmem'
  exact h a ha ka sa b hb kb sb (ma _ hmem' hlt)

theorem insertMgmt_linear (o : Opts) (cfg : Cfg) {p q : Prog} (hw : p.WF) (h : insertMgmt o cfg p = some q) :
    Linear cfg q := by
  have h0 := (insertMgmtPre_wf o cfg hw).1
  have hi0 := insertInit_wf cfg hw
  have hl : Linear cfg (insertMgmtPre o cfg p) := by
    rw [insertMgmtPre]
    split
    · exact relinearize_linear cfg (afterProg_wf rfl _ hi0) (modReduceAfter_apart cfg hi0)
    · exact relinearize_linear cfg (modReduceBefore_wf _ hi0).1 (modReduceBefore_apart cfg _ hi0)
  rw [insertMgmt_eq, Option.bind_eq_some_iff] at h
  obtain ⟨⟨q1, i⟩, h2, h3⟩ := h
  have hi := crossLevel_ins h2
  have hw1 := hi.wf crossKind_mgmt h0
  have hl1 := hi.linear cfg crossKind_mgmt h0 hl
  simp only at h3
  split at h3
  · injection h3 with h3
    subst h3
    exact hl1
  · exact (crossDepth_ins cfg hw1 h3).linear cfg (by rintro k ⟨i, rfl⟩; rfl) hw1 hl1

theorem insertMgmtBFV_linear (cfg : Cfg) {p : Prog} (hw : p.WF) (h : ProductsApart cfg p) :
    Linear cfg (insertMgmtBFV cfg p) :=
  relinearize_linear cfg (insertInit_wf cfg hw) (insertInit_apart cfg hw h)

end Heir.Mgmt
