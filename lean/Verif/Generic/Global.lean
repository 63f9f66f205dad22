import Verif.Generic.Moved

/-! # Dependence on secrets, and patterns that replace uses elsewhere -/

namespace Heir.Generic

variable {K α : Type} {sem : K → List α → List α → List α}

/-! ## Secrets do not flow to cleartexts -/

theorem readAll_congr {e e' : Env α} : ∀ {l : List Nat}, (∀ x ∈ l, e x = e' x) → readAll e l = readAll e' l
  | [], _ => rfl
  | x :: l, h => by
    simp only [readAll, h x (by simp), readAll_congr fun y hy => h y (List.mem_cons_of_mem _ hy)]

theorem stmt_clear {secret : Nat → Bool} {s : Stmt K} {e e' e₁ e₁' : Env α} (ht : s.typed secret)
    (hc : SameClear secret e e') (h : s.run sem e = some e₁) (h' : s.run sem e' = some e₁') :
    SameClear secret e₁ e₁' := by
  cases s with
  | op o =>
    obtain ⟨a, c, ha, hcp, hl, rfl⟩ := op_run_eq.mp h
    obtain ⟨a', c', ha', hcp', hl', rfl⟩ := op_run_eq.mp h'
    rw [readAll_congr fun x hx => hc x (ht x (by simp [Op.uses, hx]))] at ha hcp
    rw [ha] at ha'
    rw [hcp] at hcp'
    simp only [Option.some.injEq] at ha' hcp'
    subst ha' hcp'
    intro x hx
    by_cases hm : x ∈ o.results
    · rw [(define_of_mem hl hm e).1, (define_of_mem hl hm e').1]
    · rw [define_of_notMem hm, define_of_notMem hm]
      exact hc x hx
  | conceal r y =>
    intro x hx
    have hn : x ∉ (Stmt.conceal r y : Stmt K).binders := by
      simp only [Stmt.binders, List.mem_singleton]
      rintro rfl
      rw [ht.2] at hx
      exact absurd hx (by simp)
    rw [stmt_stable h hn, stmt_stable h' hn]
    exact hc x hx
  | generic g =>
    intro x hx
    have hn : x ∉ g.outs.map Prod.fst := fun hm => by
      rw [ht.2 x hm] at hx
      exact absurd hx (by simp)
    rw [gen_stable h hn, gen_stable h' hn]
    exact hc x hx

theorem all_clear {secret : Nat → Bool} : ∀ {l : List (Stmt K)} {e e' e₁ e₁' : Env α},
    (∀ s ∈ l, s.typed secret) → SameClear secret e e' → runAll sem e l = some e₁ →
    runAll sem e' l = some e₁' → SameClear secret e₁ e₁'
  | [], e, e', e₁, e₁', _, hc, h, h' => by
    simp only [runAll, Option.some.injEq] at h h'
    exact h ▸ h' ▸ hc
  | s :: l, e, e', e₁, e₁', ht, hc, h, h' => by
    simp only [runAll, Option.bind_eq_some_iff] at h h'
    obtain ⟨em, hm, h⟩ := h
    obtain ⟨em', hm', h'⟩ := h'
    exact all_clear (fun s hs => ht s (List.mem_cons_of_mem _ hs))
      (stmt_clear (ht s (by simp)) hc hm hm') h h'

theorem readAll_get {e : Env α} : ∀ {l : List Nat} {vs : List α}, readAll e l = some vs → ∀ i : Nat,
    l[i]?.map e = vs[i]?.map some
  | [], vs, h, i => by
    simp only [readAll, Option.some.injEq] at h
    subst h; rfl
  | x :: l, vs, h, i => by
    simp only [readAll, Option.bind_eq_some_iff, Option.map_eq_some_iff] at h
    obtain ⟨v, hv, ws, hw, rfl⟩ := h
    cases i with
    | zero => simp [hv]
    | succ i => simpa using readAll_get hw i

/-! ## Signatures -/

theorem replace_signature {p : Prog K} {pre post : List (Stmt K)} {r : Repl K} (hv : Valid p)
    (hr : ∀ q ∈ r.subst, p.secret q.1 = p.secret q.2 ∧ q.2 < p.next) :
    (p.replace pre post r).signature = p.signature := by
  simp only [Prog.signature, Prog.replace, List.map_map]
  refine List.map_congr_left fun x hx => ?_
  have hlt := hv.known x (List.mem_append_right _ hx)
  simp only [Function.comp_apply]
  rcases sub_cases r.subst x with ⟨q, hq, hqx, hs⟩ | ⟨-, hs⟩
  · rw [hs, retype_lt (hr q hq).2, ← hqx, (hr q hq).1]
  · rw [hs, retype_lt hlt]

/-! ## Insertions and constants -/

theorem renameInsert_self {insert : K → Bool} {d y : Nat} {s : Stmt K}
    (h : ∀ o ∈ s.ops, insert o.kind = true → d ∉ o.args) : s.renameInsert insert (sub [(d, y)]) = s := by
  have hop : ∀ o : Op K, (insert o.kind = true → d ∉ o.args) → o.renameInsert insert (sub [(d, y)]) = o := by
    intro o ho
    unfold Op.renameInsert
    split
    · rename_i hi
      obtain ⟨k, a, c, r⟩ := o
      simp only [Op.mk.injEq, true_and, and_true]
      conv_rhs => rw [← List.map_id a]
      exact List.map_congr_left fun x hx => sub_of_notMem (by
        simp only [List.map_cons, List.map_nil, List.mem_singleton]
        rintro rfl
        exact ho hi hx)
    · rfl
  cases s with
  | op o => simp only [Stmt.renameInsert, hop o (h o (by simp [Stmt.ops]))]
  | conceal r x => rfl
  | generic g =>
    obtain ⟨i, b, os⟩ := g
    simp only [Stmt.renameInsert, Stmt.generic.injEq, Gen.mk.injEq, true_and, and_true]
    conv_rhs => rw [← List.map_id b]
    exact List.map_congr_left fun o ho => hop o (h o ho)

theorem stmt_rename_self {ρ : Nat → Nat} {s : Stmt K} (h : ∀ x ∈ s.uses, ρ x = x) : s.rename ρ = s := by
  cases s with
  | op o => simp only [Stmt.rename, op_rename_self h]
  | conceal r x => simp only [Stmt.rename, h x (by simp [Stmt.uses])]
  | generic g =>
    obtain ⟨i, b, os⟩ := g
    simp only [Stmt.uses, Gen.bodyUses, List.mem_append, List.mem_map, List.mem_flatMap] at h
    simp only [Stmt.rename, Gen.rename, Stmt.generic.injEq, Gen.mk.injEq, renameSnd]
    refine ⟨?_, ?_, ?_⟩
    · conv_rhs => rw [← List.map_id i]
      exact List.map_congr_left fun q hq => Prod.ext rfl (h q.2 (Or.inl ⟨q, hq, rfl⟩))
    · conv_rhs => rw [← List.map_id b]
      exact List.map_congr_left fun o ho => op_rename_self fun x hx => h x (Or.inr (Or.inl ⟨o, ho, hx⟩))
    · conv_rhs => rw [← List.map_id os]
      exact List.map_congr_left fun q hq => Prod.ext rfl (h q.2 (Or.inr (Or.inr ⟨q, hq, rfl⟩)))

theorem map_self {β : Type} {f : β → β} {l : List β} (h : ∀ x ∈ l, f x = x) : l.map f = l := by
  conv_rhs => rw [← List.map_id l]
  exact List.map_congr_left h

/-- The function after `concealInsert`. -/
theorem concealInsert_eq {insert : K → Bool} {p : Prog K} {pre post : List (Stmt K)} {g : Gen K} {d : Nat}
    (hd : plainDest insert p.secret g g.body = some d)
    (hel : ∀ s ∈ pre ++ post, ∀ o ∈ s.ops, insert o.kind = true → d ∉ o.args) :
    concealInsert insert p.secret p.next pre g post = some (pre ++
      [.conceal p.next d, .generic ⟨g.ins ++ [(p.next + 1, p.next)],
        g.body.map (Op.renameInsert insert (sub [(d, p.next + 1)])), g.outs⟩] ++ post) := by
  simp only [concealInsert, hd, Option.map_some]
  rw [map_self fun s hs => renameInsert_self (hel s (by simp [hs])),
    map_self fun s hs => renameInsert_self (hel s (by simp [hs]))]
  simp

theorem plainDest_used {insert : K → Bool} {secret : Nat → Bool} {g : Gen K} {d : Nat}
    (hd : plainDest insert secret g g.body = some d) : d ∈ g.bodyUses ∧ d ∉ g.inner := by
  obtain ⟨⟨o, ho, -, ha⟩, hn⟩ := plainDest_spec hd
  exact ⟨List.mem_append_left _ (List.mem_flatMap.mpr ⟨o, ho,
    List.mem_append_left _ (List.mem_of_getElem? ha)⟩), hn⟩

theorem concealInsert_sound {insert : K → Bool} {p : Prog K} {pre post : List (Stmt K)} {g : Gen K} {d : Nat}
    {body : List (Stmt K)} (hs : Ssa p) (hb : p.body = pre ++ [.generic g] ++ post)
    (hd : plainDest insert p.secret g g.body = some d)
    (hel : ∀ s ∈ pre ++ post, ∀ o ∈ s.ops, insert o.kind = true → d ∉ o.args)
    (h : concealInsert insert p.secret p.next pre g post = some body) :
    Sound p ⟨p.params, body, p.rets, retype p.next [p.next] p.secret, p.next + 2⟩ := by
  rw [concealInsert_eq hd hel, Option.some.injEq] at h
  subst h
  have := replace_id (P := fun _ => True) (secrets := [p.next]) (next := p.next + 2)
    (stmts := [.conceal p.next d, .generic ⟨g.ins ++ [(p.next + 1, p.next)],
        g.body.map (Op.renameInsert insert (sub [(d, p.next + 1)])), g.outs⟩]) hs hb (fun _ _ => trivial)
    fun α sem e₀ e e₁ h₀ h₁ h₂ h₃ h₄ => by
      rw [runAll_single] at h₄
      exact concealInsert_local (plainDest_used hd).1 (plainDest_used hd).2 (fresh_of hs hb h₂) h₃
        (fun b hbb => binders_below hs hb b (by simpa [bindersOf] using hbb)) h₄
  simpa only [Prog.replace, sub_nil, map_rename_id, List.map_id] using this

theorem renameInsert_results {insert : K → Bool} {ρ : Nat → Nat} (l : List (Op K)) :
    (l.map (Op.renameInsert insert ρ)).flatMap Op.results = l.flatMap Op.results := by
  rw [List.flatMap_map]
  congr 1
  funext o
  unfold Op.renameInsert
  split <;> rfl

theorem renameInsert_uses {insert : K → Bool} {ρ : Nat → Nat} {l : List (Op K)} {x : Nat}
    (h : x ∈ (l.map (Op.renameInsert insert ρ)).flatMap Op.uses) :
    x ∈ l.flatMap Op.uses ∨ ∃ y ∈ l.flatMap Op.uses, x = ρ y := by
  rw [List.flatMap_map] at h
  obtain ⟨o, ho, hx⟩ := List.mem_flatMap.mp h
  unfold Op.renameInsert at hx
  split at hx
  · simp only [Op.uses, List.mem_append, List.mem_map] at hx
    rcases hx with ⟨y, hy, rfl⟩ | hx
    · exact Or.inr ⟨y, List.mem_flatMap.mpr ⟨o, ho, List.mem_append_left _ hy⟩, rfl⟩
    · exact Or.inl (List.mem_flatMap.mpr ⟨o, ho, List.mem_append_right _ hx⟩)
  · exact Or.inl (List.mem_flatMap.mpr ⟨o, ho, hx⟩)

theorem concealInsert_valid {insert : K → Bool} {p : Prog K} {pre post : List (Stmt K)} {g : Gen K} {d : Nat}
    {body : List (Stmt K)} (hv : Valid p) (hb : p.body = pre ++ [.generic g] ++ post)
    (hd : plainDest insert p.secret g g.body = some d)
    (hel : ∀ s ∈ pre ++ post, ∀ o ∈ s.ops, insert o.kind = true → d ∉ o.args)
    (h : concealInsert insert p.secret p.next pre g post = some body) :
    Valid ⟨p.params, body, p.rets, retype p.next [p.next] p.secret, p.next + 2⟩ := by
  rw [concealInsert_eq hd hel, Option.some.injEq] at h
  subst h
  have ht := gen_typed hv hb
  have hbl := gen_below hv hb
  have hnd := gen_nodup hv hb
  obtain ⟨hdu, hdi⟩ := plainDest_used hd
  have hdk := use_ok hv hb hdu
  have huse : ∀ x ∈ (⟨g.ins ++ [(p.next + 1, p.next)],
        g.body.map (Op.renameInsert insert (sub [(d, p.next + 1)])), g.outs⟩ : Gen K).bodyUses,
      (x < p.next ∧ p.secret x = false) ∨ x = p.next + 1 := by
    intro x hx
    rcases List.mem_append.mp hx with hx | hx
    · rcases renameInsert_uses hx with hx | ⟨y, hy, rfl⟩
      · exact Or.inl (use_ok hv hb (List.mem_append_left _ hx))
      · rcases sub_cases [(d, p.next + 1)] y with ⟨q, hq, -, hs⟩ | ⟨-, hs⟩
        · obtain rfl := List.mem_singleton.mp hq
          exact Or.inr hs
        · rw [hs]; exact Or.inl (use_ok hv hb (List.mem_append_left _ hy))
    · exact Or.inl (use_ok hv hb (List.mem_append_right _ hx))
  have := valid_replace (r := ⟨[.conceal p.next d, .generic ⟨g.ins ++ [(p.next + 1, p.next)],
        g.body.map (Op.renameInsert insert (sub [(d, p.next + 1)])), g.outs⟩], [], [p.next], p.next + 2⟩)
    hv hb (by
      simp only [bindersOf, List.flatMap_cons, List.flatMap_nil, List.append_nil, Stmt.binders, Gen.inner,
        renameInsert_results, List.map_append, List.map_cons, List.map_nil]
      simp only [Stmt.binders, Gen.inner] at hnd hbl
      rw [List.nodup_iff_count_le_one] at hnd ⊢
      intro a
      have h₁ := hnd a
      have z : a ∉ g.ins.map Prod.fst ++ g.body.flatMap Op.results ++ g.outs.map Prod.fst →
        (g.ins.map Prod.fst ++ g.body.flatMap Op.results ++ g.outs.map Prod.fst).count a = 0 :=
        List.count_eq_zero.mpr
      have y := hbl a
      simp only [List.count_append, List.count_singleton] at h₁ z ⊢
      by_cases h₂ : p.next = a
      · have := z fun hc => by have := y hc; omega
        have h₃ : ¬ p.next + 1 = a := by omega
        simp only [h₂, beq_iff_eq, if_true] at h₃ ⊢
        simp only [show ¬ (a + 1 = a) by omega, if_false]
        omega
      · by_cases h₃ : p.next + 1 = a
        · have := z fun hc => by have := y hc; omega
          simp only [beq_iff_eq, h₂, h₃, if_true, if_false]
          omega
        · simp only [beq_iff_eq, h₂, h₃, if_false]
          omega) (by
      intro b hbm
      simp only [bindersOf, List.flatMap_cons, List.flatMap_nil, List.append_nil, Stmt.binders, Gen.inner,
        renameInsert_results, List.map_append, List.map_cons, List.map_nil, List.mem_append,
        List.mem_singleton] at hbm ⊢
      rcases hbm with hm | ((hm | hm) | hm) | hm
      · right; omega
      · tauto
      · right; omega
      · tauto
      · tauto) (by simp only; omega) (by
      intro s hs
      simp only [List.mem_cons, List.not_mem_nil, or_false] at hs
      rcases hs with rfl | rfl
      · exact ⟨by rw [retype_lt hdk.1]; exact hdk.2, by rw [retype_ge (Nat.le_refl _)]; simp⟩
      · refine ⟨fun x hx => ?_, fun x hx => ?_⟩
        · rcases List.mem_append.mp hx with hx | hx
          · simp only [Gen.inner, renameInsert_results, List.map_append, List.map_cons, List.map_nil,
              List.mem_append, List.mem_singleton] at hx
            rcases hx with (hx | hx) | hx
            · have hm : x ∈ g.inner := List.mem_append_left _ hx
              rw [retype_lt (hbl x (List.mem_append_left _ hm))]
              exact ht.1 x (List.mem_append_left _ hm)
            · rw [hx, retype_ge (by omega)]
              simp
            · have hm : x ∈ g.inner := List.mem_append_right _ hx
              rw [retype_lt (hbl x (List.mem_append_left _ hm))]
              exact ht.1 x (List.mem_append_left _ hm)
          · rcases huse x hx with h | h
            · rw [retype_lt h.1]; exact h.2
            · rw [h, retype_ge (by omega)]
              simp
        · rw [retype_lt (hbl x (List.mem_append_right _ hx))]
          exact ht.2 x hx) (by
      intro x hx
      simp only [List.flatMap_cons, List.flatMap_nil, List.append_nil, Stmt.uses, List.mem_append,
        List.mem_singleton, List.map_append, List.map_cons, List.map_nil] at hx
      rcases hx with rfl | (hx | rfl) | hx
      · simp only; omega
      · have := operand_ok hv hb hx; simp only; omega
      · simp only; omega
      · rcases huse x hx with h | h <;> simp only <;> omega) (by simp)
  simpa only [Prog.replace, sub_nil, map_rename_id, List.map_id] using this

/-- The function after `absorbAmbient`. -/
theorem absorbAmbient_eq {isConst : K → Bool} {p p' : Prog K} {pre post : List (Stmt K)} {g : Gen K} {x : Nat}
    (hel : x ∉ pre.flatMap Stmt.uses ++ g.ins.map Prod.snd ++ post.flatMap Stmt.uses ++ p.rets)
    (h : absorbAmbient isConst p.next p pre g post x = some p') :
    x ∈ g.bodyUses ∧ x ∉ g.inner ∧ ∃ k, constantOf isConst pre x = some k ∧
      p' = { p with
        body := pre ++ [.generic ⟨g.ins, ⟨k, [], [], [p.next]⟩ :: g.body.map (Op.rename (sub [(x, p.next)])),
          renameSnd (sub [(x, p.next)]) g.outs⟩] ++ post
        secret := retype p.next [] p.secret
        next := p.next + 1 } := by
  unfold absorbAmbient at h
  split at h
  swap
  · simp at h
  rename_i hc
  simp only [Bool.and_eq_true, Bool.not_eq_true', List.contains_eq_mem, decide_eq_true_eq,
    decide_eq_false_iff_not] at hc
  simp only [Option.map_eq_some_iff] at h
  obtain ⟨k, hk, rfl⟩ := h
  refine ⟨hc.1, hc.2, k, hk, ?_⟩
  simp only [List.mem_append, not_or] at hel
  have hρ : ∀ y, y ≠ x → sub [(x, p.next)] y = y := fun y hy => sub_of_notMem (by simpa using hy)
  have hst : ∀ l : List (Stmt K), x ∉ l.flatMap Stmt.uses → l.map (Stmt.rename (sub [(x, p.next)])) = l :=
    fun l hl => map_self fun s hs => stmt_rename_self fun y hy => hρ y (by
      rintro rfl
      exact hl (List.mem_flatMap.mpr ⟨s, hs, hy⟩))
  rw [hst pre hel.1.1.1, hst post hel.1.2,
    show renameSnd (sub [(x, p.next)]) g.ins = g.ins from map_self fun q hq => Prod.ext rfl (hρ q.2 (by
      rintro rfl; exact hel.1.1.2 (List.mem_map_of_mem hq))),
    show p.rets.map (sub [(x, p.next)]) = p.rets from map_self fun y hy => hρ y (by
      rintro rfl; exact hel.2 hy)]
  simp

theorem absorbAmbient_sound {isConst : K → Bool} {p p' : Prog K} {pre post : List (Stmt K)} {g : Gen K} {x : Nat}
    (hs : Ssa p) (hb : p.body = pre ++ [.generic g] ++ post)
    (hel : x ∉ pre.flatMap Stmt.uses ++ g.ins.map Prod.snd ++ post.flatMap Stmt.uses ++ p.rets)
    (h : absorbAmbient isConst p.next p pre g post x = some p') : Sound p p' := by
  obtain ⟨-, hxi, k, hk, rfl⟩ := absorbAmbient_eq hel h
  have := replace_gen (secrets := []) (next := p.next + 1)
    (g' := ⟨g.ins, ⟨k, [], [], [p.next]⟩ :: g.body.map (Op.rename (sub [(x, p.next)])),
          renameSnd (sub [(x, p.next)]) g.outs⟩) hs hb
    fun α sem e₀ e e₁ h₀ h₁ hf h₃ h₄ =>
      absorbAmbient_local hxi hk h₁ (pre_nodup hs hb) hf h₃
        (fun b hbb => binders_below hs hb b (by simpa [bindersOf] using hbb)) h₄
  simp only [Prog.replace, sub_nil, map_rename_id, List.map_id] at this
  exact fun α sem env hi vs he => this α sem env hi vs he

theorem absorbAmbient_valid {isConst : K → Bool} {p p' : Prog K} {pre post : List (Stmt K)} {g : Gen K} {x : Nat}
    (hv : Valid p) (hb : p.body = pre ++ [.generic g] ++ post)
    (hel : x ∉ pre.flatMap Stmt.uses ++ g.ins.map Prod.snd ++ post.flatMap Stmt.uses ++ p.rets)
    (h : absorbAmbient isConst p.next p pre g post x = some p') : Valid p' := by
  obtain ⟨hxu, hxi, k, hk, rfl⟩ := absorbAmbient_eq hel h
  have := valid_gen (ρ := []) (n := p.next + 1)
    (g' := ⟨g.ins, ⟨k, [], [], [p.next]⟩ :: g.body.map (Op.rename (sub [(x, p.next)])),
          renameSnd (sub [(x, p.next)]) g.outs⟩) hv hb (by omega) (by
      have hnd := gen_nodup hv hb
      have hbl := gen_below hv hb
      simp only [Stmt.binders, Gen.inner, List.flatMap_cons, body_rename_results, renameSnd_fst] at hnd hbl ⊢
      rw [List.nodup_iff_count_le_one] at hnd ⊢
      intro a
      have h₁ := hnd a
      have z : a ∉ g.ins.map Prod.fst ++ g.body.flatMap Op.results ++ g.outs.map Prod.fst →
        (g.ins.map Prod.fst ++ g.body.flatMap Op.results ++ g.outs.map Prod.fst).count a = 0 :=
        List.count_eq_zero.mpr
      have y := hbl a
      simp only [List.count_append, List.count_singleton] at h₁ z ⊢
      split
      · rename_i hc
        simp only [beq_iff_eq] at hc
        have := z fun hc' => by have := y hc'; omega
        omega
      · omega) (by
      intro y hy
      simp only [Gen.inner, List.flatMap_cons, body_rename_results, List.mem_append, List.mem_singleton] at hy ⊢
      rcases hy with hy | hy | hy
      · tauto
      · right; omega
      · tauto) (by
      intro y hy
      rwa [renameSnd_fst] at hy) (fun y hy => by have := operand_ok hv hb hy; omega) (by
      intro y hy
      simp only [Gen.bodyUses, List.flatMap_cons, Op.uses, List.nil_append] at hy
      rw [body_rename_uses, renameSnd_snd, ← List.map_append] at hy
      obtain ⟨z, hz, rfl⟩ := List.mem_map.mp hy
      rcases sub_cases [(x, p.next)] z with ⟨q, hq, -, hs⟩ | ⟨-, hs⟩
      · obtain rfl := List.mem_singleton.mp hq
        rw [hs]; exact Or.inr ⟨Nat.le_refl _, Nat.lt_succ_self _⟩
      · rw [hs]; exact Or.inl (use_ok hv hb hz)) (by simp)
  simp only [Prog.replace, sub_nil, map_rename_id, List.map_id] at this
  exact this

end Heir.Generic
