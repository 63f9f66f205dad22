import Verif.Mgmt.Levels

/-! # Matching levels -/

namespace Heir.Mgmt

theorem slStep_one (cfg : Cfg) {t : Nat → Bool × Level} {k : Kind} {u r : Nat} {L : Level} (h : t u = (true, L)) :
    slStep cfg t ⟨k, [u], r⟩ = (true, clamp cfg.budget (deriveLevel cfg.consumed k [L])) := by
  simp [slStep, h]

theorem run_chain_sl (cfg : Cfg) (ks : List Kind) : ∀ (v n : Nat) (t : Nat → Bool × Level) (L : Level),
    t v = (true, L) → run (slStep cfg) (chain ks v n) t (chainRes ks v n) =
      (true, ks.foldl (fun L k => clamp cfg.budget (deriveLevel cfg.consumed k [L])) L) := by
  induction ks with
  | nil => intro v n t L h; exact h
  | cons k ks ih =>
    intro v n t L h
    rw [chain, chainRes, run, List.foldl_cons]
    exact ih n (n + 1) _ _ (by rw [upd_eq]; exact slStep_one cfg h)

theorem crossChain_level (cfg : Cfg) (ckks : Bool) (id : Nat) {l r : Nat} (h : l < r) (hr : r ≤ cfg.budget) :
    (crossChain ckks id l r).foldl (fun L k => clamp cfg.budget (deriveLevel cfg.consumed k [L])) (.int l) = .int r := by
  have hc : ∀ x, x ≤ cfg.budget → clamp cfg.budget (.int x) = .int x := by
    intro x hx
    simp only [clamp]
    rw [if_neg (by omega)]
  have hadj : ∀ x, deriveLevel cfg.consumed (.adjustScale id) [.int x] = .int x := fun x => rfl
  have hmr : ∀ x, deriveLevel cfg.consumed .modReduce [.int x] = .int (x + 1) := fun x => rfl
  have hlr : ∀ d x, deriveLevel cfg.consumed (.levelReduce d) [.int x] = .int (x + d) := fun d x => rfl
  rw [crossChain]
  by_cases h1 : r - l > 1
  · rw [if_pos h1]
    cases ckks
    · simp only [Bool.false_eq_true, if_false, List.cons_append, List.nil_append, List.foldl_cons, List.foldl_nil]
      rw [hlr, hc _ (by omega), hadj, hc _ (by omega), hmr, hc _ (by omega)]
      congr 1; omega
    · simp only [if_true, List.cons_append, List.nil_append, List.foldl_cons, List.foldl_nil]
      rw [hlr, hc _ (by omega), hmr, hc _ (by omega)]
      congr 1; omega
  · rw [if_neg h1]
    cases ckks
    · simp only [Bool.false_eq_true, if_false, List.cons_append, List.nil_append, List.foldl_cons, List.foldl_nil]
      rw [hadj, hc _ (by omega), hmr, hc _ (by omega)]
      congr 1; omega
    · simp only [if_true, List.nil_append, List.foldl_cons, List.foldl_nil]
      rw [hmr, hc _ (by omega)]
      congr 1; omega

theorem crossChain_ne (ckks : Bool) (id l r : Nat) : crossChain ckks id l r ≠ [] := by
  simp [crossChain]

theorem chainRes_ge {ks : List Kind} (h : ks ≠ []) (v n : Nat) : n ≤ chainRes ks v n := by
  cases ks with
  | nil => exact absurd rfl h
  | cons k ks =>
    rw [chainRes]
    rcases chainRes_cases ks n (n + 1) with h | h <;> omega

section Fold

variable {ckks : Bool} {cfg : Cfg} {base n : Nat} {t : Nat → Fact} {R : Level} {op : Op}
  {cur : Nat → Bool × Level}

/-- What holds while the secret operands are visited; `L` are the visited positions. -/
structure CrossInv (cfg : Cfg) (n : Nat) (t : Nat → Fact) (R : Level) (op : Op) (cur : Nat → Bool × Level)
    (L : Nat → Prop) (s : St) : Prop where
  ext : Ext CrossKind (fun a => (t a).sec = true) op n s
  val : ∀ j < op.args.length, (s.args.getD j 0 = op.args.getD j 0 ∧
      (L j → mism R (t (op.args.getD j 0)).lvl = false)) ∨
    (n ≤ s.args.getD j 0 ∧ (t (op.args.getD j 0)).sec = true ∧ mism R (t (op.args.getD j 0)).lvl = true ∧
      run (slStep cfg) s.pre cur (s.args.getD j 0) = (true, R))

/-- The effect of one step. -/
theorem crossStep_cases {s s' : St} {i : Nat} (h : crossStep ckks base t R s i = some s') :
    s.args.getD i 0 < base ∧
      ((mism R (t (s.args.getD i 0)).lvl = false ∧ s' = s) ∨
        (mism R (t (s.args.getD i 0)).lvl = true ∧ ∃ ks id', ks ≠ [] ∧
          (∀ r l, R = .int r → (t (s.args.getD i 0)).lvl = .int l → ks = crossChain ckks s.id l r) ∧
          (R = .maxLevel → ks = [.levelReduceMin]) ∧
          s' = ⟨s.next + ks.length, id', s.pre ++ chain ks (s.args.getD i 0) s.next,
            replaceUses s.args (s.args.getD i 0) (chainRes ks (s.args.getD i 0) s.next)⟩)) := by
  unfold crossStep at h
  simp only at h
  by_cases hv : base ≤ s.args.getD i 0
  · rw [if_pos hv] at h; exact absurd h (by simp)
  rw [if_neg hv] at h
  refine ⟨by omega, ?_⟩
  generalize (t (s.args.getD i 0)).lvl = l at h ⊢
  have hsame : (mism R l = false ∧ some s = some s') → (mism R l = false ∧ s' = s) :=
    fun x => ⟨x.1, (Option.some.inj x.2).symm⟩
  cases R with
  | uninit => exact Or.inl (hsame ⟨rfl, h⟩)
  | invalid => exact Or.inl (hsame ⟨rfl, h⟩)
  | int r =>
    cases l with
    | int l =>
      simp only at h
      by_cases hlr : l < r
      · rw [if_pos hlr] at h
        injection h with h
        refine Or.inr ⟨by simp [mism, hlr], crossChain ckks s.id l r, _, crossChain_ne _ _ _ _, ?_, by simp, h.symm⟩
        intro r' l' e1 e2
        injection e1 with e1; injection e2 with e2
        rw [e1, e2]
      · rw [if_neg hlr] at h
        exact Or.inl (hsame ⟨by simp [mism]; omega, h⟩)
    | _ => exact Or.inl (hsame ⟨rfl, h⟩)
  | maxLevel =>
    cases l with
    | int l =>
      injection h with h
      exact Or.inr ⟨rfl, [.levelReduceMin], s.id, by simp, by simp, by simp, h.symm⟩
    | _ => exact Or.inl (hsame ⟨rfl, h⟩)

theorem crossStep_inv {L : Nat → Prop} (hb : base ≤ n) (ha : ∀ a ∈ op.args, a < base)
    (hcur : ∀ a ∈ op.args, cur a = ((t a).sec, (t a).lvl)) (hR : Fits cfg.budget R)
    {s s' : St} {i : Nat} (hi : i ∈ secretPos t op.args) (hs : CrossInv cfg n t R op cur L s)
    (h : crossStep ckks base t R s i = some s') :
    CrossInv cfg n t R op cur (fun j => L j ∨ j = i) s' := by
  have hext := crossStep_ext hb hs.ext hi h
  refine ⟨hext, ?_⟩
  simp only [secretPos, List.mem_filter, List.mem_range] at hi
  obtain ⟨hil, hsec⟩ := hi
  obtain ⟨hlt, hc⟩ := crossStep_cases h
  have hae : s.args.getD i 0 = op.args.getD i 0 := by
    rcases hs.ext.orig i hil with h | h
    · exact h
    · omega
  rcases hc with ⟨hm, rfl⟩ | ⟨hm, ks, id', hne, hk1, hk2, rfl⟩
  · intro j hj
    rcases hs.val j hj with ⟨h1, h2⟩ | h
    · refine Or.inl ⟨h1, ?_⟩
      rintro (h | rfl)
      · exact h2 h
      · rw [← hae]; exact hm
    · exact Or.inr h
  · intro j hj
    have hlen : j < s.args.length := by rw [hs.ext.len]; exact hj
    have hle := hs.ext.le
    simp only
    rw [replaceUses_getD hlen]
    by_cases hjv : s.args.getD j 0 = s.args.getD i 0
    · rw [if_pos hjv]
      have hje : op.args.getD j 0 = op.args.getD i 0 := by
        rcases hs.ext.orig j hj with h | h
        · rw [← h, hjv, hae]
        · omega
      refine Or.inr ⟨?_, by rw [hje]; exact hsec, by rw [hje, ← hae]; exact hm, ?_⟩
      · have := chainRes_ge hne (s.args.getD i 0) s.next; omega
      · rw [run_append]
        have hv0 : run (slStep cfg) s.pre cur (s.args.getD i 0) = (true, (t (s.args.getD i 0)).lvl) := by
          rw [run_of_not_res]
          · rw [hae, hcur _ (getD_mem hil), hsec]
          · intro o ho
            have := (hs.ext.pre_mem o ho).1
            omega
        rw [run_chain_sl cfg ks _ _ _ _ hv0]
        congr 1
        generalize (t (s.args.getD i 0)).lvl = l at hm hk1
        cases R with
        | uninit => simp [mism] at hm
        | invalid => simp [mism] at hm
        | int r =>
          cases l with
          | int l =>
            rw [hk1 r l rfl rfl]
            simp only [mism, decide_eq_true_eq] at hm
            refine crossChain_level cfg ckks _ hm ?_
            simp only [Fits, clamp] at hR
            split at hR
            · exact absurd hR (by simp)
            · omega
          | _ => simp [mism] at hm
        | maxLevel =>
          cases l with
          | int l =>
            rw [hk2 rfl]
            simp [deriveLevel, Level.reduceAll, clamp]
          | _ => simp [mism] at hm
    · rw [if_neg hjv]
      rcases hs.val j hj with ⟨h1, h2⟩ | ⟨h1, h2, h3, h4⟩
      · refine Or.inl ⟨h1, ?_⟩
        rintro (h | rfl)
        · exact h2 h
        · exact absurd rfl hjv
      · refine Or.inr ⟨h1, h2, h3, ?_⟩
        rw [run_append, run_chain_lt _ _ (hs.ext.args_lt (fun a h => by have := ha a h; omega) j hj)]
        exact h4

theorem crossFold_inv (hb : base ≤ n) (ha : ∀ a ∈ op.args, a < base)
    (hcur : ∀ a ∈ op.args, cur a = ((t a).sec, (t a).lvl)) (hR : Fits cfg.budget R) (l : List Nat)
    (hl : ∀ i ∈ l, i ∈ secretPos t op.args) :
    ∀ (L : Nat → Prop) (s s' : St), CrossInv cfg n t R op cur L s →
      l.foldlM (crossStep ckks base t R) s = some s' →
      CrossInv cfg n t R op cur (fun j => L j ∨ j ∈ l) s' := by
  induction l with
  | nil =>
    intro L s s' hs h
    simp at h
    subst h
    simpa using hs
  | cons i l ih =>
    intro L s s' hs h
    rw [List.foldlM_cons] at h
    cases hc : crossStep ckks base t R s i with
    | none => rw [hc] at h; simp at h
    | some s1 =>
      rw [hc] at h
      have h1 := crossStep_inv hb ha hcur hR (hl i (by simp)) hs hc
      have h2 := ih (fun i hi => hl i (by simp [hi])) _ s1 s' h1 h
      have e : (fun j => (L j ∨ j = i) ∨ j ∈ l) = fun j => L j ∨ j ∈ i :: l := by
        funext j; simp only [List.mem_cons, or_assoc]
      rwa [e] at h2

/-- The fold does not look up a value the walk has created when no level below that of the result occurs at
two positions. -/
theorem crossFold_some (hb : base ≤ n) (ha : ∀ a ∈ op.args, a < base)
    (hcur : ∀ a ∈ op.args, cur a = ((t a).sec, (t a).lvl)) (hR : Fits cfg.budget R) (l : List Nat)
    (hl : ∀ i ∈ l, i ∈ secretPos t op.args) :
    ∀ (s : St) (L : Nat → Prop), CrossInv cfg n t R op cur L s →
      (∀ i ∈ l, ∀ j, (L j ∨ j ∈ l) → j < op.args.length → mism R (t (op.args.getD i 0)).lvl = true →
        op.args.getD i 0 = op.args.getD j 0 → i = j) → l.Nodup → (∀ i ∈ l, ¬ L i) →
      (∀ j < op.args.length, s.args.getD j 0 = op.args.getD j 0 ∨ ∃ k, L k ∧ k < op.args.length ∧
        op.args.getD k 0 = op.args.getD j 0) →
      ∃ s', l.foldlM (crossStep ckks base t R) s = some s' := by
  induction l with
  | nil => intro s L _ _ _ _ _; exact ⟨s, by simp⟩
  | cons i l ih =>
    intro s L hs hd hnd hL hchg
    have hi := hl i (by simp)
    have hi' := hi
    simp only [secretPos, List.mem_filter, List.mem_range] at hi'
    obtain ⟨hil, hsec⟩ := hi'
    have hvi : s.args.getD i 0 < base := by
      rcases hs.val i hil with ⟨h, _⟩ | ⟨h1, _, h3, _⟩
      · rw [h]; exact ha _ (getD_mem hil)
      · rcases hchg i hil with h | ⟨k, hk, hkl, he⟩
        · rw [h]; exact ha _ (getD_mem hil)
        · have := hd i (by simp) k (Or.inl hk) hkl h3 he.symm
          subst this
          exact absurd hk (hL _ (by simp))
    obtain ⟨s1, hc⟩ : ∃ s1, crossStep ckks base t R s i = some s1 := by
      unfold crossStep
      simp only
      rw [if_neg (by omega)]
      split
      · split <;> exact ⟨_, rfl⟩
      · exact ⟨_, rfl⟩
      · exact ⟨_, rfl⟩
    have h1 := crossStep_inv hb ha hcur hR hi hs hc
    rw [List.nodup_cons] at hnd
    have hchg' : ∀ j < op.args.length, s1.args.getD j 0 = op.args.getD j 0 ∨ ∃ k, (L k ∨ k = i) ∧
        k < op.args.length ∧ op.args.getD k 0 = op.args.getD j 0 := by
      intro j hj
      have hlen : j < s.args.length := by rw [hs.ext.len]; exact hj
      rcases (crossStep_cases hc).2 with ⟨_, rfl⟩ | ⟨_, ks, id', _, _, _, rfl⟩
      · exact (hchg j hj).imp_right fun ⟨k, a, b⟩ => ⟨k, Or.inl a, b⟩
      · simp only
        rw [replaceUses_getD hlen]
        by_cases hjv : s.args.getD j 0 = s.args.getD i 0
        · right
          refine ⟨i, Or.inr rfl, hil, ?_⟩
          exact hs.ext.inj (fun a h => by have := ha a h; omega) i hil j hj hjv.symm
        · rw [if_neg hjv]
          exact (hchg j hj).imp_right fun ⟨k, a, b⟩ => ⟨k, Or.inl a, b⟩
    obtain ⟨s', hs'⟩ := ih (fun i hi => hl i (by simp [hi])) s1 _ h1
      (by
        intro k hk j hj
        refine hd k (by simp [hk]) j ?_
        rcases hj with (h | rfl) | h
        · exact Or.inl h
        · exact Or.inr (by simp)
        · exact Or.inr (by simp [h]))
      hnd.2
      (by
        rintro k hk (h | rfl)
        · exact hL k (by simp [hk]) h
        · exact hnd.1 hk)
      hchg'
    exact ⟨s', by rw [List.foldlM_cons, hc]; exact hs'⟩

end Fold

end Heir.Mgmt
