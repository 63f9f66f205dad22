import Verif.Approx.Lemmas
import Mathlib.Tactic.Linarith
import Mathlib.Tactic.Positivity

/-! # The cut of the coefficients -/

namespace Heir.Approx

open scoped Real

/-! ## The envelope -/

theorem acc_length (l : List ℝ) : (accumulateMaximumReverse l).length = l.length := by
  induction l with
  | nil => rfl
  | cons b l ih =>
    cases l with
    | nil => rfl
    | cons c l => simp only [accumulateMaximumReverse, List.length_cons] at ih ⊢; omega

theorem acc_head (l : List ℝ) : (accumulateMaximumReverse l).headD 0 = (accumulateMaximumReverse l).getD 0 0 := by
  cases h : accumulateMaximumReverse l <;> simp

theorem acc_ge (l : List ℝ) : ∀ i j, i ≤ j → j < l.length →
    l.getD j 0 ≤ (accumulateMaximumReverse l).getD i 0 := by
  induction l with
  | nil => intro i j _ h; simp at h
  | cons b l ih =>
    intro i j hij hj
    cases l with
    | nil =>
      have : j = 0 := by simpa using hj
      subst this
      have : i = 0 := by omega
      subst this
      simp [accumulateMaximumReverse]
    | cons c l =>
      simp only [accumulateMaximumReverse]
      cases i with
      | zero =>
        rw [List.getD_cons_zero]
        cases j with
        | zero =>
          rw [List.getD_cons_zero]
          split
          · exact le_rfl
          · linarith
        | succ j =>
          rw [List.getD_cons_succ]
          have := ih 0 j (by omega) (by simpa using hj)
          rw [← acc_head] at this
          split <;> linarith
      | succ i =>
        cases j with
        | zero => omega
        | succ j =>
          rw [List.getD_cons_succ, List.getD_cons_succ]
          exact ih i j (by omega) (by simpa using hj)

theorem acc_mem (l : List ℝ) : ∀ i < l.length, ∃ j, i ≤ j ∧ j < l.length ∧
    (accumulateMaximumReverse l).getD i 0 = l.getD j 0 := by
  induction l with
  | nil => intro i h; simp at h
  | cons b l ih =>
    intro i hi
    cases l with
    | nil =>
      have : i = 0 := by simpa using hi
      subst this
      exact ⟨0, le_rfl, by simp, by simp [accumulateMaximumReverse]⟩
    | cons c l =>
      simp only [accumulateMaximumReverse]
      cases i with
      | zero =>
        rw [List.getD_cons_zero]
        split
        · exact ⟨0, le_rfl, by simp, by simp⟩
        · obtain ⟨j, -, h2, h3⟩ := ih 0 (by simp)
          exact ⟨j + 1, by omega, by simpa using h2, by rw [acc_head, h3, List.getD_cons_succ]⟩
      | succ i =>
        obtain ⟨j, h1, h2, h3⟩ := ih i (by simpa using hi)
        exact ⟨j + 1, by omega, by simpa using h2, by rw [List.getD_cons_succ, h3, List.getD_cons_succ]⟩

/-- The largest absolute value from an index on. -/
noncomputable def env (c : List ℝ) (i : Nat) : ℝ := (accumulateMaximumReverse (c.map abs)).getD i 0

theorem getD_abs (c : List ℝ) (i : Nat) : (c.map abs).getD i 0 = |c.getD i 0| := by
  rw [show (0 : ℝ) = |0| by simp, List.getD_map, abs_zero]

theorem env_ge (c : List ℝ) (i j : Nat) (hij : i ≤ j) (hj : j < c.length) : |c.getD j 0| ≤ env c i := by
  have := acc_ge (c.map abs) i j hij (by simpa using hj)
  rwa [getD_abs] at this

theorem env_mem (c : List ℝ) (i : Nat) (hi : i < c.length) :
    ∃ j, i ≤ j ∧ j < c.length ∧ env c i = |c.getD j 0| := by
  obtain ⟨j, h1, h2, h3⟩ := acc_mem (c.map abs) i (by simpa using hi)
  exact ⟨j, h1, by simpa using h2, by rw [env, h3, getD_abs]⟩

theorem env_nonneg (c : List ℝ) (i : Nat) : 0 ≤ env c i := by
  by_cases hi : i < c.length
  · obtain ⟨j, -, -, h⟩ := env_mem c i hi
    rw [h]
    exact abs_nonneg _
  · rw [env, List.getD_eq_default _ _ (by rw [acc_length, List.length_map]; omega)]

theorem env_anti (c : List ℝ) (i j : Nat) (hij : i ≤ j) : env c j ≤ env c i := by
  by_cases hj : j < c.length
  · obtain ⟨k, h1, h2, h3⟩ := env_mem c j hj
    rw [h3]
    exact env_ge c i k (by omega) h2
  · rw [env, List.getD_eq_default _ _ (by rw [acc_length, List.length_map]; omega)]
    exact env_nonneg c i

/-- Only the first entry is changed. -/
theorem normalize_eq (e : List ℝ) (h0 : e.getD 0 0 ≠ 0) : normalize e = e.set 0 1 := by
  have hlen : 0 < e.length := by
    by_contra h
    have : e = [] := List.length_eq_zero_iff.1 (by omega)
    subst this
    simp at h0
  obtain ⟨a, t, rfl⟩ : ∃ a t, e = a :: t := by
    cases e with
    | nil => simp at hlen
    | cons a t => exact ⟨a, t, rfl⟩
  have h0' : a ≠ 0 := by simpa using h0
  rw [normalize, List.length_cons, List.range_succ_eq_map, List.foldl_cons]
  have h1 : (a :: t).set 0 ((a :: t).getD 0 0 / (a :: t).getD 0 0) = 1 :: t := by
    simp [div_self h0']
  rw [h1, List.foldl_map]
  have h2 : ∀ l : List Nat, l.foldl (fun (e : List ℝ) i => e.set i.succ (e.getD i.succ 0 / e.getD 0 0)) (1 :: t)
      = 1 :: t := by
    intro l
    induction l with
    | nil => rfl
    | cons i l ih =>
      rw [List.foldl_cons]
      have : (1 :: t).set i.succ ((1 :: t).getD i.succ 0 / (1 :: t).getD 0 0) = 1 :: t := by
        rw [List.getD_cons_zero, div_one, List.getD_cons_succ, List.set_cons_succ]
        congr 1
        apply List.ext_getElem
        · simp
        · intro k hk1 hk2
          rw [List.getElem_set]
          split
          · rename_i h
            subst h
            rw [List.getD_eq_getElem _ _ hk2]
          · rfl
      rw [this]
      exact ih
  rw [h2]
  rfl

/-- The entries of the envelope the code works with. -/
noncomputable def envN (c : List ℝ) : List ℝ := (accumulateMaximumReverse (c.map abs)).set 0 1

theorem envN_length (c : List ℝ) : (envN c).length = c.length := by
  rw [envN, List.length_set, acc_length, List.length_map]

theorem envN_zero (c : List ℝ) (hc : 0 < c.length) : (envN c).getD 0 0 = 1 := by
  rw [List.getD_eq_getElem _ _ (by rw [envN_length]; exact hc)]
  simp [envN]

theorem envN_pos (c : List ℝ) (i : Nat) (hi : 1 ≤ i) : (envN c).getD i 0 = env c i := by
  rw [envN, env, List.getD_eq_getElem?_getD, List.getElem?_set_ne (by omega), ← List.getD_eq_getElem?_getD]

theorem getD_set_ne' (l : List ℝ) (i j : Nat) (a : ℝ) (h : j ≠ i) : (l.set j a).getD i 0 = l.getD i 0 := by
  rw [List.getD_eq_getElem?_getD, List.getElem?_set_ne h, ← List.getD_eq_getElem?_getD]

/-! ## The plateau -/

/-- The condition of a plateau at `j`. -/
noncomputable def plateauAt (e : List ℝ) (tol : ℝ) (j : Nat) : Prop :=
  e.getD (j - 1) 0 = 0 ∨ e.getD (plateauEnd j - 2) 0 / e.getD (j - 1) 0 >
    3 * (1 - Real.log (e.getD (j - 1) 0) / Real.log tol)

theorem plateau_spec (e : List ℝ) (tol : ℝ) (fuel : Nat) : ∀ j p j2, plateau e tol fuel j = some (p, j2) →
    ∃ j', j ≤ j' ∧ p = j' - 2 ∧ j2 = plateauEnd j' ∧ j2 ≤ e.length ∧ plateauAt e tol j' ∧
      ∀ i, j ≤ i → i < j' → ¬ plateauAt e tol i := by
  induction fuel with
  | zero => intro j p j2 h; simp [plateau] at h
  | succ fuel ih =>
    intro j p j2 h
    rw [plateau] at h
    dsimp only at h
    split at h
    · simp at h
    · split at h
      · rename_i h1 h2
        rw [Option.some.injEq, Prod.mk.injEq] at h
        exact ⟨j, le_rfl, h.1.symm, h.2.symm, by omega, h2, fun i h3 h4 => by omega⟩
      · rename_i h1 h2
        obtain ⟨j', g1, g2, g3, g4, g5, g6⟩ := ih _ _ _ h
        refine ⟨j', by omega, g2, g3, g4, g5, fun i h3 h4 => ?_⟩
        by_cases hi : i = j
        · subst hi
          exact h2
        · exact g6 i (by omega) h4

theorem plateau_some (e : List ℝ) (tol : ℝ) (fuel : Nat) : ∀ j j', j ≤ j' → j' < j + fuel →
    plateauEnd j' ≤ e.length → plateauAt e tol j' → ∃ r, plateau e tol fuel j = some r := by
  induction fuel with
  | zero => intro j j' h1 h2; omega
  | succ fuel ih =>
    intro j j' h1 h2 h3 h4
    rw [plateau]
    dsimp only
    rw [if_neg (by rw [plateauEnd] at h3 ⊢; omega)]
    split
    · exact ⟨_, rfl⟩
    · rename_i h5
      have : j ≠ j' := by
        rintro rfl
        exact h5 h4
      exact ih (j + 1) j' (by omega) (by omega) h3 h4

/-! ## The least biased value -/

theorem argmin_le (cc : Nat → WithBot ℝ) (n : Nat) : argmin cc n ≤ n := by
  induction n with
  | zero => exact le_rfl
  | succ n ih =>
    rw [argmin]
    split <;> omega

theorem argmin_min (cc : Nat → WithBot ℝ) (n : Nat) : ∀ i ≤ n, cc (argmin cc n) ≤ cc i := by
  induction n with
  | zero =>
    intro i hi
    have : i = 0 := by omega
    subst this
    exact le_rfl
  | succ n ih =>
    intro i hi
    rw [argmin]
    split
    · rename_i h
      by_cases hi' : i = n + 1
      · subst hi'; exact le_rfl
      · exact h.le.trans (ih i (by omega))
    · rename_i h
      by_cases hi' : i = n + 1
      · subst hi'; exact not_lt.1 h
      · exact ih i (by omega)

theorem biased_le (e : List ℝ) (tol : ℝ) (j2 d q : Nat) (ht : 0 < tol) (ht1 : tol < 1) (hdq : d ≤ q)
    (hq : q ≤ j2 - 1) (hm : 1 ≤ j2 - 1) (hd0 : 0 ≤ e.getD d 0) (hq0 : 0 ≤ e.getD q 0)
    (h : biased e tol j2 d ≤ biased e tol j2 q) : e.getD d 0 ≤ e.getD q 0 * tol ^ (-(1 : ℝ) / 3) := by
  rcases hd0.eq_or_lt with hd | hd
  · rw [← hd]
    positivity
  · rcases hq0.eq_or_lt with hq' | hq'
    · exfalso
      rw [biased, biased, ← hq', log10, log10, if_pos rfl, if_neg hd.ne', WithBot.bot_add, le_bot_iff,
        ← WithBot.coe_add] at h
      exact WithBot.coe_ne_bot h
    · rw [biased, biased, log10, log10, if_neg hq'.ne', if_neg hd.ne', ← WithBot.coe_add, ← WithBot.coe_add,
        WithBot.coe_le_coe] at h
      have hl : Real.logb 10 tol < 0 := Real.logb_neg (by norm_num) ht ht1
      have hm' : (0 : ℝ) < ((j2 - 1 : ℕ) : ℝ) := by exact_mod_cast hm
      have e1 : -1 / 3 * Real.logb 10 tol * q / ((j2 - 1 : ℕ) : ℝ) ≤ -1 / 3 * Real.logb 10 tol := by
        rw [div_le_iff₀ hm']
        apply mul_le_mul_of_nonneg_left _ (by linarith)
        exact_mod_cast hq
      have e2 : 0 ≤ -1 / 3 * Real.logb 10 tol * d / ((j2 - 1 : ℕ) : ℝ) := by
        apply div_nonneg _ hm'.le
        apply mul_nonneg (by linarith) (Nat.cast_nonneg _)
      have e3 : Real.logb 10 (e.getD q 0 * tol ^ (-(1 : ℝ) / 3)) = Real.logb 10 (e.getD q 0) +
          -1 / 3 * Real.logb 10 tol := by
        rw [Real.logb_mul hq'.ne' (Real.rpow_pos_of_pos ht _).ne', Real.logb_rpow_eq_mul_logb_of_pos ht]
      rw [← Real.logb_le_logb (b := 10) (by norm_num) hd (mul_pos hq' (Real.rpow_pos_of_pos ht _)), e3]
      linarith

/-! ## The number of large entries -/

theorem filter_prefix (p : ℝ → Bool) (l : List ℝ)
    (h : ∀ i, i + 1 < l.length → p (l.getD (i + 1) 0) = true → p (l.getD i 0) = true) :
    ∀ i < l.length, p (l.getD i 0) = true ↔ i < (l.filter p).length := by
  induction l with
  | nil => intro i hi; simp at hi
  | cons a l ih =>
    have ih' := ih (fun i hi hp => by
      have := h (i + 1) (by simpa using hi) (by rwa [List.getD_cons_succ])
      rwa [List.getD_cons_succ] at this)
    intro i hi
    by_cases ha : p a = true
    · rw [List.filter_cons_of_pos ha, List.length_cons]
      cases i with
      | zero => simp [ha]
      | succ i =>
        rw [List.getD_cons_succ, ih' i (by simpa using hi)]
        omega
    · rw [List.filter_cons_of_neg ha]
      have hall : ∀ i < (a :: l).length, ¬ p ((a :: l).getD i 0) = true := by
        intro i
        induction i with
        | zero => intro _; simpa using ha
        | succ i ihi =>
          intro hi hp
          exact ihi (by omega) (h i hi hp)
      have : l.filter p = [] := by
        rw [List.filter_eq_nil_iff]
        intro x hx
        obtain ⟨k, hk, rfl⟩ := List.mem_iff_getElem.1 hx
        have := hall (k + 1) (by simpa using hk)
        rwa [List.getD_cons_succ, List.getD_eq_getElem _ _ hk] at this
      rw [this]
      exact ⟨fun h => absurd h (hall i hi), fun h => by simp at h⟩

theorem countAbove_iff (c : List ℝ) (tol : ℝ) (ht : 0 < tol) (ht1 : tol < 1) (i : Nat) (hi : i < c.length) :
    (envN c).getD i 0 ≥ tol ^ ((7 : ℝ) / 6) ↔ i < countAbove (envN c) tol := by
  rw [countAbove, ← filter_prefix _ _ ?_ i (by rw [envN_length]; exact hi), decide_eq_true_eq]
  intro k hk hp
  rw [decide_eq_true_eq] at hp ⊢
  rw [envN_length] at hk
  rcases Nat.eq_zero_or_pos k with rfl | hk0
  · rw [envN_zero c (by omega)]
    exact Real.rpow_le_one ht.le ht1.le (by norm_num)
  · rw [envN_pos c k hk0]
    rw [envN_pos c (k + 1) (by omega)] at hp
    exact hp.trans (env_anti c k (k + 1) (by omega))

theorem countAbove_pos (c : List ℝ) (tol : ℝ) (ht : 0 < tol) (ht1 : tol < 1) (hc : 0 < c.length) :
    1 ≤ countAbove (envN c) tol := by
  have := (countAbove_iff c tol ht ht1 0 hc).1 (by
    rw [envN_zero c hc]
    exact Real.rpow_le_one ht.le ht1.le (by norm_num))
  exact this

/-! ## The cut -/

/-- The value at the plateau found. -/
theorem plateauAt_lt (c : List ℝ) (tol : ℝ) (ht : 0 < tol) (ht1 : tol < 1) (j : Nat) (hj : 2 ≤ j)
    (h : plateauAt (envN c) tol j) : env c (j - 1) < tol ^ ((2 : ℝ) / 3) := by
  rw [plateauAt, envN_pos c (j - 1) (by omega), envN_pos c _ (by rw [plateauEnd]; omega)] at h
  rcases h with h | h
  · rw [h]
    exact Real.rpow_pos_of_pos ht _
  · rcases (env_nonneg c (j - 1)).eq_or_lt with h0 | h0
    · rw [← h0]
      exact Real.rpow_pos_of_pos ht _
    · have h1 : env c (plateauEnd j - 2) / env c (j - 1) ≤ 1 := by
        rw [div_le_one h0]
        exact env_anti c _ _ (by rw [plateauEnd]; omega)
      have hl : Real.log tol < 0 := Real.log_neg ht ht1
      have h2 : 2 / 3 < Real.log (env c (j - 1)) / Real.log tol := by linarith
      rw [lt_div_iff_of_neg hl] at h2
      rw [← Real.log_lt_log_iff h0 (Real.rpow_pos_of_pos ht _), Real.log_rpow ht]
      exact h2

/-- What the cut found is: not zero, no more than the plateau, small from there on and large before. -/
theorem cutoff_spec (c : List ℝ) (tol : ℝ) (ht : 0 < tol) (ht1 : tol < 1) (j : Nat) (hj : 2 ≤ j)
    (hj2 : plateauEnd j ≤ c.length) (h : plateauAt (envN c) tol j)
    (hmin : ∀ i, 2 ≤ i → i < j → ¬ plateauAt (envN c) tol i) (k : Nat)
    (hk : cutoff (envN c) tol (j - 2) (plateauEnd j) = some k) :
    1 ≤ k ∧ k < plateauEnd j ∧ env c k ≤ tol ^ ((1 : ℝ) / 3) ∧ (envN c).getD (k - 1) 0 ≥ tol ^ ((7 : ℝ) / 6) := by
  have hjj : j + 5 ≤ plateauEnd j := by rw [plateauEnd]; omega
  have hp : (envN c).getD (j - 2) 0 ≠ 0 := by
    by_cases h2 : j = 2
    · subst h2
      rw [envN_zero c (by omega)]
      norm_num
    · intro h0
      exact hmin (j - 1) (by omega) (by omega) (Or.inl (by rwa [show j - 1 - 1 = j - 2 by omega]))
  have hpow : tol ^ ((1 : ℝ) / 3) < 1 := Real.rpow_lt_one ht.le ht1 (by norm_num)
  have hone : ∀ d, (envN c).getD d 0 ≤ tol ^ ((1 : ℝ) / 3) → 1 ≤ d := by
    intro d hd
    by_contra hc
    have : d = 0 := by omega
    subst this
    rw [envN_zero c (by omega)] at hd
    linarith
  have hnn : ∀ i, 0 ≤ (envN c).getD i 0 := by
    intro i
    rcases Nat.eq_zero_or_pos i with rfl | hi
    · rw [envN_zero c (by omega)]; norm_num
    · rw [envN_pos c i hi]; exact env_nonneg c i
  rw [cutoff, if_neg hp] at hk
  dsimp only at hk
  have hj3 := countAbove_pos c tol ht ht1 (by omega)
  split at hk
  · rename_i hlt
    split at hk
    · rename_i hlen
      rw [Option.some.injEq] at hk
      set j3 := countAbove (envN c) tol with hj3def
      set e := (envN c).set (j3 + 1) (tol ^ ((7 : ℝ) / 6)) with he
      set d := argmin (biased e tol (j3 + 1)) (j3 + 1 - 1) with hd
      have hdle : d ≤ j3 := argmin_le _ _
      have he' : ∀ i, i ≤ j3 → e.getD i 0 = (envN c).getD i 0 := fun i hi =>
        getD_set_ne' _ _ _ _ (by omega)
      have hsmall : (envN c).getD j3 0 < tol ^ ((7 : ℝ) / 6) := by
        by_contra hc
        have := (countAbove_iff c tol ht ht1 j3 (by omega)).1 (not_lt.1 hc)
        omega
      have hle := biased_le e tol (j3 + 1) d j3 ht ht1 hdle le_rfl (by omega)
        (by rw [he' d hdle]; exact hnn d) (by rw [he' j3 le_rfl]; exact hnn j3)
        (argmin_min _ _ j3 (by omega))
      rw [he' d hdle, he' j3 le_rfl] at hle
      have hb : (envN c).getD d 0 ≤ tol ^ ((1 : ℝ) / 3) := by
        refine hle.trans ?_
        calc (envN c).getD j3 0 * tol ^ (-(1 : ℝ) / 3)
            ≤ tol ^ ((7 : ℝ) / 6) * tol ^ (-(1 : ℝ) / 3) :=
              mul_le_mul_of_nonneg_right hsmall.le (Real.rpow_nonneg ht.le _)
          _ = tol ^ ((5 : ℝ) / 6) := by rw [← Real.rpow_add ht]; norm_num
          _ ≤ tol ^ ((1 : ℝ) / 3) := Real.rpow_le_rpow_of_exponent_ge ht ht1.le (by norm_num)
      have hd1 := hone d hb
      have hkd : k = d := by omega
      subst hkd
      rw [envN_pos c d hd1] at hb
      exact ⟨hd1, by omega, hb, (countAbove_iff c tol ht ht1 _ (by omega)).2 (by omega)⟩
    · simp at hk
  · rename_i hge
    rw [Option.some.injEq] at hk
    set d := argmin (biased (envN c) tol (plateauEnd j)) (plateauEnd j - 1) with hd
    have hdle : d ≤ plateauEnd j - 1 := argmin_le _ _
    have hq := plateauAt_lt c tol ht ht1 j hj h
    have hb : (envN c).getD d 0 ≤ tol ^ ((1 : ℝ) / 3) := by
      by_cases hdq : d ≤ j - 1
      · have hle := biased_le (envN c) tol (plateauEnd j) d (j - 1) ht ht1 hdq (by omega) (by omega)
          (hnn d) (hnn _) (argmin_min _ _ (j - 1) (by omega))
        refine hle.trans ?_
        rw [envN_pos c (j - 1) (by omega)]
        calc env c (j - 1) * tol ^ (-(1 : ℝ) / 3) ≤ tol ^ ((2 : ℝ) / 3) * tol ^ (-(1 : ℝ) / 3) :=
              mul_le_mul_of_nonneg_right hq.le (Real.rpow_nonneg ht.le _)
          _ = tol ^ ((1 : ℝ) / 3) := by rw [← Real.rpow_add ht]; norm_num
      · rw [envN_pos c d (by omega)]
        refine (env_anti c (j - 1) d (by omega)).trans (hq.le.trans ?_)
        exact Real.rpow_le_rpow_of_exponent_ge ht ht1.le (by norm_num)
    have hd1 := hone d hb
    have hkd : k = d := by omega
    subst hkd
    rw [envN_pos c d hd1] at hb
    exact ⟨hd1, by omega, hb, (countAbove_iff c tol ht ht1 _ (by omega)).2 (by omega)⟩

theorem standardChop_long (c : List ℝ) (tol : ℝ) (ht1 : tol < 1) (hn : 17 ≤ c.length) (h0 : env c 0 ≠ 0) :
    standardChop c tol = (match plateau (envN c) tol (c.length - 1) 2 with
      | none => some c.length
      | some (p, j2) => cutoff (envN c) tol p j2) := by
  rw [standardChop, if_neg (by linarith), if_neg (by omega)]
  dsimp only
  rw [show (accumulateMaximumReverse (c.map abs)).getD 0 0 = env c 0 from rfl, if_neg h0,
    normalize_eq _ h0, envN]
  rfl

/-- The cases of the cut. -/
theorem standardChop_cases (c : List ℝ) (tol : ℝ) (ht : 0 < tol) (ht1 : tol < 1) (k : Nat)
    (h : standardChop c tol = some k) :
    k = c.length ∨ (k = 1 ∧ env c 0 = 0 ∧ 17 ≤ c.length) ∨
      (17 ≤ c.length ∧ 1 ≤ k ∧ k < c.length ∧ env c k ≤ tol ^ ((1 : ℝ) / 3) ∧
        (envN c).getD (k - 1) 0 ≥ tol ^ ((7 : ℝ) / 6)) := by
  by_cases hn : c.length < 17
  · rw [standardChop, if_neg (by linarith), if_pos hn, Option.some.injEq] at h
    exact Or.inl h.symm
  · by_cases h0 : env c 0 = 0
    · rw [standardChop, if_neg (by linarith), if_neg hn] at h
      dsimp only at h
      rw [show (accumulateMaximumReverse (c.map abs)).getD 0 0 = env c 0 from rfl, if_pos h0,
        Option.some.injEq] at h
      exact Or.inr (Or.inl ⟨h.symm, h0, by omega⟩)
    · rw [standardChop_long c tol ht1 (by omega) h0] at h
      cases hp : plateau (envN c) tol (c.length - 1) 2 with
      | none =>
        rw [hp] at h
        exact Or.inl (Option.some.inj h).symm
      | some r =>
        obtain ⟨p, j2⟩ := r
        rw [hp] at h
        obtain ⟨j, g1, g2, g3, g4, g5, g6⟩ := plateau_spec _ _ _ _ _ _ hp
        rw [envN_length] at g4
        subst g2 g3
        obtain ⟨h1, h2, h3, h4⟩ := cutoff_spec c tol ht ht1 j g1 g4 g5 g6 k h
        exact Or.inr (Or.inr ⟨by omega, h1, by omega, h3, h4⟩)

end Heir.Approx
