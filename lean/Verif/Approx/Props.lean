import Verif.Approx.Chop
import Verif.PolyEval.Props
import Mathlib.Analysis.Complex.Exponential
import Mathlib.Analysis.SpecialFunctions.Exp
import Mathlib.Topology.Algebra.Polynomial
import Mathlib.Algebra.Order.BigOperators.Group.Finset
import Mathlib.Analysis.SpecialFunctions.Trigonometric.Complex

/-! # Properties of the interpolation -/

namespace Heir.Approx

open scoped Real
open Finset

/-! ## C107 -/

theorem chebPoints_length (n : Nat) : (chebPoints n).length = n := by
  rw [chebPoints]
  split
  · simp_all
  · split
    · simp_all
    · simp

/-- The points increase strictly from -1 to 1 and are symmetric about zero. -/
theorem C107_points (n : Nat) (hn : 2 ≤ n) :
    (chebPoints n).Pairwise (· < ·) ∧ (chebPoints n).getD 0 0 = -1 ∧ (chebPoints n).getD (n - 1) 0 = 1 ∧
      ∀ i < n, (chebPoints n).getD (n - 1 - i) 0 = -(chebPoints n).getD i 0 := by
  obtain ⟨m, rfl⟩ : ∃ m, n = m + 1 := ⟨n - 1, by omega⟩
  have hm0 : 0 < m := by omega
  have hm' : (0 : ℝ) < m := by exact_mod_cast hm0
  refine ⟨?_, ?_, ?_, ?_⟩
  · rw [List.pairwise_iff_getElem]
    intro i j hi hj hij
    rw [chebPoints_length] at hi hj
    rw [← List.getD_eq_getElem _ 0, ← List.getD_eq_getElem _ 0, point_eq m i hm0 (by omega),
      point_eq m j hm0 (by omega)]
    apply Real.cos_lt_cos_of_nonneg_of_le_pi
    · positivity
    · rw [div_le_iff₀ hm']
      have : ((m - i : ℕ) : ℝ) ≤ m := by exact_mod_cast Nat.sub_le _ _
      exact mul_le_mul_of_nonneg_left this Real.pi_pos.le
    · rw [div_lt_div_iff_of_pos_right hm']
      have : ((m - j : ℕ) : ℝ) < ((m - i : ℕ) : ℝ) := by
        exact_mod_cast (by omega : m - j < m - i)
      exact mul_lt_mul_of_pos_left this Real.pi_pos
  · rw [point_eq m 0 hm0 (by omega), Nat.sub_zero, mul_div_assoc, div_self hm'.ne', mul_one, Real.cos_pi]
  · rw [Nat.add_sub_cancel, point_eq m m hm0 le_rfl, Nat.sub_self]
    simp
  · intro i hi
    rw [Nat.add_sub_cancel, point_eq m i hm0 (by omega), point_eq m (m - i) hm0 (by omega),
      ← Real.cos_pi_sub]
    congr 1
    rw [show m - (m - i) = i by omega, Nat.cast_sub (by omega)]
    field_simp
    ring

/-- The points are symmetric about 0, a single point is 0. -/
theorem C107_symmetric (n : Nat) (i : Nat) (hi : i < n) :
    (chebPoints n).getD (n - 1 - i) 0 = -(chebPoints n).getD i 0 := by
  by_cases h : 2 ≤ n
  · exact (C107_points n h).2.2.2 i hi
  · obtain rfl : n = 1 := by omega
    obtain rfl : i = 0 := by omega
    simp [chebPoints]

/-- The series with the coefficients found takes the given values at the points. Missing: values with
a value in the middle that are otherwise odd, see `C107_odd_violated`. -/
theorem C107_interpolates_partial (v : List ℝ) (hmid : MiddleOk v) (j : Nat) (hj : j < v.length) :
    (PolyClass.chebSeries (interpolate v)).eval ((chebPoints v.length).getD j 0) = v.getD j 0 := by
  by_cases h1 : v.length = 1
  · obtain ⟨a, rfl⟩ := List.length_eq_one_iff.1 h1
    have : j = 0 := by simpa using hj
    subst this
    simp [interpolate, PolyClass.chebSeries]
  · obtain ⟨m, hm⟩ : ∃ m, v.length = m + 1 := ⟨v.length - 1, by omega⟩
    rw [hm, point_eq m j (by omega) (by omega), series_at_angle v m (m - j) hm (by omega) hmid (by omega)]
    congr 1
    omega

/-- An even number of values, which is all the choice of the degree uses, is always interpolated. -/
theorem C107_even_count (v : List ℝ) (h : v.length % 2 = 0) : MiddleOk v := fun _ h' => by omega

/-- The coefficients of a series are found from its values. -/
theorem C107_reproduces_partial (a : List ℝ) (ha : a ≠ [])
    (hmid : MiddleOk ((chebPoints a.length).map fun x => (PolyClass.chebSeries a).eval x)) :
    interpolate ((chebPoints a.length).map fun x => (PolyClass.chebSeries a).eval x) = a := by
  have hlen : 0 < a.length := List.length_pos_iff.2 ha
  by_cases h1 : a.length = 1
  · obtain ⟨b, rfl⟩ := List.length_eq_one_iff.1 h1
    simp [interpolate, PolyClass.chebSeries, chebPoints]
  · obtain ⟨m, hm⟩ : ∃ m, a.length = m + 1 := ⟨a.length - 1, by omega⟩
    rw [hm] at hmid ⊢
    set v := (chebPoints (m + 1)).map fun x => (PolyClass.chebSeries a).eval x with hv
    have hvlen : v.length = m + 1 := by rw [hv, List.length_map, chebPoints_length]
    apply List.ext_getElem
    · rw [interpolate_length, hvlen, hm]
    · intro k hk1 hk2
      rw [← List.getD_eq_getElem _ 0 hk1, ← List.getD_eq_getElem _ 0 hk2,
        interpolate_get v m k hvlen (by omega) (by omega),
        coefficient_eq v m k hvlen (by omega) hmid, hv, ifftReal_series a m k hm (by omega) (by omega)]
      split <;> ring

/-- Values at an odd number of points that are odd but for the one in the middle are not interpolated
there: the series is zero at zero. -/
theorem C107_odd_violated (v : List ℝ) (h3 : 3 ≤ v.length) (hodd : v.length % 2 = 1) (ho : isOdd v)
    (hmid : v.getD (v.length / 2) 0 ≠ 0) :
    (PolyClass.chebSeries (interpolate v)).eval ((chebPoints v.length).getD (v.length / 2) 0) ≠
      v.getD (v.length / 2) 0 := by
  obtain ⟨m, hm⟩ : ∃ m, v.length = m + 1 := ⟨v.length - 1, by omega⟩
  have hm' : (m : ℝ) ≠ 0 := by
    have : m ≠ 0 := by omega
    exact_mod_cast this
  have hz : (PolyClass.chebSeries (interpolate v)).eval ((chebPoints v.length).getD (v.length / 2) 0) = 0 := by
    rw [hm, point_eq m _ (by omega) (by omega), chebSeries_eval_cos, interpolate_length, hm]
    apply sum_eq_zero
    intro k hk
    rw [mem_range] at hk
    rw [interpolate_get v m k hm (by omega) (by omega)]
    by_cases hk2 : k % 2 = 0
    · have : coefficient v k = 0 := by
        rw [coefficient]
        rw [if_pos ⟨ho, hk2⟩]
      rw [this, zero_mul]
    · have e : (k : ℝ) * (π * ((m - (m + 1) / 2 : ℕ) : ℝ) / m) = k * π / 2 := by
        obtain ⟨p, rfl⟩ : ∃ p, m = 2 * p := ⟨m / 2, by omega⟩
        rw [show 2 * p - (2 * p + 1) / 2 = p by omega]
        have : (p : ℝ) ≠ 0 := by
          intro h
          apply hm'
          push_cast
          rw [h, mul_zero]
        push_cast
        field_simp
      rw [e, Real.cos_eq_zero_iff.2 ⟨(k / 2 : ℕ), ?_⟩, mul_zero]
      have hkk : k = 2 * (k / 2) + 1 := by omega
      have : (k : ℝ) = 2 * ((k / 2 : ℕ) : ℝ) + 1 := by exact_mod_cast hkk
      rw [this, Int.cast_natCast]
  rw [hz]
  exact hmid.symm

example : isOdd [-1, 5, 1] ∧ ([-1, 5, 1] : List ℝ).getD ([-1, 5, 1] : List ℝ).length.div2 0 ≠ 0 ∧
    MiddleOk [1, 2, 3] ∧ MiddleOk [-1, 0, 1] ∧ isEven [2, 5, 2] := by
  refine ⟨?_, ?_, ?_, ?_, ?_⟩
  · intro i hi
    have : i = 0 := by simpa using hi
    subst this
    norm_num
  · norm_num [Nat.div2_val]
  · intro h
    have := h 0 (by norm_num)
    norm_num at this
  · intro _ _
    norm_num
  · intro i hi
    have : i = 0 := by simpa using hi
    subst this
    norm_num

/-! ## C108 -/

/-- The number of coefficients kept is in range. -/
theorem C108_range (c : List ℝ) (tol : ℝ) (ht : 0 < tol) (hc : c ≠ []) (k : Nat)
    (h : standardChop c tol = some k) : 1 ≤ k ∧ k ≤ c.length := by
  have hlen : 0 < c.length := List.length_pos_iff.2 hc
  by_cases ht1 : tol < 1
  · rcases standardChop_cases c tol ht ht1 k h with h | ⟨h, -, h'⟩ | ⟨-, h1, h2, -⟩ <;> omega
  · rw [standardChop, if_pos (not_lt.1 ht1), Option.some.injEq] at h
    omega

/-- The coefficients dropped are small, and so a list is only cut if it ends with small ones. Missing:
the documentation says that they are smaller than the tolerance to the power 2/3, relative to the
largest, see `C108_exponent_violated` and `C108_relative_violated`. -/
theorem C108_dropped_partial (c : List ℝ) (tol : ℝ) (ht : 0 < tol) (ht1 : tol < 1) (k : Nat)
    (h : standardChop c tol = some k) (i : Nat) (hi : k ≤ i) : |c.getD i 0| ≤ tol ^ ((1 : ℝ) / 3) := by
  by_cases hic : i < c.length
  · rcases standardChop_cases c tol ht ht1 k h with h | ⟨h, h0, -⟩ | ⟨-, h1, h2, h3, -⟩
    · omega
    · refine (env_ge c 0 i (Nat.zero_le _) hic).trans ?_
      rw [h0]
      exact Real.rpow_nonneg ht.le _
    · exact (env_ge c k i hi hic).trans h3
  · rw [List.getD_eq_default _ _ (by omega), abs_zero]
    exact Real.rpow_nonneg ht.le _

/-- No more than needed is kept: from the last coefficient kept on, one is large. -/
theorem C108_kept (c : List ℝ) (tol : ℝ) (ht : 0 < tol) (ht1 : tol < 1) (k : Nat)
    (h : standardChop c tol = some k) (hk : 2 ≤ k) (hkc : k < c.length) :
    ∃ i, k - 1 ≤ i ∧ i < c.length ∧ tol ^ ((7 : ℝ) / 6) ≤ |c.getD i 0| := by
  rcases standardChop_cases c tol ht ht1 k h with h | ⟨h, h0, -⟩ | ⟨-, h1, h2, h3, h4⟩
  · omega
  · omega
  · obtain ⟨i, g1, g2, g3⟩ := env_mem c (k - 1) (by omega)
    refine ⟨i, g1, g2, ?_⟩
    rw [envN_pos c _ (by omega), g3] at h4
    exact h4

theorem plateauAt_of_lt (c : List ℝ) (tol : ℝ) (ht : 0 < tol) (ht1 : tol < 1) (j : Nat) (hj : 2 ≤ j)
    (h : env c (j - 1) < tol) : plateauAt (envN c) tol j := by
  rw [plateauAt, envN_pos c _ (by omega), envN_pos c _ (by rw [plateauEnd]; omega)]
  rcases (env_nonneg c (j - 1)).eq_or_lt with h0 | h0
  · exact Or.inl h0.symm
  · right
    have h1 : 0 ≤ env c (plateauEnd j - 2) / env c (j - 1) := div_nonneg (env_nonneg _ _) h0.le
    have hl : Real.log tol < 0 := Real.log_neg ht ht1
    have h2 : 1 < Real.log (env c (j - 1)) / Real.log tol := by
      rw [lt_div_iff_of_neg hl, one_mul]
      exact Real.log_lt_log h0 h
    linarith

theorem plateau_first (e : List ℝ) (tol : ℝ) (fuel j : Nat) (hj : 2 ≤ j) (hf : j < 2 + fuel)
    (hlen : plateauEnd j ≤ e.length) (h : plateauAt e tol j)
    (hmin : ∀ i, 2 ≤ i → i < j → ¬ plateauAt e tol i) : plateau e tol fuel 2 = some (j - 2, plateauEnd j) := by
  obtain ⟨⟨p, j2⟩, hr⟩ := plateau_some e tol fuel 2 j hj hf hlen h
  obtain ⟨j', g1, g2, g3, g4, g5, g6⟩ := plateau_spec _ _ _ _ _ _ hr
  have : j' = j := by
    rcases Nat.lt_trichotomy j j' with hl | hl | hl
    · exact absurd h (g6 j hj hl)
    · exact hl.symm
    · exact absurd g5 (hmin j' g1 hl)
  subst this
  rw [hr, g2, g3]

/-- A list that ends with enough coefficients below the tolerance is cut. -/
theorem C108_chops (c : List ℝ) (tol : ℝ) (ht : 0 < tol) (ht1 : tol < 1) (hn : 17 ≤ c.length) (j : Nat)
    (hj : 2 ≤ j) (hlen : (5 * j + 22) / 4 ≤ c.length) (hs : ∀ i, j - 1 ≤ i → |c.getD i 0| < tol) (k : Nat)
    (h : standardChop c tol = some k) : k < (5 * j + 22) / 4 := by
  change plateauEnd j ≤ c.length at hlen
  change k < plateauEnd j
  by_cases h0 : env c 0 = 0
  · rw [standardChop, if_neg (by linarith), if_neg (by omega)] at h
    dsimp only at h
    rw [show (accumulateMaximumReverse (c.map abs)).getD 0 0 = env c 0 from rfl, if_pos h0,
      Option.some.injEq] at h
    rw [plateauEnd]
    omega
  · have hjj : j + 5 ≤ plateauEnd j := by rw [plateauEnd]; omega
    have he : env c (j - 1) < tol := by
      obtain ⟨i, g1, -, g3⟩ := env_mem c (j - 1) (by omega)
      rw [g3]
      exact hs i g1
    have hp := plateauAt_of_lt c tol ht ht1 j hj he
    rw [standardChop_long c tol ht1 hn h0] at h
    obtain ⟨⟨p, j2⟩, hr⟩ := plateau_some (envN c) tol (c.length - 1) 2 j hj (by omega)
      (by rw [envN_length]; exact hlen) hp
    rw [hr] at h
    obtain ⟨j', g1, g2, g3, g4, g5, g6⟩ := plateau_spec _ _ _ _ _ _ hr
    rw [envN_length] at g4
    subst g2 g3
    have hle : j' ≤ j := by
      by_contra hc
      exact g6 j hj (by omega) hp
    obtain ⟨-, h2, -⟩ := cutoff_spec c tol ht ht1 j' g1 g4 g5 g6 k h
    have : plateauEnd j' ≤ plateauEnd j := by rw [plateauEnd, plateauEnd]; omega
    omega

/-- When the cut is defined. Missing: other lengths of which the last coefficient alone is small, see
`C108_outOfBounds_violated`. -/
theorem C108_defined_partial (c : List ℝ) (tol : ℝ) (ht : 0 < tol)
    (h : c.length % 5 = 2 ∨ tol ^ ((7 : ℝ) / 6) ≤ |c.getD (c.length - 1) 0|) : ∃ k, standardChop c tol = some k := by
  by_cases ht1 : tol < 1
  · by_cases hn : c.length < 17
    · exact ⟨_, by rw [standardChop, if_neg (by linarith), if_pos hn]⟩
    · by_cases h0 : env c 0 = 0
      · refine ⟨1, ?_⟩
        rw [standardChop, if_neg (by linarith), if_neg hn]
        dsimp only
        rw [show (accumulateMaximumReverse (c.map abs)).getD 0 0 = env c 0 from rfl, if_pos h0]
      · rw [standardChop_long c tol ht1 (by omega) h0]
        cases hp : plateau (envN c) tol (c.length - 1) 2 with
        | none => exact ⟨_, rfl⟩
        | some r =>
          obtain ⟨p, j2⟩ := r
          obtain ⟨j, g1, g2, g3, g4, g5, g6⟩ := plateau_spec _ _ _ _ _ _ hp
          rw [envN_length] at g4
          dsimp only
          rw [cutoff]
          split
          · exact ⟨_, rfl⟩
          · dsimp only
            split
            · rename_i hlt
              rw [if_pos]
              · exact ⟨_, rfl⟩
              · rw [envN_length]
                rcases h with h | h
                · rw [g3, plateauEnd] at hlt g4
                  by_contra hc
                  omega
                · have := (countAbove_iff c tol ht ht1 (c.length - 1) (by omega)).1 (by
                    rw [envN_pos c _ (by omega)]
                    exact h.trans (env_ge c _ _ le_rfl (by omega)))
                  omega
            · exact ⟨_, rfl⟩
  · exact ⟨1, by rw [standardChop, if_pos (not_lt.1 ht1)]⟩

theorem env_of_anti (c : List ℝ) (h : ∀ i j, i ≤ j → j < c.length → |c.getD j 0| ≤ |c.getD i 0|) (i : Nat)
    (hi : i < c.length) : env c i = |c.getD i 0| := by
  obtain ⟨j, h1, h2, h3⟩ := env_mem c i hi
  refine le_antisymm ?_ (env_ge c i i le_rfl hi)
  rw [h3]
  exact h i j h1 h2

/-- One coefficient is kept if the others are small, whatever the first is. -/
theorem chop_one (c : List ℝ) (tol : ℝ) (ht : 0 < tol) (ht1 : tol < 1) (hn : 17 ≤ c.length) (h0 : env c 0 ≠ 0)
    (h1 : env c 1 < tol ^ ((7 : ℝ) / 6)) : standardChop c tol = some 1 := by
  have hlt : env c 1 < tol := h1.trans_le (by
    conv_rhs => rw [← Real.rpow_one tol]
    exact Real.rpow_le_rpow_of_exponent_ge ht ht1.le (by norm_num))
  rw [standardChop_long c tol ht1 hn h0, plateau_first (envN c) tol _ 2 le_rfl (by omega)
    (by rw [envN_length, plateauEnd]; omega) (plateauAt_of_lt c tol ht ht1 2 le_rfl hlt)
    (fun i h1 h2 => by omega)]
  dsimp only
  have hj3 : countAbove (envN c) tol = 1 := by
    have g1 := countAbove_pos c tol ht ht1 (by omega)
    have g2 := countAbove_iff c tol ht ht1 1 (by omega)
    rw [envN_pos c 1 le_rfl] at g2
    have : ¬ 1 < countAbove (envN c) tol := fun h => absurd (g2.2 h) (not_le.2 h1)
    omega
  rw [cutoff, if_neg (by rw [envN_zero c (by omega)]; norm_num)]
  dsimp only
  rw [hj3, if_pos (by rw [plateauEnd]; omega), if_pos (by rw [envN_length]; omega)]
  congr 1
  have := argmin_le (biased ((envN c).set (1 + 1) (tol ^ ((7 : ℝ) / 6))) tol (1 + 1)) (1 + 1 - 1)
  omega

/-- The cut is not relative to the largest coefficient: of equal coefficients, each as large as any, all
but one are dropped if they are small. -/
theorem C108_relative_violated (tol s : ℝ) (n : Nat) (ht : 0 < tol) (ht1 : tol < 1) (hn : 17 ≤ n) (hs : 0 < s)
    (hs1 : s < tol ^ ((7 : ℝ) / 6)) : standardChop (List.replicate n s) tol = some 1 := by
  have hg : ∀ i < n, (List.replicate n s).getD i 0 = s := fun i hi => by
    rw [List.getD_eq_getElem _ _ (by simpa using hi), List.getElem_replicate]
  have he : ∀ i < n, env (List.replicate n s) i = s := by
    intro i hi
    rw [env_of_anti _ _ i (by simpa using hi), hg i hi, abs_of_pos hs]
    intro a b h1 h2
    rw [List.length_replicate] at h2
    rw [hg a (by omega), hg b h2]
  apply chop_one _ _ ht ht1 (by simpa using hn)
  · rw [he 0 (by omega)]
    exact hs.ne'
  · rw [he 1 (by omega)]
    exact hs1

/-- The exponent 2/3 of the documentation is wrong: with tolerance `u ^ 60` a coefficient `u ^ 39` is
dropped, larger than `u ^ 40`. -/
theorem C108_exponent_violated (u : ℝ) (hu : 0 < u) (hu1 : u < 1) :
    standardChop (1 :: u ^ 39 :: List.replicate 16 (u ^ 41)) (u ^ 60) = some 1 ∧
      (u ^ 60) ^ ((2 : ℝ) / 3) < |(1 :: u ^ 39 :: List.replicate 16 (u ^ 41) : List ℝ).getD 1 0| := by
  have ht : 0 < u ^ 60 := by positivity
  have ht1 : u ^ 60 < 1 := pow_lt_one₀ hu.le hu1 (by norm_num)
  constructor
  swap
  · rw [← Real.rpow_natCast u 60, ← Real.rpow_mul hu.le, List.getD_cons_succ, List.getD_cons_zero,
      abs_of_pos (by positivity), show ((60 : ℕ) : ℝ) * (2 / 3) = ((40 : ℕ) : ℝ) by norm_num, Real.rpow_natCast]
    exact pow_lt_pow_right_of_lt_one₀ hu hu1 (by norm_num)
  set c : List ℝ := 1 :: u ^ 39 :: List.replicate 16 (u ^ 41) with hc
  have hlen : c.length = 18 := by simp [hc]
  have g0 : c.getD 0 0 = 1 := rfl
  have g1 : c.getD 1 0 = u ^ 39 := rfl
  have g2 : ∀ i, 2 ≤ i → i < 18 → c.getD i 0 = u ^ 41 := by
    intro i h1 h2
    rw [hc, show i = (i - 2) + 1 + 1 by omega, List.getD_cons_succ, List.getD_cons_succ,
      List.getD_eq_getElem _ _ (by rw [List.length_replicate]; omega), List.getElem_replicate]
  have l1 : u ^ 41 < u ^ 39 := pow_lt_pow_right_of_lt_one₀ hu hu1 (by norm_num)
  have l2 : u ^ 39 < 1 := pow_lt_one₀ hu.le hu1 (by norm_num)
  have p39 : 0 < u ^ 39 := by positivity
  have p41 : 0 < u ^ 41 := by positivity
  have habs : ∀ i < 18, |c.getD i 0| = c.getD i 0 := by
    intro i hi
    apply abs_of_nonneg
    rcases Nat.lt_or_ge i 2 with h | h
    · interval_cases i
      · rw [g0]; norm_num
      · rw [g1]; exact p39.le
    · rw [g2 i h hi]; exact p41.le
  have he : ∀ i < 18, env c i = c.getD i 0 := by
    intro i hi
    rw [env_of_anti c _ i (by omega), habs i hi]
    intro a b hab hb
    rw [habs a (by omega), habs b (by omega)]
    rcases Nat.lt_or_ge b 2 with h | h
    · interval_cases b <;> interval_cases a <;> simp only [g0, g1] <;> linarith
    · rw [g2 b h (by omega)]
      rcases Nat.lt_or_ge a 2 with h' | h'
      · interval_cases a <;> simp only [g0, g1] <;> linarith
      · rw [g2 a h' (by omega)]
  have hlog : Real.log u < 0 := Real.log_neg hu hu1
  have hdiv : ∀ a : ℕ, Real.log (u ^ a) / Real.log (u ^ 60) = a / 60 := by
    intro a
    rw [Real.log_pow, Real.log_pow, mul_div_mul_right _ _ hlog.ne]
    norm_num
  have hp : plateauAt (envN c) (u ^ 60) 3 := by
    rw [plateauAt, envN_pos c _ (by omega), envN_pos c _ (by rw [plateauEnd]; omega), show 3 - 1 = 2 from rfl,
      show plateauEnd 3 - 2 = 7 from rfl, he 2 (by omega), he 7 (by omega), g2 2 (by omega) (by omega),
      g2 7 (by omega) (by omega), hdiv, div_self p41.ne']
    right
    norm_num
  have hnp : ¬ plateauAt (envN c) (u ^ 60) 2 := by
    rw [plateauAt, envN_pos c _ (by omega), envN_pos c _ (by rw [plateauEnd]; omega), show 2 - 1 = 1 from rfl,
      show plateauEnd 2 - 2 = 6 from rfl, he 1 (by omega), he 6 (by omega), g1, g2 6 (by omega) (by omega), hdiv]
    rintro (h | h)
    · exact p39.ne' h
    · have : u ^ 41 / u ^ 39 < 1 := (div_lt_one p39).2 l1
      norm_num at h
      linarith
  rw [standardChop_long c _ ht1 (by omega) (by rw [he 0 (by omega), g0]; norm_num),
    plateau_first _ _ _ 3 (by omega) (by omega) (by rw [envN_length, hlen, plateauEnd]; omega) hp
      (fun i h1 h2 => by
        have : i = 2 := by omega
        subst this
        exact hnp)]
  dsimp only
  have hb : ∀ i, 1 ≤ i → i < 18 → (envN c).getD i 0 = c.getD i 0 := fun i h1 h2 => by
    rw [envN_pos c i h1, he i h2]
  have hj3 : ¬ countAbove (envN c) (u ^ 60) < plateauEnd 3 := by
    have := (countAbove_iff c _ ht ht1 17 (by omega)).1 (by
      rw [hb 17 (by omega) (by omega), g2 17 (by omega) (by omega), ← Real.rpow_natCast u 60, ← Real.rpow_mul hu.le,
        show ((60 : ℕ) : ℝ) * (7 / 6) = ((70 : ℕ) : ℝ) by norm_num, Real.rpow_natCast]
      exact (pow_lt_pow_right_of_lt_one₀ hu hu1 (by norm_num)).le)
    rw [show plateauEnd 3 = 9 from rfl]
    omega
  rw [cutoff, if_neg (by
    rw [show 3 - 2 = 1 from rfl, hb 1 le_rfl (by omega), g1]
    exact p39.ne')]
  dsimp only
  rw [if_neg hj3, show plateauEnd 3 = 9 from rfl, show 9 - 1 = 8 from rfl]
  have hlogb : Real.logb 10 u < 0 := Real.logb_neg (by norm_num) hu hu1
  have hlow : ∀ i, i ≤ 8 → i ≠ 1 → biased (envN c) (u ^ 60) 9 1 < biased (envN c) (u ^ 60) 9 i := by
    intro i hi hne
    have c0 : (envN c).getD 0 0 = 1 := envN_zero c (by omega)
    rw [biased, biased, hb 1 le_rfl (by omega), g1, log10, if_neg p39.ne', ← WithBot.coe_add]
    rcases Nat.eq_zero_or_pos i with rfl | hi0
    · rw [c0, log10, if_neg one_ne_zero, ← WithBot.coe_add, WithBot.coe_lt_coe, Real.logb_one,
        Real.logb_pow, Real.logb_pow]
      norm_num
      linarith
    · rw [hb i hi0 (by omega), g2 i (by omega) (by omega), log10, if_neg p41.ne', ← WithBot.coe_add,
        WithBot.coe_lt_coe, Real.logb_pow, Real.logb_pow, Real.logb_pow]
      have : (2 : ℝ) ≤ i := by exact_mod_cast (by omega : 2 ≤ i)
      norm_num
      nlinarith
  have h1 : argmin (biased (envN c) (u ^ 60) 9) 8 = 1 := by
    by_contra hne
    exact absurd (argmin_min (biased (envN c) (u ^ 60) 9) 8 1 (by omega))
      (not_le.2 (hlow _ (argmin_le _ _) hne))
  rw [h1]
  rfl

/-- The coefficients of which the last alone is below the threshold. -/
noncomputable def wildCoeffs (t : ℝ) : List ℝ := List.replicate 9 1 ++ (List.replicate 8 t ++ [0])

/-- The cut writes out of bounds on some coefficients, so the choice of the degree is undefined for the
polynomial that has them. -/
theorem C108_outOfBounds_violated (t : ℝ) (ht : 0 < t) (ht1 : t < 1) :
    standardChop (wildCoeffs t) t = none ∧
      smart (fun x => (PolyClass.chebSeries (wildCoeffs t)).eval x) t 17 = none := by
  set c := wildCoeffs t with hc
  have hlen : c.length = 18 := by simp [hc, wildCoeffs]
  have g0 : ∀ i < 9, c.getD i 0 = 1 := by
    intro i hi
    rw [hc, wildCoeffs, List.getD_append _ _ _ _ (by simpa using hi), List.getD_eq_getElem _ _ (by simpa using hi),
      List.getElem_replicate]
  have g1 : ∀ i, 9 ≤ i → i < 17 → c.getD i 0 = t := by
    intro i h1 h2
    rw [hc, wildCoeffs, List.getD_append_right _ _ _ _ (by simpa using h1), List.length_replicate,
      List.getD_append _ _ _ _ (by rw [List.length_replicate]; omega),
      List.getD_eq_getElem _ _ (by rw [List.length_replicate]; omega), List.getElem_replicate]
  have g2 : c.getD 17 0 = 0 := rfl
  have he : ∀ i < 18, env c i = c.getD i 0 := by
    have hnn : ∀ i < 18, 0 ≤ c.getD i 0 := by
      intro i hi
      rcases Nat.lt_or_ge i 9 with h | h
      · rw [g0 i h]; norm_num
      · rcases Nat.lt_or_ge i 17 with h' | h'
        · rw [g1 i h h']; exact ht.le
        · rw [show i = 17 by omega, g2]
    intro i hi
    rw [env_of_anti c _ i (by omega), abs_of_nonneg (hnn i hi)]
    intro a b hab hb
    rw [abs_of_nonneg (hnn a (by omega)), abs_of_nonneg (hnn b (by omega))]
    rcases Nat.lt_or_ge b 9 with h | h
    · rw [g0 a (by omega), g0 b h]
    · rcases Nat.lt_or_ge b 17 with h' | h'
      · rw [g1 b h h']
        rcases Nat.lt_or_ge a 9 with h'' | h''
        · rw [g0 a h'']; exact ht1.le
        · rw [g1 a h'' (by omega)]
      · rw [show b = 17 by omega, g2]
        exact hnn a (by omega)
  have hb : ∀ i, 1 ≤ i → i < 18 → (envN c).getD i 0 = c.getD i 0 := fun i h1 h2 => by
    rw [envN_pos c i h1, he i h2]
  have hlog : Real.log t < 0 := Real.log_neg ht ht1
  have hchop : standardChop c t = none := by
    rw [standardChop_long c _ ht1 (by omega) (by rw [he 0 (by omega), g0 0 (by omega)]; norm_num),
      plateau_first _ _ _ 10 (by omega) (by omega) (by rw [envN_length, hlen]; decide) ?_ ?_]
    · dsimp only
      have hpow : t ^ ((7 : ℝ) / 6) ≤ t := by
        conv_rhs => rw [← Real.rpow_one t]
        exact Real.rpow_le_rpow_of_exponent_ge ht ht1.le (by norm_num)
      have hj3 : countAbove (envN c) t = 17 := by
        have a1 := (countAbove_iff c t ht ht1 16 (by omega)).1 (by
          rw [hb 16 (by omega) (by omega), g1 16 (by omega) (by omega)]
          exact hpow)
        have a2 := countAbove_iff c t ht ht1 17 (by omega)
        rw [hb 17 (by omega) (by omega), g2] at a2
        have : ¬ 17 < countAbove (envN c) t := fun h =>
          absurd (a2.2 h) (not_le.2 (Real.rpow_pos_of_pos ht _))
        omega
      rw [cutoff, if_neg (by rw [hb _ (by omega) (by omega), g0 _ (by omega)]; norm_num)]
      dsimp only
      rw [hj3, if_pos (by rw [plateauEnd]; omega), if_neg (by rw [envN_length]; omega)]
    · rw [plateauAt, show plateauEnd 10 - 2 = 16 from rfl, show 10 - 1 = 9 from rfl, hb 9 (by omega) (by omega),
        hb 16 (by omega) (by omega), g1 9 (by omega) (by omega), g1 16 (by omega) (by omega), div_self ht.ne',
        div_self hlog.ne]
      right
      norm_num
    · intro i h1 h2
      have hi : plateauEnd i - 2 < 18 := by rw [plateauEnd]; omega
      rw [plateauAt, hb (i - 1) (by omega) (by omega), g0 (i - 1) (by omega), Real.log_one, zero_div, sub_zero,
        div_one, hb _ (by rw [plateauEnd]; omega) hi]
      rintro (h | h)
      · norm_num at h
      · have : c.getD (plateauEnd i - 2) 0 ≤ 1 := by
          rcases Nat.lt_or_ge (plateauEnd i - 2) 9 with h | h
          · rw [g0 _ h]
          · rcases Nat.lt_or_ge (plateauEnd i - 2) 17 with h' | h'
            · rw [g1 _ h h']; exact ht1.le
            · rw [show plateauEnd i - 2 = 17 by omega, g2]; norm_num
        linarith
  refine ⟨hchop, ?_⟩
  have hint := C107_reproduces_partial c (by intro h; rw [h] at hlen; simp at hlen)
    (C107_even_count _ (by rw [List.length_map, chebPoints_length, hlen]))
  rw [hlen] at hint
  rw [smart, smartLoop, if_pos le_rfl]
  dsimp only
  rw [show 1 + 17 = 18 from rfl, hint, hchop]
  rfl

/-- Where the choice of the degree ends: with coefficients of an interpolation at `16 * 2 ^ p + 2` points,
all of them or cut, all only if the next degree is too large. -/
theorem smartLoop_spec (f : ℝ → ℝ) (tol : ℝ) (maxDegree : Nat) (c : List ℝ) (fuel : Nat) :
    ∀ p last, maxDegree < 16 * 2 ^ p + 1 + fuel →
      (p = 0 ∧ 17 ≤ maxDegree ∨ ∃ q, p = q + 1 ∧ 16 * 2 ^ q + 1 ≤ maxDegree ∧
        last = interpolate ((chebPoints (16 * 2 ^ q + 2)).map f)) →
      smartLoop f tol maxDegree fuel (16 * 2 ^ p + 1) last = some c →
      ∃ q k, 16 * 2 ^ q + 1 ≤ maxDegree ∧
        c = (interpolate ((chebPoints (16 * 2 ^ q + 2)).map f)).take k ∧
        (standardChop (interpolate ((chebPoints (16 * 2 ^ q + 2)).map f)) tol = some k ∧ k ≤ 16 * 2 ^ q ∨
          k = 16 * 2 ^ q + 2 ∧ maxDegree < 16 * 2 ^ (q + 1) + 1) := by
  induction fuel with
  | zero =>
    intro p last hf hlast h
    rw [smartLoop, Option.some.injEq] at h
    rcases hlast with ⟨rfl, h17⟩ | ⟨q, rfl, hq, hl⟩
    · omega
    · refine ⟨q, 16 * 2 ^ q + 2, hq, ?_, Or.inr ⟨rfl, by omega⟩⟩
      rw [← h, hl, List.take_of_length_le]
      rw [interpolate_length, List.length_map, chebPoints_length]
  | succ fuel ih =>
    intro p last hf hlast h
    rw [smartLoop] at h
    split at h
    · rename_i hd
      dsimp only at h
      rw [show 1 + (16 * 2 ^ p + 1) = 16 * 2 ^ p + 2 by omega] at h
      cases hk : standardChop (interpolate ((chebPoints (16 * 2 ^ p + 2)).map f)) tol with
      | none =>
        rw [hk] at h
        simp at h
      | some k =>
        rw [hk, Option.bind_some] at h
        split at h
        · rename_i hlt
          rw [Option.some.injEq] at h
          exact ⟨p, k, hd, h.symm, Or.inl ⟨hk, by omega⟩⟩
        · rw [show 2 * (16 * 2 ^ p + 1) - 1 = 16 * 2 ^ (p + 1) + 1 by rw [pow_succ]; omega] at h
          exact ih (p + 1) _ (by have := Nat.one_le_two_pow (n := p); rw [pow_succ]; omega) (Or.inr ⟨p, rfl, hd, rfl⟩) h
    · rw [Option.some.injEq] at h
      rcases hlast with ⟨rfl, h17⟩ | ⟨q, rfl, hq, hl⟩
      · omega
      · refine ⟨q, 16 * 2 ^ q + 2, hq, ?_, Or.inr ⟨rfl, by omega⟩⟩
        rw [← h, hl, List.take_of_length_le]
        rw [interpolate_length, List.length_map, chebPoints_length]

/-- Dropping small coefficients changes the value little. -/
theorem take_eval (c : List ℝ) (k : Nat) (ε θ : ℝ) (hε : 0 ≤ ε) (h : ∀ i, k ≤ i → |c.getD i 0| ≤ ε) :
    |(PolyClass.chebSeries (c.take k)).eval (Real.cos θ) - (PolyClass.chebSeries c).eval (Real.cos θ)| ≤
      c.length * ε := by
  rw [chebSeries_eval_cos, chebSeries_eval_cos]
  have e : ∑ i ∈ range (c.take k).length, (c.take k).getD i 0 * Real.cos (i * θ) =
      ∑ i ∈ range c.length, (c.take k).getD i 0 * Real.cos (i * θ) := by
    apply sum_subset
    · intro i
      rw [mem_range, mem_range, List.length_take]
      omega
    · intro i _ hi
      rw [mem_range, not_lt] at hi
      rw [List.getD_eq_default _ _ hi, zero_mul]
  rw [e, ← sum_sub_distrib]
  refine (abs_sum_le_sum_abs _ _).trans ?_
  have : ∑ _i ∈ range c.length, ε = c.length * ε := by rw [sum_const, card_range, nsmul_eq_mul]
  rw [← this]
  apply sum_le_sum
  intro i hi
  rw [mem_range] at hi
  by_cases hk : i < k
  · have : (c.take k).getD i 0 = c.getD i 0 := by
      rw [List.getD_eq_getElem?_getD, List.getElem?_take_of_lt hk, ← List.getD_eq_getElem?_getD]
    rw [this, sub_self, abs_zero]
    exact hε
  · rw [List.getD_eq_default _ _ (by rw [List.length_take]; omega), zero_mul, zero_sub, abs_neg, abs_mul]
    exact (mul_le_of_le_one_right (abs_nonneg _) (Real.abs_cos_le_one _)).trans (h i (by omega))

/-- The series found is close to the function at the points it was found from, and has no more than
`maxDegree + 1` coefficients. Missing: nothing is known elsewhere, see `C108_alias_violated`. -/
theorem C108_close_partial (f : ℝ → ℝ) (tol : ℝ) (maxDegree : Nat) (ht : 0 < tol) (ht1 : tol < 1)
    (hm : 17 ≤ maxDegree) (c : List ℝ) (h : smart f tol maxDegree = some c) :
    1 ≤ c.length ∧ c.length ≤ maxDegree + 1 ∧ ∃ n, 18 ≤ n ∧ n ≤ maxDegree + 1 ∧ c.length ≤ n ∧
      ∀ x ∈ chebPoints n, |(PolyClass.chebSeries c).eval x - f x| ≤ n * tol ^ ((1 : ℝ) / 3) := by
  obtain ⟨q, k, h1, h2, h3⟩ := smartLoop_spec f tol maxDegree c (maxDegree + 1) 0 [] (by omega)
    (Or.inl ⟨rfl, hm⟩) h
  have hq : 1 ≤ 2 ^ q := Nat.one_le_two_pow
  set n := 16 * 2 ^ q + 2 with hn
  set v := (chebPoints n).map f with hv
  have hvlen : v.length = n := by rw [hv, List.length_map, chebPoints_length]
  have hilen : (interpolate v).length = n := by rw [interpolate_length, hvlen]
  have hne : interpolate v ≠ [] := by
    intro h
    rw [h] at hilen
    simp at hilen
  have hk : 1 ≤ k ∧ k ≤ n := by
    rcases h3 with ⟨h3, h4⟩ | ⟨h3, -⟩
    · exact ⟨(C108_range _ _ ht hne _ h3).1, by omega⟩
    · omega
  have hdrop : ∀ i, k ≤ i → |(interpolate v).getD i 0| ≤ tol ^ ((1 : ℝ) / 3) := by
    intro i hi
    rcases h3 with ⟨h3, -⟩ | ⟨h3, -⟩
    · exact C108_dropped_partial _ _ ht ht1 k h3 i hi
    · rw [List.getD_eq_default _ _ (by omega), abs_zero]
      exact Real.rpow_nonneg ht.le _
  have hclen : c.length = k := by
    rw [h2, List.length_take, hilen]
    omega
  refine ⟨by omega, by omega, n, by omega, by omega, by omega, ?_⟩
  intro x hx
  obtain ⟨j, hj, rfl⟩ := List.mem_iff_getElem.1 hx
  rw [chebPoints_length] at hj
  have e1 := C107_interpolates_partial v (C107_even_count v (by rw [hvlen]; omega)) j (by omega)
  rw [hvlen, List.getD_eq_getElem _ _ (by rw [chebPoints_length]; exact hj)] at e1
  have e2 : v.getD j 0 = f (chebPoints n)[j] := by
    rw [List.getD_eq_getElem _ _ (by omega)]
    simp [hv]
  rw [← e2, ← e1, h2]
  have e3 : (chebPoints n)[j] = Real.cos (π * ((n - 1 - j : ℕ) : ℝ) / ((n - 1 : ℕ) : ℝ)) := by
    have := point_eq (n - 1) j (by omega) (by omega)
    rw [show n - 1 + 1 = n by omega, List.getD_eq_getElem _ _ (by rw [chebPoints_length]; exact hj)] at this
    exact this
  rw [e3, ← hilen]
  exact take_eval _ _ _ _ (Real.rpow_nonneg ht.le _) hdrop

/-- A function that is one at the first points and minus one between them: the constant one is found. -/
theorem C108_alias_violated (tol : ℝ) (ht : 0 < tol) (ht1 : tol < 1) (maxDegree : Nat) (hm : 17 ≤ maxDegree) :
    ∃ f : ℝ → ℝ, Continuous f ∧ smart f tol maxDegree = some [1] ∧
      ∃ x, |x| ≤ 1 ∧ f x = -1 ∧ (PolyClass.chebSeries [1]).eval x = 1 := by
  refine ⟨fun x => (Polynomial.Chebyshev.T ℝ 34).eval x, (Polynomial.Chebyshev.T ℝ 34).continuous, ?_,
    Real.cos (π / 34), Real.abs_cos_le_one _, ?_, ?_⟩
  · set a : List ℝ := 1 :: List.replicate 17 0 with ha
    have hlen : a.length = 18 := by simp [ha]
    have hget : ∀ i, 1 ≤ i → a.getD i 0 = 0 := by
      intro i hi
      rw [ha, show i = (i - 1) + 1 by omega, List.getD_cons_succ]
      by_cases h : i - 1 < 17
      · rw [List.getD_eq_getElem _ _ (by simpa using h), List.getElem_replicate]
      · rw [List.getD_eq_default _ _ (by simpa using h)]
    have hev : ∀ x, (PolyClass.chebSeries a).eval x = 1 := by
      intro x
      rw [PolyClass.chebSeries, Polynomial.eval_finsetSum, hlen, sum_range_succ', sum_eq_zero]
      · simp [ha]
      · intro i _
        rw [hget (i + 1) (by omega), map_zero, zero_mul, Polynomial.eval_zero]
    have hvals : (chebPoints 18).map (fun x => (Polynomial.Chebyshev.T ℝ 34).eval x) =
        (chebPoints 18).map fun x => (PolyClass.chebSeries a).eval x := by
      apply List.map_congr_left
      intro x hx
      obtain ⟨j, hj, rfl⟩ := List.mem_iff_getElem.1 hx
      rw [chebPoints_length] at hj
      rw [hev, ← List.getD_eq_getElem _ 0, show (18 : ℕ) = 17 + 1 from rfl, point_eq 17 j (by omega) (by omega),
        Polynomial.Chebyshev.T_real_cos, Real.cos_eq_one_iff]
      refine ⟨((17 - j : ℕ) : ℤ), ?_⟩
      push_cast
      ring
    have hint := C107_reproduces_partial a (by rw [ha]; simp)
      (C107_even_count _ (by rw [List.length_map, chebPoints_length, hlen]))
    rw [hlen, ← hvals] at hint
    have he : ∀ i < 18, env a i = a.getD i 0 := by
      intro i hi
      have hnn : ∀ i, 0 ≤ a.getD i 0 := by
        intro i
        rcases Nat.eq_zero_or_pos i with rfl | h
        · simp [ha]
        · rw [hget i h]
      rw [env_of_anti a _ i (by omega), abs_of_nonneg (hnn i)]
      intro b d h1 h2
      rw [abs_of_nonneg (hnn b), abs_of_nonneg (hnn d)]
      rcases Nat.eq_zero_or_pos d with rfl | h
      · rw [show b = 0 by omega]
      · rw [hget d h]
        exact hnn b
    have hchop : standardChop a tol = some 1 := by
      apply chop_one a tol ht ht1 (by omega)
      · rw [he 0 (by omega)]; simp [ha]
      · rw [he 1 (by omega), hget 1 le_rfl]
        exact Real.rpow_pos_of_pos ht _
    rw [smart, smartLoop, if_pos hm]
    dsimp only
    rw [show 1 + 17 = 18 from rfl, hint, hchop, Option.bind_some, if_pos (by omega)]
    rfl
  · dsimp only
    rw [Polynomial.Chebyshev.T_real_cos, show ((34 : ℤ) : ℝ) * (π / 34) = π by push_cast; ring, Real.cos_pi]
  · simp [PolyClass.chebSeries]

/-! ## C109 -/

/-- The input is mapped to the unit interval. -/
theorem C109_rescale (lower upper x : ℝ) (h : lower < upper) :
    rescale lower upper x = 2 * (x - lower) / (upper - lower) - 1 := by
  have h0 : upper - lower ≠ 0 := by linarith [sub_pos.2 h]
  have e : rescale lower upper x = x * (2 / (upper - lower)) + -(upper + lower) / (upper - lower) := by
    rw [rescale]
    by_cases h1 : 2 / (upper - lower) = 1 <;> by_cases h2 : -(upper + lower) / (upper - lower) = 0
    · rw [if_neg (not_not.2 h2), if_neg (not_not.2 h1), h1, h2, mul_one, add_zero]
    · rw [if_pos h2, if_neg (not_not.2 h1), h1, mul_one]
    · rw [if_neg (not_not.2 h2), if_pos h1, h2, add_zero]
    · rw [if_pos h2, if_pos h1]
  rw [e]
  field_simp
  ring

theorem C109_unit (lower upper x : ℝ) (h : lower < upper) (hx1 : lower ≤ x) (hx2 : x ≤ upper) :
    |rescale lower upper x| ≤ 1 := by
  rw [C109_rescale _ _ _ h, abs_le]
  have h0 := sub_pos.2 h
  constructor
  · have : 0 ≤ 2 * (x - lower) / (upper - lower) := div_nonneg (by linarith) h0.le
    linarith
  · have : 2 * (x - lower) / (upper - lower) ≤ 2 := by
      rw [div_le_iff₀ h0]
      nlinarith
    linarith

/-- The mapping of the input undoes the one under which the function was approximated. -/
theorem C109_inverse (lower upper y : ℝ) (h : lower < upper) :
    rescale lower upper ((lower + upper) / 2 + (upper - lower) / 2 * y) = y := by
  rw [C109_rescale _ _ _ h]
  have h0 : upper - lower ≠ 0 := by linarith [sub_pos.2 h]
  field_simp
  ring

/-- The kernel operation leaves the input alone if the domain is close to the unit interval, which moves
it by little. -/
theorem C109_kernel (lower upper x : ℝ) (h : lower < upper) (hx1 : lower ≤ x) (hx2 : x ≤ upper) :
    |rescaleKernel lower upper x - rescale lower upper x| ≤ 1 / 10 ^ 9 := by
  rw [rescaleKernel]
  split
  · rw [sub_self, abs_zero]
    norm_num
  · rename_i hn
    rw [not_or, not_lt, not_lt, abs_le, abs_le] at hn
    obtain ⟨⟨a1, a2⟩, b1, b2⟩ := hn
    rw [C109_rescale _ _ _ h]
    have h0 := sub_pos.2 h
    obtain ⟨s, hs0, hs1, rfl⟩ : ∃ s, 0 ≤ s ∧ s ≤ 1 ∧ x = lower + s * (upper - lower) :=
      ⟨(x - lower) / (upper - lower), div_nonneg (by linarith) h0.le, by rw [div_le_one h0]; linarith,
        by field_simp; ring⟩
    rw [show lower + s * (upper - lower) - (2 * (lower + s * (upper - lower) - lower) / (upper - lower) - 1) =
      (1 - s) * (lower + 1) + s * (upper - 1) by field_simp; ring, abs_le]
    constructor <;> nlinarith

/-- The lowered evaluation of an approximation of degree at least the one found is close to the function at
the images of the points. Missing: fewer coefficients asked for than found, and inputs other than the
points. -/
theorem C109_lowered_partial (eig : List (List ℝ) → List ℝ) (f : ℝ → ℝ) (degree : Nat) (lower upper : ℝ)
    (h : lower < upper) (c : List ℝ) (hc : cf eig f degree lower upper = some c) (hd : 129 ≤ degree) (δ : ℝ) (hδ : 0 ≤ δ) :
    ∃ n, 18 ≤ n ∧ n ≤ 130 ∧ ∀ y ∈ chebPoints n, ∀ r,
      evalLowered δ c lower upper ((lower + upper) / 2 + (upper - lower) / 2 * y) = some r →
      |r - f ((lower + upper) / 2 + (upper - lower) / 2 * y)| ≤ δ * c.length + n * (1 / 10 ^ 16) ^ ((1 : ℝ) / 3) := by
  set g : ℝ → ℝ := fun x => f ((lower + upper) / 2 + (upper - lower) / 2 * x) with hg
  have hgf : (if lower ≠ -1 ∨ upper ≠ 1 then g else f) = g := by
    split
    · rfl
    · rename_i hn
      push Not at hn
      obtain ⟨rfl, rfl⟩ := hn
      funext x
      rw [hg]
      dsimp only
      congr 1
      ring
  rw [cf, hgf, cfUnit] at hc
  cases hs : smart g (1 / 10 ^ 16) 129 with
  | none =>
    rw [hs] at hc
    simp at hc
  | some cheb =>
    rw [hs, Option.bind_some] at hc
    obtain ⟨h1, h2, n, h3, h4, h5, h6⟩ := C108_close_partial g (1 / 10 ^ 16) 129 (by norm_num) (by norm_num) (by norm_num)
      cheb hs
    rw [if_pos (by omega), Option.some.injEq] at hc
    subst hc
    refine ⟨n, h3, by omega, ?_⟩
    intro y hy r hr
    have hy1 : |y| ≤ 1 := by
      obtain ⟨j, hj, rfl⟩ := List.mem_iff_getElem.1 hy
      rw [chebPoints_length] at hj
      have := point_eq (n - 1) j (by omega) (by omega)
      rw [show n - 1 + 1 = n by omega, List.getD_eq_getElem _ _ (by rw [chebPoints_length]; exact hj)] at this
      rw [this]
      exact Real.abs_cos_le_one _
    obtain ⟨v, g1, g2⟩ := PolyEval.C28_error_bound y δ hy1 hδ cheb
    rw [evalLowered, C109_inverse _ _ _ h] at hr
    have hdec : (fun y : ℝ => @decide (|y| < δ) (Classical.propDecidable _)) = fun y => decide (|y| < δ) := by
      funext y
      congr
    rw [hdec, g1, Option.bind_some] at hr
    cases v with
    | none => simp at hr
    | some v =>
      rw [Option.map_some, Option.some.injEq] at hr
      rw [PolyEval.evalOpt, hr] at g2
      have := h6 y hy
      calc |r - f ((lower + upper) / 2 + (upper - lower) / 2 * y)|
          = |(r - (PolyClass.chebSeries cheb).eval y) + ((PolyClass.chebSeries cheb).eval y - g y)| := by
            rw [hg]; congr 1; ring
        _ ≤ _ := abs_add_le _ _
        _ ≤ _ := add_le_add g2 this

/-- With fewer coefficients asked for than found, as many as asked for are given. -/
theorem C109_degree (eig : List (List ℝ) → List ℝ) (f : ℝ → ℝ) (degree : Nat) (lower upper : ℝ) (c : List ℝ)
    (hc : cf eig f degree lower upper = some c) : c.length ≤ degree + 1 := by
  rw [cf, cfUnit, Option.bind_eq_some_iff] at hc
  obtain ⟨cheb, -, hc⟩ := hc
  split at hc
  · rw [Option.some.injEq] at hc
    subst hc
    omega
  · dsimp only at hc
    split at hc
    · simp at hc
    · rw [Option.some.injEq] at hc
      rw [← hc]
      simp

end Heir.Approx
