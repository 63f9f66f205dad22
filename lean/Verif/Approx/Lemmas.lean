import Verif.Approx.Model
import Verif.PolyClass.Spec
import Mathlib.Analysis.SpecialFunctions.Trigonometric.Chebyshev.Basic
import Mathlib.Data.List.GetD
import Mathlib.Algebra.BigOperators.Group.Finset.Sigma
import Mathlib.Algebra.BigOperators.Intervals
import Mathlib.Algebra.Field.GeomSum
import Mathlib.Tactic.IntervalCases
import Mathlib.Tactic.ByContra
import Mathlib.Tactic.LinearCombination
import Mathlib.Tactic.Linarith
import Mathlib.Tactic.FieldSimp
import Mathlib.Tactic.Ring
import Mathlib.Tactic.NormNum
import Mathlib.Tactic.Positivity

/-! # The discrete cosine transform -/

namespace Heir.Approx

open scoped Real
open Finset

/-- The sum of the powers of a root of unity. -/
theorem sum_cos (N : Nat) (hN : 0 < N) (j : ℤ) :
    ∑ k ∈ range N, Real.cos (2 * π * j * k / N) = if (N : ℤ) ∣ j then (N : ℝ) else 0 := by
  have hN' : (N : ℂ) ≠ 0 := by exact_mod_cast hN.ne'
  have hNr : (N : ℝ) ≠ 0 := by exact_mod_cast hN.ne'
  let ζ : ℂ := Complex.exp (2 * π * Complex.I * j / N)
  have hpow : ∀ k : Nat, ζ ^ k = Complex.exp ((2 * π * j * k / N : ℝ) * Complex.I) := by
    intro k
    rw [← Complex.exp_nat_mul]
    congr 1
    push_cast
    ring
  have hre : ∀ k : Nat, (ζ ^ k).re = Real.cos (2 * π * j * k / N) := by
    intro k
    rw [hpow, Complex.exp_ofReal_mul_I_re]
  have hone : ζ ^ N = 1 := by
    rw [← Complex.exp_nat_mul, Complex.exp_eq_one_iff]
    exact ⟨j, by field_simp⟩
  simp only [← hre]
  rw [← Complex.re_sum]
  split
  · rename_i hd
    obtain ⟨q, rfl⟩ := hd
    have : ζ = 1 := by
      rw [Complex.exp_eq_one_iff]
      refine ⟨q, ?_⟩
      push_cast
      field_simp
    simp [this]
  · rename_i hd
    have hne : ζ ≠ 1 := by
      intro h
      rw [Complex.exp_eq_one_iff] at h
      obtain ⟨q, hq⟩ := h
      apply hd
      refine ⟨q, ?_⟩
      have hpi : (2 * π * Complex.I : ℂ) ≠ 0 := by
        simp [Real.pi_ne_zero]
      have h1 : (j : ℂ) = N * q := by
        field_simp at hq
        have : (2 * π * Complex.I : ℂ) * j = (2 * π * Complex.I) * (N * q) := by
          linear_combination (2 * π * Complex.I : ℂ) * hq
        exact mul_left_cancel₀ hpi this
      exact_mod_cast h1
    have := geom_sum_eq hne N
    rw [this, hone, sub_self, zero_div]
    rfl

/-- Orthogonality of the cosines. -/
theorem cos_orthogonal (m : Nat) (hm : 0 < m) (a b : ℤ) :
    ∑ l ∈ range (2 * m), Real.cos (π * a * l / m) * Real.cos (π * b * l / m) =
      (if ((2 * m : ℕ) : ℤ) ∣ a - b then (m : ℝ) else 0) + if ((2 * m : ℕ) : ℤ) ∣ a + b then (m : ℝ) else 0 := by
  have hm' : (m : ℝ) ≠ 0 := by exact_mod_cast hm.ne'
  have h1 := sum_cos (2 * m) (by omega) (a - b)
  have h2 := sum_cos (2 * m) (by omega) (a + b)
  have key : ∀ l ∈ range (2 * m), Real.cos (π * a * l / m) * Real.cos (π * b * l / m) =
      1 / 2 * Real.cos (2 * π * ((a - b : ℤ) : ℝ) * l / (2 * m : ℕ)) +
        1 / 2 * Real.cos (2 * π * ((a + b : ℤ) : ℝ) * l / (2 * m : ℕ)) := by
    intro l _
    have e1 : 2 * π * ((a - b : ℤ) : ℝ) * l / (2 * m : ℕ) = π * a * l / m - π * b * l / m := by
      push_cast
      field_simp
    have e2 : 2 * π * ((a + b : ℤ) : ℝ) * l / (2 * m : ℕ) = π * a * l / m + π * b * l / m := by
      push_cast
      field_simp
    rw [e1, e2, Real.cos_sub, Real.cos_add]
    ring
  rw [sum_congr rfl key, sum_add_distrib, ← mul_sum, ← mul_sum, h1, h2]
  push_cast
  split <;> split <;> ring

/-- A sum over a period of an even function. -/
theorem sum_fold (m : Nat) (hm : 0 < m) (g : Nat → ℝ) (hg : ∀ k, 0 < k → k < m → g (2 * m - k) = g k) :
    ∑ k ∈ range (2 * m), g k = ∑ k ∈ range (m + 1), if 1 ≤ k ∧ k < m then 2 * g k else g k := by
  obtain ⟨p, rfl⟩ : ∃ p, m = p + 1 := ⟨m - 1, by omega⟩
  have h1 : ∑ k ∈ range (2 * (p + 1)), g k = ∑ k ∈ range (p + 2), g k + ∑ k ∈ range p, g (p + 2 + k) := by
    rw [show 2 * (p + 1) = p + 2 + p by ring, sum_range_add]
  have h2 : ∑ k ∈ range p, g (p + 2 + k) = ∑ k ∈ range p, g (k + 1) := by
    rw [← sum_range_reflect]
    apply sum_congr rfl
    intro k hk
    rw [mem_range] at hk
    rw [← hg (k + 1) (by omega) (by omega)]
    congr 1
    omega
  have h3 : ∑ k ∈ range (p + 1 + 1), (if 1 ≤ k ∧ k < p + 1 then 2 * g k else g k) =
      ∑ k ∈ range (p + 2), g k + ∑ k ∈ range (p + 2), if 1 ≤ k ∧ k < p + 1 then g k else 0 := by
    rw [← sum_add_distrib]
    apply sum_congr rfl
    intro k _
    split <;> ring
  have h4 : ∑ k ∈ range (p + 2), (if 1 ≤ k ∧ k < p + 1 then g k else 0) = ∑ k ∈ range p, g (k + 1) := by
    rw [sum_range_succ, sum_range_succ']
    simp only [Nat.lt_irrefl, and_false, if_false, add_zero]
    rw [if_neg (by omega), add_zero]
    apply sum_congr rfl
    intro k hk
    rw [mem_range] at hk
    rw [if_pos (by omega)]
  rw [h1, h2, h3, h4]

/-! ## The transform of the values -/

/-- The value at the angle `π l / m`. -/
def ringValue (v : List ℝ) (m l : Nat) : ℝ := v.getD (if l < m then m - l else l - m) 0

theorem ifftInput_length (v : List ℝ) : (ifftInput v).length = 2 * (v.length - 1) := by
  simp [ifftInput]
  omega

theorem ifftInput_get (v : List ℝ) (m l : Nat) (hm : v.length = m + 1) (hl : l < 2 * m) :
    (ifftInput v).getD l 0 = ringValue v m l := by
  unfold ifftInput ringValue
  have hlen : ((v.drop 1).reverse).length = m := by simp [hm]
  by_cases h : l < m
  · rw [List.getD_append _ _ _ _ (by omega), if_pos h]
    rw [List.getD_eq_getElem _ _ (by omega), List.getElem_reverse, List.getElem_drop,
      List.getD_eq_getElem _ _ (by omega)]
    congr 1
    simp only [List.length_drop]
    omega
  · rw [List.getD_append_right _ _ _ _ (by omega), if_neg h, hlen]
    rw [List.getD_eq_getElem _ _ (by simp; omega), List.getElem_dropLast,
      List.getD_eq_getElem _ _ (by omega)]

/-- The coefficient before the factors. -/
theorem ifftReal_eq (v : List ℝ) (m k : Nat) (hm : v.length = m + 1) (hm0 : 0 < m) :
    ifftReal (ifftInput v) k =
      1 / (2 * m) * ∑ l ∈ range (2 * m), ringValue v m l * Real.cos (π * k * l / m) := by
  have hm' : (m : ℝ) ≠ 0 := by exact_mod_cast hm0.ne'
  have hlen : (ifftInput v).length = 2 * m := by rw [ifftInput_length, hm]; rfl
  rw [ifftReal, hlen, Complex.re_sum, mul_sum]
  apply sum_congr rfl
  intro l hl
  rw [mem_range] at hl
  rw [ifftInput_get v m l hm hl]
  have h1 : (2 * π * Complex.I * k * l / (2 * m : ℕ) : ℂ) = ((π * k * l / m : ℝ) : ℂ) * Complex.I := by
    have : (m : ℂ) ≠ 0 := by exact_mod_cast hm0.ne'
    push_cast
    field_simp
  rw [h1, mul_assoc, Complex.re_ofReal_mul, mul_comm (Complex.exp _), Complex.re_ofReal_mul,
    Complex.exp_ofReal_mul_I_re]
  push_cast
  ring

/-- Both halves of the period together. -/
theorem ifftReal_half (v : List ℝ) (m k : Nat) (hm : v.length = m + 1) (hm0 : 0 < m) :
    ifftReal (ifftInput v) k = 1 / (2 * m) *
      ∑ l ∈ range m, (v.getD (m - l) 0 + (-1) ^ k * v.getD l 0) * Real.cos (π * k * l / m) := by
  have hm' : (m : ℝ) ≠ 0 := by exact_mod_cast hm0.ne'
  rw [ifftReal_eq v m k hm hm0, two_mul m, sum_range_add, ← sum_add_distrib]
  congr 1
  · apply sum_congr rfl
    intro l hl
    rw [mem_range] at hl
    have e1 : ringValue v m l = v.getD (m - l) 0 := by rw [ringValue, if_pos hl]
    have e2 : ringValue v m (m + l) = v.getD l 0 := by
      rw [ringValue, if_neg (by omega)]
      congr 1
      omega
    have e3 : Real.cos (π * k * ((m + l : ℕ) : ℝ) / m) = (-1) ^ k * Real.cos (π * k * l / m) := by
      have : π * k * ((m + l : ℕ) : ℝ) / m = π * k * l / m + k * π := by
        push_cast
        field_simp
        ring
      rw [this, Real.cos_add_nat_mul_pi]
    rw [e1, e2, e3]
    ring

/-- The values are not taken for odd although the one in the middle is not zero. -/
def MiddleOk (v : List ℝ) : Prop := isOdd v → v.length % 2 = 1 → v.getD (v.length / 2) 0 = 0

theorem isEven_all {v : List ℝ} {m : Nat} (hm : v.length = m + 1) (h : isEven v) (l : Nat) (hl : l ≤ m) :
    v.getD (m - l) 0 = v.getD l 0 := by
  unfold isEven at h
  rw [hm] at h
  rcases lt_trichotomy l ((m + 1) / 2) with h1 | h1 | h1
  · rw [h l h1, Nat.add_sub_cancel]
  · by_cases hp : m % 2 = 0
    · congr 1
      omega
    · have := h (m - l) (by omega)
      rw [this]
      congr 1
      omega
  · have := h (m - l) (by omega)
    rw [this]
    congr 1
    omega

theorem isOdd_all {v : List ℝ} {m : Nat} (hm : v.length = m + 1) (h : isOdd v) (hmid : MiddleOk v) (l : Nat)
    (hl : l ≤ m) : v.getD (m - l) 0 = -v.getD l 0 := by
  have h' := h
  unfold isOdd at h
  rw [hm] at h
  rcases lt_trichotomy l ((m + 1) / 2) with h1 | h1 | h1
  · rw [h l h1, neg_neg, Nat.add_sub_cancel]
  · by_cases hp : m % 2 = 0
    · have h0 := hmid h' (by omega)
      rw [hm] at h0
      have e1 : m - l = (m + 1) / 2 := by omega
      rw [e1, h1, h0, neg_zero]
    · have := h (m - l) (by omega)
      rw [this]
      congr 2
      omega
  · have := h (m - l) (by omega)
    rw [this]
    congr 2
    omega

/-- The corrections of even and odd values change nothing. -/
theorem coefficient_eq (v : List ℝ) (m k : Nat) (hm : v.length = m + 1) (hm0 : 0 < m) (hmid : MiddleOk v) :
    coefficient v k = (if 1 ≤ k ∧ k < m then 2 else 1) * ifftReal (ifftInput v) k := by
  have hz1 : isEven v → k % 2 = 1 → ifftReal (ifftInput v) k = 0 := by
    intro he hk
    rw [ifftReal_half v m k hm hm0, sum_eq_zero, mul_zero]
    intro l hl
    rw [mem_range] at hl
    rw [isEven_all hm he l hl.le, Odd.neg_one_pow (Nat.odd_iff.2 hk)]
    ring
  have hz2 : isOdd v → k % 2 = 0 → ifftReal (ifftInput v) k = 0 := by
    intro he hk
    rw [ifftReal_half v m k hm hm0, sum_eq_zero, mul_zero]
    intro l hl
    rw [mem_range] at hl
    rw [isOdd_all hm he hmid l hl.le, Even.neg_one_pow (Nat.even_iff.2 hk)]
    ring
  unfold coefficient
  rw [hm, Nat.add_sub_cancel]
  dsimp only
  split
  · rename_i h
    rw [hz2 h.1 h.2, mul_zero]
  · split
    · rename_i h
      rw [hz1 h.1 h.2, mul_zero]
    · split <;> ring

/-! ## The interpolant -/

/-- The angle of a point. -/
theorem point_eq (m s : Nat) (hm0 : 0 < m) (hs : s ≤ m) :
    (chebPoints (m + 1)).getD s 0 = Real.cos (π * ((m - s : ℕ) : ℝ) / m) := by
  have hm' : (m : ℝ) ≠ 0 := by exact_mod_cast hm0.ne'
  rw [chebPoints, if_neg (by omega), if_neg (by omega),
    List.getD_eq_getElem _ _ (by rw [List.length_map, List.length_range]; omega), List.getElem_map,
    List.getElem_range, ← Real.cos_pi_div_two_sub, Nat.add_sub_cancel, Nat.cast_sub hs]
  congr 1
  field_simp
  ring

theorem chebSeries_eval_cos (c : List ℝ) (θ : ℝ) :
    (PolyClass.chebSeries c).eval (Real.cos θ) = ∑ k ∈ range c.length, c.getD k 0 * Real.cos (k * θ) := by
  rw [PolyClass.chebSeries, Polynomial.eval_finsetSum]
  apply sum_congr rfl
  intro k _
  rw [Polynomial.eval_mul, Polynomial.eval_C, Polynomial.Chebyshev.T_real_cos]
  norm_cast

theorem interpolate_get (v : List ℝ) (m k : Nat) (hm : v.length = m + 1) (hm0 : 0 < m) (hk : k ≤ m) :
    (interpolate v).getD k 0 = coefficient v k := by
  rw [interpolate, if_neg (by omega), List.getD_eq_getElem _ _ (by simp; omega)]
  simp

theorem interpolate_length (v : List ℝ) : (interpolate v).length = v.length := by
  rw [interpolate]
  split
  · rfl
  · simp

/-- The interpolant at an angle of the ring. -/
theorem series_at_angle (v : List ℝ) (m s : Nat) (hm : v.length = m + 1) (hm0 : 0 < m) (hmid : MiddleOk v)
    (hs : s ≤ m) :
    (PolyClass.chebSeries (interpolate v)).eval (Real.cos (π * s / m)) = v.getD (m - s) 0 := by
  have hm' : (m : ℝ) ≠ 0 := by exact_mod_cast hm0.ne'
  rw [chebSeries_eval_cos, interpolate_length, hm]
  let g : Nat → ℝ := fun k => ifftReal (ifftInput v) k * Real.cos (π * k * s / m)
  have hg : ∀ k, 0 < k → k < m → g (2 * m - k) = g k := by
    intro k _ hk
    have hc : ∀ l : Nat, Real.cos (π * ((2 * m - k : ℕ) : ℝ) * l / m) = Real.cos (π * k * l / m) := by
      intro l
      have : π * ((2 * m - k : ℕ) : ℝ) * l / m = l * (2 * π) - π * k * l / m := by
        rw [Nat.cast_sub (by omega)]
        push_cast
        field_simp
      rw [this, Real.cos_nat_mul_two_pi_sub]
    change ifftReal (ifftInput v) (2 * m - k) * Real.cos (π * ((2 * m - k : ℕ) : ℝ) * s / m) =
      ifftReal (ifftInput v) k * Real.cos (π * k * s / m)
    rw [ifftReal_eq v m _ hm hm0, ifftReal_eq v m k hm hm0]
    simp only [hc]
  have h1 : ∑ k ∈ range (m + 1), (interpolate v).getD k 0 * Real.cos (k * (π * s / m)) =
      ∑ k ∈ range (m + 1), if 1 ≤ k ∧ k < m then 2 * g k else g k := by
    apply sum_congr rfl
    intro k hk
    rw [mem_range] at hk
    rw [interpolate_get v m k hm hm0 (by omega), coefficient_eq v m k hm hm0 hmid,
      show (k : ℝ) * (π * s / m) = π * k * s / m by ring]
    split
    · ring
    · ring
  rw [h1, ← sum_fold m hm0 g hg]
  have h2 : ∑ k ∈ range (2 * m), g k = 1 / (2 * m) * ∑ l ∈ range (2 * m), ringValue v m l *
      ∑ k ∈ range (2 * m), Real.cos (π * (l : ℤ) * k / m) * Real.cos (π * (s : ℤ) * k / m) := by
    have : ∀ k ∈ range (2 * m), g k = ∑ l ∈ range (2 * m), 1 / (2 * m) *
        (ringValue v m l * (Real.cos (π * (l : ℤ) * k / m) * Real.cos (π * (s : ℤ) * k / m))) := by
      intro k _
      change ifftReal (ifftInput v) k * Real.cos (π * k * s / m) = _
      rw [ifftReal_eq v m k hm hm0, mul_sum, sum_mul]
      apply sum_congr rfl
      intro l _
      rw [show π * (k : ℝ) * l / m = π * ((l : ℤ) : ℝ) * k / m by push_cast; ring,
        show π * (k : ℝ) * s / m = π * ((s : ℤ) : ℝ) * k / m by push_cast; ring]
      ring
    rw [sum_congr rfl this, sum_comm, mul_sum]
    apply sum_congr rfl
    intro l _
    rw [mul_sum, mul_sum]
  rw [h2]
  have h3 : ∀ l ∈ range (2 * m), ringValue v m l *
      ∑ k ∈ range (2 * m), Real.cos (π * (l : ℤ) * k / m) * Real.cos (π * (s : ℤ) * k / m) =
      (if l = s then m * ringValue v m l else 0) +
        if l = (2 * m - s) % (2 * m) then m * ringValue v m l else 0 := by
    intro l hl
    rw [mem_range] at hl
    rw [cos_orthogonal m hm0]
    have d1 : (((2 * m : ℕ) : ℤ) ∣ (l : ℤ) - s) ↔ l = s := by
      constructor
      · rintro ⟨q, hq⟩
        have h1 : (-1 : ℤ) < q := by
          by_contra hc
          have : q ≤ -1 := by omega
          have : ((2 * m : ℕ) : ℤ) * q ≤ ((2 * m : ℕ) : ℤ) * (-1) :=
            mul_le_mul_of_nonneg_left this (by positivity)
          omega
        have h2 : q < 1 := by
          by_contra hc
          have : 1 ≤ q := by omega
          have : ((2 * m : ℕ) : ℤ) * 1 ≤ ((2 * m : ℕ) : ℤ) * q :=
            mul_le_mul_of_nonneg_left this (by positivity)
          omega
        have : q = 0 := by omega
        subst this
        simp only [mul_zero] at hq
        omega
      · rintro rfl
        simp
    have d2 : (((2 * m : ℕ) : ℤ) ∣ (l : ℤ) + s) ↔ l = (2 * m - s) % (2 * m) := by
      rw [show (l : ℤ) + s = ((l + s : ℕ) : ℤ) by push_cast; ring, Int.natCast_dvd_natCast]
      constructor
      · rintro ⟨q, hq⟩
        have h2 : q < 2 := by
          by_contra hc
          have : 2 * m * 2 ≤ 2 * m * q := Nat.mul_le_mul_left _ (by omega)
          omega
        interval_cases q
        · have h1 : l = 0 := by omega
          have h2 : s = 0 := by omega
          rw [h1, h2]
          simp
        · by_cases hs0 : s = 0
          · omega
          · rw [Nat.mod_eq_of_lt (by omega)]
            omega
      · intro h
        by_cases hs0 : s = 0
        · subst hs0
          simp at h
          subst h
          simp
        · rw [Nat.mod_eq_of_lt (by omega)] at h
          exact ⟨1, by omega⟩
    simp only [d1, d2]
    split <;> split <;> ring
  rw [sum_congr rfl h3, sum_add_distrib, sum_ite_eq', sum_ite_eq',
    if_pos (mem_range.2 (by omega)), if_pos (mem_range.2 (Nat.mod_lt _ (by omega)))]
  have e1 : ringValue v m s = v.getD (m - s) 0 := by
    rw [ringValue]
    split
    · rfl
    · congr 1
      omega
  have e2 : ringValue v m ((2 * m - s) % (2 * m)) = v.getD (m - s) 0 := by
    by_cases hs0 : s = 0
    · subst hs0
      rw [Nat.sub_zero, Nat.mod_self, ringValue, if_pos hm0]
    · rw [Nat.mod_eq_of_lt (by omega), ringValue]
      split
      · congr 1
        omega
      · congr 1
        omega
  rw [e1, e2]
  field_simp
  ring

/-- The transform of the values of a series gives its coefficients. -/
theorem ifftReal_series (a : List ℝ) (m k : Nat) (ha : a.length = m + 1) (hm0 : 0 < m) (hk : k ≤ m) :
    ifftReal (ifftInput ((chebPoints (m + 1)).map fun x => (PolyClass.chebSeries a).eval x)) k =
      a.getD k 0 * if 1 ≤ k ∧ k < m then 1 / 2 else 1 := by
  have hm' : (m : ℝ) ≠ 0 := by exact_mod_cast hm0.ne'
  have hplen : (chebPoints (m + 1)).length = m + 1 := by
    rw [chebPoints, if_neg (by omega), if_neg (by omega)]
    simp
  rw [ifftReal_eq _ m k (by rw [List.length_map, hplen]) hm0]
  have hval : ∀ l ∈ range (2 * m),
      ringValue ((chebPoints (m + 1)).map fun x => (PolyClass.chebSeries a).eval x) m l *
        Real.cos (π * k * l / m) =
      ∑ i ∈ range (m + 1), a.getD i 0 *
        (Real.cos (π * (i : ℤ) * l / m) * Real.cos (π * (k : ℤ) * l / m)) := by
    intro l hl
    rw [mem_range] at hl
    have hget : ∀ s ≤ m, ((chebPoints (m + 1)).map fun x => (PolyClass.chebSeries a).eval x).getD s 0 =
        ∑ i ∈ range (m + 1), a.getD i 0 * Real.cos (i * (π * ((m - s : ℕ) : ℝ) / m)) := by
      intro s hs
      have := point_eq m s hm0 hs
      rw [List.getD_eq_getElem _ _ (by omega)] at this
      rw [List.getD_eq_getElem _ _ (by rw [List.length_map]; omega), List.getElem_map, this,
        chebSeries_eval_cos, ha]
    rw [ringValue, hget _ (by split <;> omega), sum_mul]
    apply sum_congr rfl
    intro i _
    have hc : Real.cos (i * (π * ((m - (if l < m then m - l else l - m) : ℕ) : ℝ) / m)) =
        Real.cos (π * (i : ℤ) * l / m) := by
      by_cases h : l < m
      · rw [if_pos h, show m - (m - l) = l by omega]
        congr 1
        push_cast
        ring
      · rw [if_neg h]
        have : (i : ℝ) * (π * ((m - (l - m) : ℕ) : ℝ) / m) = i * (2 * π) - π * i * l / m := by
          rw [show m - (l - m) = 2 * m - l by omega, Nat.cast_sub (by omega)]
          push_cast
          field_simp
        rw [this, Real.cos_nat_mul_two_pi_sub]
        push_cast
        rfl
    rw [hc]
    push_cast
    ring
  rw [sum_congr rfl hval, sum_comm]
  have hsum : ∀ i ∈ range (m + 1), ∑ l ∈ range (2 * m), a.getD i 0 *
        (Real.cos (π * (i : ℤ) * l / m) * Real.cos (π * (k : ℤ) * l / m)) =
      if i = k then a.getD k 0 * (m * if 1 ≤ k ∧ k < m then 1 else 2) else 0 := by
    intro i hi
    rw [mem_range] at hi
    rw [← mul_sum, cos_orthogonal m hm0]
    have d1 : (((2 * m : ℕ) : ℤ) ∣ (i : ℤ) - k) ↔ i = k := by
      constructor
      · rintro ⟨q, hq⟩
        have h1 : (-1 : ℤ) < q := by
          by_contra hc
          have : q ≤ -1 := by omega
          have : ((2 * m : ℕ) : ℤ) * q ≤ ((2 * m : ℕ) : ℤ) * (-1) :=
            mul_le_mul_of_nonneg_left this (by positivity)
          omega
        have h2 : q < 1 := by
          by_contra hc
          have : 1 ≤ q := by omega
          have : ((2 * m : ℕ) : ℤ) * 1 ≤ ((2 * m : ℕ) : ℤ) * q :=
            mul_le_mul_of_nonneg_left this (by positivity)
          omega
        have : q = 0 := by omega
        subst this
        simp only [mul_zero] at hq
        omega
      · rintro rfl
        simp
    have d2 : (((2 * m : ℕ) : ℤ) ∣ (i : ℤ) + k) ↔ (i = k ∧ ¬ (1 ≤ k ∧ k < m)) := by
      rw [show (i : ℤ) + k = ((i + k : ℕ) : ℤ) by push_cast; ring, Int.natCast_dvd_natCast]
      constructor
      · rintro ⟨q, hq⟩
        have h2 : q < 2 := by
          by_contra hc
          have : 2 * m * 2 ≤ 2 * m * q := Nat.mul_le_mul_left _ (by omega)
          omega
        interval_cases q
        · exact ⟨by omega, by omega⟩
        · exact ⟨by omega, by omega⟩
      · rintro ⟨rfl, h⟩
        by_cases h0 : i = 0
        · subst h0
          simp
        · have : i = m := by omega
          subst this
          exact ⟨1, by omega⟩
    simp only [d1, d2]
    by_cases hik : i = k
    · subst hik
      simp only [true_and, if_true]
      by_cases hr : 1 ≤ i ∧ i < m
      · simp [hr]
      · simp only [hr, not_false_eq_true, if_true, if_false]
        ring
    · simp [hik]
  rw [sum_congr rfl hsum, sum_ite_eq', if_pos (mem_range.2 (by omega))]
  split
  · field_simp
  · field_simp

end Heir.Approx
