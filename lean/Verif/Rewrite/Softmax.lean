import Verif.Rewrite.Spec
import Mathlib.Probability.Moments.SubGaussian
import Mathlib.Probability.ProbabilityMassFunction.Integrals
import Mathlib.Probability.Distributions.Uniform
import Mathlib.Analysis.Complex.ExponentialBounds
import Mathlib.Tactic.Linarith
import Mathlib.Tactic.FieldSimp
import Mathlib.Tactic.Ring
import Mathlib.Tactic.NormNum
import Mathlib.Tactic.Positivity

/-! # The softmax by the cumulant generating function -/

namespace Heir.Rewrite

open MeasureTheory ProbabilityTheory

section
variable {n : Nat} (x : Fin n → ℝ)

theorem sum_eq_mean (hn : 0 < n) : ∑ j, x j = n * mean x := by
  have : (n : ℝ) ≠ 0 := by positivity
  rw [mean]
  field_simp

theorem mean_le (hn : 0 < n) {U : ℝ} (h : ∀ j, x j ≤ U) : mean x ≤ U := by
  have hn' : (0 : ℝ) < n := by positivity
  have h1 : ∑ j, x j ≤ ∑ _j : Fin n, U := Finset.sum_le_sum fun j _ => h j
  rw [sum_eq_mean x hn, Finset.sum_const, Finset.card_univ, Fintype.card_fin, nsmul_eq_mul] at h1
  exact le_of_mul_le_mul_left h1 hn'

theorem le_mean (hn : 0 < n) {L : ℝ} (h : ∀ j, L ≤ x j) : L ≤ mean x := by
  have hn' : (0 : ℝ) < n := by positivity
  have h1 : ∑ _j : Fin n, L ≤ ∑ j, x j := Finset.sum_le_sum fun j _ => h j
  rw [sum_eq_mean x hn, Finset.sum_const, Finset.card_univ, Fintype.card_fin, nsmul_eq_mul] at h1
  exact le_of_mul_le_mul_left h1 hn'

theorem variance_nonneg : 0 ≤ variance x := by
  rw [variance]
  exact mul_nonneg (Finset.sum_nonneg fun j _ => mul_self_nonneg _) (by positivity)

theorem sum_sq_eq_variance (hn : 0 < n) :
    ∑ j, (x j - mean x) * (x j - mean x) = n * variance x := by
  have : (n : ℝ) ≠ 0 := by positivity
  rw [variance]
  field_simp

/-- The inequality of Popoviciu. -/
theorem variance_le (hn : 0 < n) {L U : ℝ} (hL : ∀ j, L ≤ x j) (hU : ∀ j, x j ≤ U) :
    variance x ≤ (U - L) * (U - L) / 4 := by
  have hn' : (0 : ℝ) < n := by positivity
  have h1 : ∑ j, (x j - mean x) * (x j - mean x) ≤
      ∑ j, ((U + L - 2 * mean x) * x j + (mean x * mean x - U * L)) := by
    apply Finset.sum_le_sum
    intro j _
    nlinarith [mul_nonneg (sub_nonneg.2 (hL j)) (sub_nonneg.2 (hU j))]
  rw [sum_sq_eq_variance x hn, Finset.sum_add_distrib, ← Finset.mul_sum, sum_eq_mean x hn,
    Finset.sum_const, Finset.card_univ, Fintype.card_fin, nsmul_eq_mul] at h1
  have h2 : (n : ℝ) * variance x ≤ n * ((U - mean x) * (mean x - L)) := by
    refine le_trans h1 (le_of_eq ?_)
    ring
  have h3 := le_of_mul_le_mul_left h2 hn'
  nlinarith [sq_nonneg (U + L - 2 * mean x)]

/-- The inequality of Jensen. -/
theorem jensen (hn : 0 < n) : n * Real.exp (mean x) ≤ ∑ j, Real.exp (x j) := by
  have h : ∀ j, Real.exp (x j) = Real.exp (mean x) * Real.exp (x j - mean x) := by
    intro j
    rw [← Real.exp_add]
    congr 1
    ring
  simp only [h]
  rw [← Finset.mul_sum, mul_comm]
  apply mul_le_mul_of_nonneg_left _ (Real.exp_pos _).le
  calc (n : ℝ) = ∑ j, (x j - mean x + 1) := by
        rw [Finset.sum_add_distrib, Finset.sum_sub_distrib, sum_eq_mean x hn]
        simp
    _ ≤ ∑ j, Real.exp (x j - mean x) := Finset.sum_le_sum fun j _ => Real.add_one_le_exp _

/-- The lemma of Hoeffding. -/
theorem hoeffding (hn : 0 < n) {L U : ℝ} (hL : ∀ j, L ≤ x j) (hU : ∀ j, x j ≤ U) :
    ∑ j, Real.exp (x j) ≤ n * Real.exp (mean x + (U - L) * (U - L) / 8) := by
  have hn' : (0 : ℝ) < n := by positivity
  haveI : Nonempty (Fin n) := ⟨⟨0, hn⟩⟩
  let μ := (PMF.uniformOfFintype (Fin n)).toMeasure
  have hint : ∀ f : Fin n → ℝ, ∫ j, f j ∂μ = (∑ j, f j) * (1 / n) := by
    intro f
    rw [PMF.integral_eq_sum, Finset.sum_mul]
    apply Finset.sum_congr rfl
    intro j _
    rw [PMF.uniformOfFintype_apply, Fintype.card_fin, ENNReal.toReal_inv, ENNReal.toReal_natCast,
      smul_eq_mul]
    ring
  have hsub := hasSubgaussianMGF_of_mem_Icc (μ := μ) (X := x) (a := L) (b := U)
    (measurable_of_finite x).aemeasurable (Filter.Eventually.of_forall fun j => ⟨hL j, hU j⟩)
  have h := hsub.mgf_le 1
  rw [mgf] at h
  simp only [hint] at h
  have hm : (∑ j, x j) * (1 / (n : ℝ)) = mean x := rfl
  rw [hm] at h
  have hc : (((‖U - L‖₊ / 2) ^ 2 : NNReal) : ℝ) * 1 ^ 2 / 2 = (U - L) * (U - L) / 8 := by
    simp only [NNReal.coe_pow, NNReal.coe_div, coe_nnnorm, NNReal.coe_ofNat, Real.norm_eq_abs]
    rw [div_pow, sq_abs]
    ring
  rw [hc] at h
  have he : ∀ j, Real.exp (x j) = Real.exp (mean x) * Real.exp (1 * (x j - mean x)) := by
    intro j
    rw [← Real.exp_add]
    congr 1
    ring
  simp only [he]
  rw [← Finset.mul_sum, Real.exp_add, mul_comm (n : ℝ), mul_assoc]
  apply mul_le_mul_of_nonneg_left _ (Real.exp_pos _).le
  rw [mul_one_div, div_le_iff₀ hn'] at h
  exact h

end

/-! ## C104 -/

/-- The approximation is within a factor `e^((U - L)²/8)` of the softmax for every row in `[L, U]`. -/
theorem C104_accuracy {n : Nat} (x : Fin n → ℝ) {L U : ℝ} (hL : ∀ j, L ≤ x j) (hU : ∀ j, x j ≤ U)
    (j : Fin n) :
    |Real.log (cgfSoftmax x j) - Real.log (softmax (fun _ : Fin 1 => x) 0 j)| ≤
      (U - L) * (U - L) / 8 := by
  have hn : 0 < n := j.pos
  have hn' : (0 : ℝ) < n := by positivity
  have hpos : 0 < ∑ k, Real.exp (x k) :=
    lt_of_lt_of_le (mul_pos hn' (Real.exp_pos _)) (jensen x hn)
  rw [cgfSoftmax, softmax, Real.log_exp, Real.log_div (Real.exp_ne_zero _) hpos.ne', Real.log_exp]
  have h1 := Real.log_le_log (mul_pos hn' (Real.exp_pos _)) (jensen x hn)
  have h2 := Real.log_le_log hpos (hoeffding x hn hL hU)
  rw [Real.log_mul hn'.ne' (Real.exp_ne_zero _), Real.log_exp] at h1 h2
  have h3 := variance_le x hn hL hU
  have h4 := variance_nonneg x
  rw [shift, abs_le]
  constructor <;> linarith

/-- On constant rows it is the softmax. -/
theorem C104_constant {n : Nat} (c : ℝ) (j : Fin n) :
    cgfSoftmax (fun _ : Fin n => c) j = softmax (fun (_ : Fin 1) (_ : Fin n) => c) 0 j := by
  have hn' : (0 : ℝ) < n := by
    have := j.pos
    positivity
  have hm : mean (fun _ : Fin n => c) = c := by
    rw [mean, Finset.sum_const, Finset.card_univ, Fintype.card_fin, nsmul_eq_mul]
    field_simp
  have hv : variance (fun _ : Fin n => c) = 0 := by simp [variance, hm]
  rw [cgfSoftmax, shift, hm, hv, softmax, Finset.sum_const, Finset.card_univ, Fintype.card_fin,
    nsmul_eq_mul, show c - (c + 0 * (1 / 2) + Real.log n) = -Real.log n by ring, Real.exp_neg,
    Real.exp_log hn']
  have := Real.exp_ne_zero c
  field_simp

theorem log_le_ten {n : Nat} (hn : 0 < n) (h : n ≤ 22026) : Real.log n ≤ 10 := by
  rw [Real.log_le_iff_le_exp (by positivity)]
  have h1 : (n : ℝ) ≤ 22026 := by exact_mod_cast h
  have h2 : (2.7182818283 : ℝ) ^ 10 ≤ Real.exp 1 ^ 10 :=
    pow_le_pow_left₀ (by norm_num) Real.exp_one_gt_d9.le _
  rw [← Real.exp_nat_mul] at h2
  norm_num at h2 ⊢
  linarith

/-- What goes into the exponential is at least its declared lower bound if both bounds of the softmax
are declared or none, and the rows are not longer than 22026. Missing: see `C104_oneSided_violated`
and `C104_long_violated`. -/
theorem C104_lower_partial {n : Nat} (d : Domain) (ha : d.accepted)
    (hb : d.lower.isSome = d.upper.isSome) (hlen : n ≤ 22026) (x : Fin n → ℝ)
    (hL : ∀ j, d.L ≤ x j) (hU : ∀ j, x j ≤ d.U) (j : Fin n) : d.expLower n ≤ x j - shift x := by
  have hn : 0 < n := j.pos
  have hlog := log_le_ten hn hlen
  have hlog0 : 0 ≤ Real.log n := Real.log_natCast_nonneg n
  have hw : d.U - d.L ≤ 4 := by
    obtain ⟨l, u⟩ := d
    cases l <;> cases u
    · simp only [Domain.U, Domain.L, Option.getD_none]
      norm_num
    · simp at hb
    · simp at hb
    · simp only [Domain.accepted] at ha
      simpa [Domain.U, Domain.L] using ha
  have hw0 : 0 ≤ d.U - d.L := by linarith [hL j, hU j]
  have h1 := mean_le x hn hU
  have h2 := variance_le x hn hL hU
  rw [Domain.expLower, shift]
  apply max_le
  · linarith [hL j]
  · nlinarith [hL j]

theorem sub_mean_le {n : Nat} (x : Fin n → ℝ) {L U : ℝ} (hL : ∀ j, L ≤ x j) (hU : ∀ j, x j ≤ U)
    (j : Fin n) : x j - mean x ≤ (U - L) * (1 - 1 / n) := by
  have hn : 0 < n := j.pos
  have hn' : (0 : ℝ) < n := by positivity
  have h1 : ∑ k, (x k - L) ≥ x j - L :=
    Finset.single_le_sum (f := fun k => x k - L) (fun k _ => sub_nonneg.2 (hL k)) (Finset.mem_univ j)
  rw [Finset.sum_sub_distrib, sum_eq_mean x hn, Finset.sum_const, Finset.card_univ, Fintype.card_fin,
    nsmul_eq_mul, ← mul_sub] at h1
  have h2 : (x j - L) / n ≤ mean x - L := by
    rw [div_le_iff₀ hn']
    linarith
  have h3 : x j - mean x ≤ (x j - L) * (1 - 1 / n) := by
    have : (x j - L) * (1 - 1 / (n : ℝ)) = (x j - L) - (x j - L) / n := by ring
    linarith
  refine le_trans h3 (mul_le_mul_of_nonneg_right (by linarith [hU j]) ?_)
  rw [sub_nonneg, div_le_one hn']
  exact_mod_cast hn

/-- It is at most the declared upper bound if the domain is at most two wide. Missing: wider domains
that are accepted, see `C104_upper_violated`. -/
theorem C104_upper_partial {n : Nat} (d : Domain) (hw : d.U - d.L ≤ 2) (x : Fin n → ℝ)
    (hL : ∀ j, d.L ≤ x j) (hU : ∀ j, x j ≤ d.U) (j : Fin n) : x j - shift x ≤ d.expUpper := by
  have hn : 0 < n := j.pos
  have hn' : (0 : ℝ) < n := by positivity
  have h1 := sub_mean_le x hL hU j
  have h2 := variance_nonneg x
  have hs : 0 < Real.sqrt n := Real.sqrt_pos.2 hn'
  have hlog : 2 * (1 - (Real.sqrt n)⁻¹) ≤ Real.log n := by
    have := Real.one_sub_inv_le_log_of_pos hs
    have e : Real.log n = 2 * Real.log (Real.sqrt n) := by
      rw [Real.log_sqrt hn'.le]
      ring
    linarith
  have ht : (1 / n : ℝ) = (Real.sqrt n)⁻¹ * (Real.sqrt n)⁻¹ := by
    rw [← mul_inv, Real.mul_self_sqrt hn'.le, one_div]
  have hle : (1 / n : ℝ) ≤ 1 := by
    rw [div_le_one hn']
    exact_mod_cast hn
  have h3 : (d.U - d.L) * (1 - 1 / n) ≤ 2 * (1 - 1 / n) :=
    mul_le_mul_of_nonneg_right hw (by linarith)
  rw [shift, Domain.expUpper]
  rw [ht] at h1 h3
  nlinarith [sq_nonneg ((Real.sqrt n)⁻¹ - 1 / 2)]

/-- A domain of width four is accepted, and a row of eight with one entry at the top and the others at
the bottom puts more than a half into the exponential. -/
theorem C104_upper_violated :
    let d : Domain := ⟨some (-2), some 2⟩
    let x : Fin 8 → ℝ := fun j => if j = 0 then 2 else -2
    d.accepted ∧ (∀ j, d.L ≤ x j ∧ x j ≤ d.U) ∧ d.expUpper < x 0 - shift x := by
  refine ⟨by norm_num [Domain.accepted], ?_, ?_⟩
  · intro j
    simp only [Domain.L, Domain.U, Option.getD_some]
    split <;> norm_num
  · have hm : mean (fun j : Fin 8 => if j = 0 then (2 : ℝ) else -2) = -3 / 2 := by
      simp only [mean, Fin.sum_univ_succ, Fin.sum_univ_zero]
      norm_num [Fin.ext_iff]
    have hv : variance (fun j : Fin 8 => if j = 0 then (2 : ℝ) else -2) = 7 / 4 := by
      simp only [variance, hm, Fin.sum_univ_succ, Fin.sum_univ_zero]
      norm_num [Fin.ext_iff]
    have hl : Real.log (8 : ℕ) = 3 * Real.log 2 := by
      rw [show ((8 : ℕ) : ℝ) = 2 ^ 3 by norm_num, Real.log_pow]
      norm_num
    rw [shift, hm, hv, hl, Domain.expUpper]
    have := Real.log_two_lt_d9
    norm_num
    linarith

/-- With one bound declared the width is not checked and the lower bound is wrong. -/
theorem C104_oneSided_violated :
    let d : Domain := ⟨some (-100), none⟩
    let x : Fin 2 → ℝ := fun j => if j = 0 then -100 else 1
    d.accepted ∧ (∀ j, d.L ≤ x j ∧ x j ≤ d.U) ∧ x 0 - shift x < d.expLower 2 := by
  refine ⟨trivial, ?_, ?_⟩
  · intro j
    simp only [Domain.L, Domain.U, Option.getD_some, Option.getD_none]
    split <;> norm_num
  · have hm : mean (fun j : Fin 2 => if j = 0 then (-100 : ℝ) else 1) = -99 / 2 := by
      simp only [mean, Fin.sum_univ_succ, Fin.sum_univ_zero]
      norm_num [Fin.ext_iff]
    have h0 := variance_nonneg (fun j : Fin 2 => if j = 0 then (-100 : ℝ) else 1)
    have hl : 0 ≤ Real.log (2 : ℕ) := Real.log_natCast_nonneg 2
    refine lt_of_lt_of_le ?_ (le_max_right _ _)
    rw [shift, hm]
    norm_num at *
    linarith

/-- Rows of more than `e^16` entries fall below the lower bound, even the constant ones. -/
theorem C104_long_violated (n : Nat) (hn : 2 ^ 24 ≤ n) :
    let d : Domain := ⟨some (-1), some 1⟩
    let x : Fin n → ℝ := fun _ => 0
    d.accepted ∧ (∀ j, d.L ≤ x j ∧ x j ≤ d.U) ∧ ∀ j, x j - shift x < d.expLower n := by
  refine ⟨by norm_num [Domain.accepted], ?_, ?_⟩
  · intro j
    simp only [Domain.L, Domain.U, Option.getD_some]
    norm_num
  · intro j
    have h1 : Real.log ((2 : ℝ) ^ 24) ≤ Real.log n := by
      apply Real.log_le_log (by positivity)
      exact_mod_cast hn
    rw [Real.log_pow] at h1
    have h2 := Real.log_two_gt_d9
    refine lt_of_lt_of_le ?_ (le_max_right _ _)
    have hm : mean (fun _ : Fin n => (0 : ℝ)) = 0 := by simp [mean]
    have h0 := variance_nonneg (fun _ : Fin n => (0 : ℝ))
    rw [shift, hm]
    norm_num at h1
    linarith

example : (⟨some (-1), some 1⟩ : Domain).accepted ∧ (⟨some (-1), some 1⟩ : Domain).U - (-1) ≤ 2 := by
  constructor <;> norm_num [Domain.accepted, Domain.U]

end Heir.Rewrite
