import Verif.LogArith.Model
import Mathlib.Tactic.Linarith
import Mathlib.Tactic.Ring
import Mathlib.Tactic.Positivity
import Mathlib.Tactic.NormNum

/-! # Properties of the arithmetic of logarithms (C198) -/

namespace Heir.LogArith

/-- The relative error of one sum. -/
noncomputable def eps : ℝ := (2 : ℝ) ^ (-512 : ℝ)

theorem eps_pos : 0 < eps := Real.rpow_pos_of_pos two_pos _

theorem getValue_nonneg (a : Log2) : 0 ≤ getValue a := by
  cases a with
  | none => exact le_rfl
  | some x => exact (Real.rpow_pos_of_pos two_pos _).le

theorem addOrdered_exact {a b : ℝ} (h : ¬ a - b > 512) :
    (2 : ℝ) ^ addOrdered a b = (2 : ℝ) ^ a + (2 : ℝ) ^ b := by
  have h2 : (0 : ℝ) < 2 := two_pos
  unfold addOrdered
  rw [if_neg h]
  split
  · rename_i hab
    subst hab
    rw [Real.rpow_add h2, Real.rpow_one]; ring
  · have hp : (0 : ℝ) < 1 + (2 : ℝ) ^ (b - a) := by
      have := Real.rpow_pos_of_pos h2 (b - a); linarith
    rw [Real.rpow_add h2, Real.log_div_log, Real.rpow_logb h2 (by norm_num) hp, mul_add, mul_one,
      ← Real.rpow_add h2]
    congr 2; ring

theorem addOrdered_lost {a b : ℝ} (h : a - b > 512) : (2 : ℝ) ^ addOrdered a b = (2 : ℝ) ^ a := by
  unfold addOrdered; rw [if_pos h]

/-- C198: values that are put in come out again. -/
theorem C198_of {v : ℝ} (h : 0 ≤ v) : getValue (of v) = v := by
  unfold of
  split
  · rename_i h0; simp [getValue, h0]
  · rename_i h0
    exact Real.rpow_logb two_pos (by norm_num) (lt_of_le_of_ne h (Ne.symm h0))

/-- C198: products are exact. -/
theorem C198_mul (a b : Log2) : getValue (mul a b) = getValue a * getValue b := by
  cases a <;> cases b <;> simp [mul, getValue, Real.rpow_add two_pos]

/-- C198: the order is that of the values. -/
theorem C198_lt (a b : Log2) : lt a b ↔ getValue a < getValue b := by
  cases a with
  | none =>
    cases b with
    | none => simp [lt, getValue]
    | some y => simp [lt, getValue, Real.rpow_pos_of_pos two_pos]
  | some x =>
    cases b with
    | none => simp [lt, getValue, (Real.rpow_pos_of_pos (two_pos (α := ℝ)) x).le]
    | some y => simp [lt, getValue, Real.rpow_lt_rpow_left_iff (one_lt_two (α := ℝ))]

/-- C198: sums are exact unless one value is more than `2^512` times the other. -/
theorem C198_add_exact (a b : Log2) (h : getValue a ≤ 2 ^ 512 * getValue b ∨ getValue b = 0)
    (h' : getValue b ≤ 2 ^ 512 * getValue a ∨ getValue a = 0) :
    getValue (add a b) = getValue a + getValue b := by
  cases a with
  | none => simp [add, getValue]
  | some x =>
    cases b with
    | none => simp [add, getValue]
    | some y =>
      have key : ∀ x y : ℝ, ((2 : ℝ) ^ x ≤ 2 ^ 512 * (2 : ℝ) ^ y ∨ (2 : ℝ) ^ y = 0) → ¬ x - y > 512 := by
        intro x y h hgt
        have hy := Real.rpow_pos_of_pos (two_pos (α := ℝ)) y
        rcases h with h | h
        · have e : (2 : ℝ) ^ 512 * (2 : ℝ) ^ y = (2 : ℝ) ^ (512 + y) := by
            rw [Real.rpow_add two_pos]; congr 1
            exact_mod_cast (Real.rpow_natCast (2 : ℝ) 512).symm
          rw [e, Real.rpow_le_rpow_left_iff one_lt_two] at h
          linarith
        · exact absurd h hy.ne'
      simp only [add, getValue] at *
      split
      · rw [addOrdered_exact (key y x h')]; ring
      · rw [addOrdered_exact (key x y h)]

example : getValue (some 3) ≤ 2 ^ 512 * getValue (some 1) ∧ getValue (some 1) ≤ 2 ^ 512 * getValue (some 3) := by
  have e1 : getValue (some 3) = 8 := by
    simp only [getValue]; exact_mod_cast (by norm_num : (2 : ℝ) ^ (3 : ℕ) = 8)
  have e2 : getValue (some 1) = 2 := by simp [getValue]
  have h : (2 : ℝ) ^ 2 ≤ 2 ^ 512 := pow_le_pow_right₀ one_le_two (by decide)
  rw [e1, e2]
  generalize (2 : ℝ) ^ 512 = c at h ⊢
  norm_num at h
  constructor <;> linarith

/-- C198: every sum is a lower bound of the real one with a relative error of at most `2^-512`. -/
theorem add_bounds (a b : Log2) : getValue (add a b) ≤ getValue a + getValue b ∧
    getValue a + getValue b ≤ getValue (add a b) * (1 + eps) := by
  have he := eps_pos
  have key : ∀ x y : ℝ, (2 : ℝ) ^ addOrdered x y ≤ (2 : ℝ) ^ x + (2 : ℝ) ^ y ∧
      (2 : ℝ) ^ x + (2 : ℝ) ^ y ≤ (2 : ℝ) ^ addOrdered x y * (1 + eps) := by
    intro x y
    have hx := Real.rpow_pos_of_pos (two_pos (α := ℝ)) x
    have hy := Real.rpow_pos_of_pos (two_pos (α := ℝ)) y
    by_cases h : x - y > 512
    · rw [addOrdered_lost h]
      refine ⟨by linarith, ?_⟩
      have : (2 : ℝ) ^ y ≤ (2 : ℝ) ^ x * eps := by
        unfold eps
        rw [← Real.rpow_add two_pos, Real.rpow_le_rpow_left_iff one_lt_two]
        linarith
      linarith
    · rw [addOrdered_exact h]
      refine ⟨le_rfl, ?_⟩
      nlinarith
  cases a with
  | none =>
    have hb := getValue_nonneg b
    have e : getValue (add none b) = getValue b := by cases b <;> rfl
    rw [e, show getValue none = 0 from rfl]
    constructor
    · linarith
    · nlinarith
  | some x =>
    cases b with
    | none =>
      have ha := getValue_nonneg (some x)
      rw [show add (some x) none = some x from rfl, show getValue none = 0 from rfl]
      constructor
      · linarith
      · nlinarith
    | some y =>
      simp only [add, getValue]
      split
      · have := key y x
        rw [add_comm ((2 : ℝ) ^ x)]; exact this
      · exact key x y

/-- C198: a formula of any size with `s` sums is computed with a relative error of at most
`(1 + 2^-512)^s - 1`, and never above its value. -/
theorem C198_expr_partial (e : Expr) (h : e.NonNeg) : getValue (run e) ≤ e.eval ∧
    e.eval ≤ getValue (run e) * (1 + (2 : ℝ) ^ (-512 : ℝ)) ^ e.sums := by
  change _ ∧ _ ≤ _ * (1 + eps) ^ _
  have he := eps_pos
  have h1 : (1 : ℝ) ≤ 1 + eps := by linarith
  induction e with
  | const v =>
    simp only [run, Expr.eval, Expr.sums, pow_zero, mul_one]
    rw [C198_of h]
    exact ⟨le_rfl, le_rfl⟩
  | add a b iha ihb =>
    obtain ⟨ha1, ha2⟩ := iha h.1
    obtain ⟨hb1, hb2⟩ := ihb h.2
    obtain ⟨hs1, hs2⟩ := add_bounds (run a) (run b)
    simp only [run, Expr.eval, Expr.sums]
    refine ⟨by linarith, ?_⟩
    have pa := getValue_nonneg (run a)
    have pb := getValue_nonneg (run b)
    have ga : getValue (run a) * (1 + eps) ^ a.sums ≤ getValue (run a) * (1 + eps) ^ (a.sums + b.sums) :=
      mul_le_mul_of_nonneg_left (pow_le_pow_right₀ h1 (Nat.le_add_right _ _)) pa
    have gb : getValue (run b) * (1 + eps) ^ b.sums ≤ getValue (run b) * (1 + eps) ^ (a.sums + b.sums) :=
      mul_le_mul_of_nonneg_left (pow_le_pow_right₀ h1 (Nat.le_add_left _ _)) pb
    have gp : 0 ≤ (1 + eps) ^ (a.sums + b.sums) := by positivity
    calc a.eval + b.eval ≤ (getValue (run a) + getValue (run b)) * (1 + eps) ^ (a.sums + b.sums) := by
          rw [add_mul]; linarith
      _ ≤ (getValue (add (run a) (run b)) * (1 + eps)) * (1 + eps) ^ (a.sums + b.sums) :=
          mul_le_mul_of_nonneg_right hs2 gp
      _ = _ := by rw [pow_succ]; ring
  | mul a b iha ihb =>
    obtain ⟨ha1, ha2⟩ := iha h.1
    obtain ⟨hb1, hb2⟩ := ihb h.2
    have pa := getValue_nonneg (run a)
    have pb := getValue_nonneg (run b)
    simp only [run, Expr.eval, Expr.sums, C198_mul]
    refine ⟨mul_le_mul ha1 hb1 pb (by linarith), ?_⟩
    calc a.eval * b.eval
        ≤ (getValue (run a) * (1 + eps) ^ a.sums) * (getValue (run b) * (1 + eps) ^ b.sums) :=
          mul_le_mul ha2 hb2 (by linarith) (by positivity)
      _ = _ := by rw [pow_add]; ring

example : (Expr.add (.mul (.const 3) (.const 0)) (.add (.const 5) (.const 2))).NonNeg ∧
    (Expr.add (.mul (.const 3) (.const 0)) (.add (.const 5) (.const 2))).sums = 2 := by
  simp [Expr.NonNeg, Expr.sums]

/-- C198 fails as an upper bound: a summand below `2^-512` of the other is lost, so that a noise
estimate is below the value of its formula. -/
theorem C198_violated_lost : ∃ e : Expr, e.NonNeg ∧ getValue (run e) < e.eval := by
  refine ⟨.add (.const ((2 : ℝ) ^ (513 : ℝ))) (.const 1), ⟨(Real.rpow_pos_of_pos two_pos _).le, zero_le_one⟩, ?_⟩
  have hp := Real.rpow_pos_of_pos (two_pos (α := ℝ)) 513
  have e1 : of ((2 : ℝ) ^ (513 : ℝ)) = some 513 := by
    unfold of
    rw [if_neg hp.ne', Real.logb_rpow two_pos (by norm_num)]
  have e2 : of 1 = some 0 := by
    unfold of
    rw [if_neg one_ne_zero, Real.logb_one]
  simp only [run, e1, e2, add, Expr.eval]
  rw [if_neg (by norm_num)]
  simp only [getValue]
  rw [addOrdered_lost (by norm_num)]
  linarith

end Heir.LogArith
