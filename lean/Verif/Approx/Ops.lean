import Verif.Approx.Props
import Mathlib.Algebra.Order.Ring.Pow
import Mathlib.Tactic.FieldSimp

/-! # Properties of the other approximations -/

namespace Heir.Approx

open scoped Real

/-! ## C109, the null node -/

/-- The zero function has no coefficient that is kept, and its evaluation is a null node. -/
theorem C109_zero_violated (eig : List (List ℝ) → List ℝ) (degree : Nat) (lower upper x δ : ℝ)
    (hδ : 0 < δ) : cf eig (fun _ => 0) degree lower upper = some [0] ∧ evalLowered δ [0] lower upper x = none := by
  have hf : (if lower ≠ -1 ∨ upper ≠ 1 then (fun _ : ℝ => (0 : ℝ)) else fun _ => 0) = fun _ => 0 := by
    split <;> rfl
  constructor
  · rw [cf, hf, cfUnit]
    have hlen : (List.replicate 18 (0 : ℝ)).length = 18 := by simp
    have hget : ∀ i, (List.replicate 18 (0 : ℝ)).getD i 0 = 0 := by
      intro i
      by_cases h : i < 18
      · rw [List.getD_eq_getElem _ _ (by rw [hlen]; exact h), List.getElem_replicate]
      · rw [List.getD_eq_default _ _ (by rw [hlen]; omega)]
    have hev : ∀ x, (PolyClass.chebSeries (List.replicate 18 (0 : ℝ))).eval x = 0 := by
      intro x
      rw [PolyClass.chebSeries, Polynomial.eval_finsetSum]
      apply Finset.sum_eq_zero
      intro i _
      rw [hget, map_zero, zero_mul, Polynomial.eval_zero]
    have hint := C107_reproduces_partial (List.replicate 18 (0 : ℝ)) (by rw [ne_eq, ← List.length_eq_zero_iff, hlen]; omega)
      (C107_even_count _ (by rw [List.length_map, chebPoints_length, hlen]))
    rw [hlen] at hint
    have hv : ((chebPoints 18).map fun x => (PolyClass.chebSeries (List.replicate 18 (0 : ℝ))).eval x) =
        (chebPoints 18).map fun _ => (0 : ℝ) := by
      apply List.map_congr_left
      intro x _
      exact hev x
    rw [hv] at hint
    have h0 : env (List.replicate 18 (0 : ℝ)) 0 = 0 := by
      obtain ⟨j, -, -, h⟩ := env_mem (List.replicate 18 (0 : ℝ)) 0 (by rw [hlen]; omega)
      rw [h, hget, abs_zero]
    have hchop : standardChop (List.replicate 18 (0 : ℝ)) (1 / 10 ^ 16) = some 1 := by
      rw [standardChop, if_neg (by norm_num), if_neg (by rw [hlen]; omega)]
      dsimp only
      rw [show (accumulateMaximumReverse ((List.replicate 18 (0 : ℝ)).map abs)).getD 0 0 =
        env (List.replicate 18 (0 : ℝ)) 0 from rfl, if_pos h0]
    have hs : smart (fun _ => (0 : ℝ)) (1 / 10 ^ 16) 129 = some [0] := by
      rw [smart, smartLoop, if_pos (by omega)]
      dsimp only
      rw [show 1 + 17 = 18 from rfl, hint, hchop, Option.bind_some, if_pos (by omega)]
      rfl
    rw [hs, Option.bind_some, if_pos (by simp)]
  · rw [evalLowered, PolyEval.psChebyshev]
    simp [hδ]

/-- The hypotheses of the theorems on the cut and on the choice of the degree can be met. -/
example : standardChop (List.replicate 18 (1 / 10 ^ 32)) (1 / 10 ^ 16) = some 1 := by
  apply C108_relative_violated _ _ _ (by norm_num) (by norm_num) (by norm_num) (by norm_num)
  calc (1 / 10 ^ 32 : ℝ) = (1 / 10 ^ 16) ^ ((2 : ℕ) : ℝ) := by rw [Real.rpow_natCast]; norm_num
    _ < (1 / 10 ^ 16) ^ ((7 : ℝ) / 6) := Real.rpow_lt_rpow_of_exponent_gt (by norm_num) (by norm_num) (by norm_num)

example (eig : List (List ℝ) → List ℝ) : ∃ c, cf eig (fun _ => 0) 129 2 5 = some c ∧ rescale 2 5 3 = -1 / 3 := by
  refine ⟨[0], (C109_zero_violated eig 129 2 5 0 1 one_pos).1, ?_⟩
  rw [C109_rescale _ _ _ (by norm_num)]
  norm_num

example : ∃ f : ℝ → ℝ, ∃ c, smart f (1 / 10 ^ 16) 129 = some c :=
  let ⟨f, _, h, _⟩ := C108_alias_violated (1 / 10 ^ 16) (by norm_num) (by norm_num) 129 (by norm_num)
  ⟨f, [1], h⟩

/-! ## C110 -/

theorem expSquare_eq {K : Type} [Field K] (k : Nat) : ∀ c : K, expSquare k c = c ^ 2 ^ k := by
  induction k with
  | zero => intro c; simp [expSquare]
  | succ k ih =>
    intro c
    rw [expSquare, ih, ← sq, ← pow_mul]
    congr 1
    ring

/-- What is computed in place of the exponential. -/
theorem C110_value {K : Type} [Field K] (k : Nat) (x : K) : expTaylor k x = (1 + x / 2 ^ k) ^ 2 ^ k := by
  rw [expTaylor, expSquare_eq]
  congr 1
  ring

/-- On a domain that is accepted, the value is between the exponential and the exponential less a part
`x ^ 2 / 2 ^ k` of it. Missing: no domain declared, see `C110_domain_violated`. -/
theorem C110_accuracy_partial (k : Nat) (l u x : ℝ) (h : expAccepted k (some l) (some u)) (hl : l ≤ x) (hu : x ≤ u) :
    Real.exp x * (1 - x ^ 2 / 2 ^ k) ≤ expTaylor k x ∧ expTaylor k x ≤ Real.exp x ∧ 0 ≤ expTaylor k x := by
  have h1 : -(2 ^ k) ≤ x := by
    have := h.1 l rfl
    linarith
  have h2 : x ≤ 1 := by
    have := h.2 u rfl
    linarith
  have hN : (1 : ℝ) ≤ 2 ^ k := one_le_pow₀ (by norm_num)
  have hN0 : (0 : ℝ) < 2 ^ k := by positivity
  set y := x / 2 ^ k with hy
  have hxy : x = ((2 ^ k : ℕ) : ℝ) * y := by
    rw [hy]
    push_cast
    field_simp
  have y1 : -1 ≤ y := by
    rw [hy, le_div_iff₀ hN0]
    linarith
  have y2 : y ≤ 1 := by
    rw [hy, div_le_iff₀ hN0]
    linarith
  rw [C110_value, ← hy]
  have he : Real.exp x = Real.exp y ^ 2 ^ k := by rw [hxy, Real.exp_nat_mul]
  refine ⟨?_, ?_, pow_nonneg (by linarith) _⟩
  · have b : 1 - x ^ 2 / 2 ^ k ≤ (1 - y ^ 2) ^ 2 ^ k := by
      have := one_add_mul_le_pow (a := -y ^ 2) (by nlinarith) (2 ^ k)
      have e : x ^ 2 / 2 ^ k = ((2 ^ k : ℕ) : ℝ) * y ^ 2 := by
        rw [hxy]
        push_cast
        field_simp
      rw [e]
      calc 1 - ((2 ^ k : ℕ) : ℝ) * y ^ 2 = 1 + ((2 ^ k : ℕ) : ℝ) * -y ^ 2 := by ring
        _ ≤ (1 + -y ^ 2) ^ 2 ^ k := this
        _ = (1 - y ^ 2) ^ 2 ^ k := by ring
    calc Real.exp x * (1 - x ^ 2 / 2 ^ k) ≤ Real.exp x * (1 - y ^ 2) ^ 2 ^ k :=
          mul_le_mul_of_nonneg_left b (Real.exp_pos x).le
      _ = (Real.exp y * (1 - y ^ 2)) ^ 2 ^ k := by rw [he, mul_pow]
      _ ≤ (1 + y) ^ 2 ^ k := by
        apply pow_le_pow_left₀ (mul_nonneg (Real.exp_pos y).le (by nlinarith))
        have h3 : Real.exp y * (1 - y) ≤ 1 := by
          have := Real.add_one_le_exp (-y)
          calc Real.exp y * (1 - y) ≤ Real.exp y * Real.exp (-y) :=
                mul_le_mul_of_nonneg_left (by linarith) (Real.exp_pos y).le
            _ = 1 := by rw [← Real.exp_add, add_neg_cancel, Real.exp_zero]
        calc Real.exp y * (1 - y ^ 2) = (Real.exp y * (1 - y)) * (1 + y) := by ring
          _ ≤ 1 * (1 + y) := mul_le_mul_of_nonneg_right h3 (by linarith)
          _ = 1 + y := one_mul _
  · rw [he]
    apply pow_le_pow_left₀ (by linarith)
    linarith [Real.add_one_le_exp y]

/-- The number of squarings is the least that reaches the degree asked for. -/
theorem C110_steps (d : Int) (hd : 0 < d) (k : Nat) : expSteps (some d) ≤ k ↔ d ≤ 2 ^ k := by
  rw [expSteps, if_pos hd, Nat.clog_le_iff_le_pow (by omega)]
  constructor
  · intro h
    have : (d.toNat : ℤ) ≤ ((2 ^ k : ℕ) : ℤ) := by exact_mod_cast h
    push_cast at this
    omega
  · intro h
    have : d ≤ ((2 ^ k : ℕ) : ℤ) := by push_cast; exact h
    omega

/-- Without a domain the exponential of a negative number, less than one, can become any power. -/
theorem C110_domain_violated (k : Nat) (hk : 1 ≤ k) :
    expAccepted (K := ℝ) k none none ∧ expTaylor k (-3 * 2 ^ k : ℝ) = 2 ^ 2 ^ k ∧ Real.exp (-3 * 2 ^ k) < 1 := by
  have hN0 : (0 : ℝ) < 2 ^ k := by positivity
  refine ⟨⟨fun l h => by simp at h, fun u h => by simp at h⟩, ?_, ?_⟩
  · rw [C110_value, mul_div_cancel_right₀ _ hN0.ne']
    obtain ⟨m, rfl⟩ : ∃ m, k = m + 1 := ⟨k - 1, by omega⟩
    rw [pow_succ 2 m, mul_comm, pow_mul, pow_mul]
    norm_num
  · rw [Real.exp_lt_one_iff]
    linarith

example : expAccepted (K := ℝ) 7 (some (-8)) (some 0) ∧ expSteps (some 100) = 7 ∧ expSteps none = 7 := by
  refine ⟨⟨fun l h => ?_, fun u h => ?_⟩, by decide +kernel, rfl⟩
  · rw [← Option.some.inj h]; norm_num
  · rw [← Option.some.inj h]; norm_num

/-! ## C111 -/

theorem powLoop_eq {K : Type} [Monoid K] (base : K) (e : BitVec 64) (he : e.msb = false) (i : Nat) :
    powLoop base e i (base ^ (e.toNat / 2 ^ i)) = base ^ e.toNat := by
  induction i with
  | zero => rw [powLoop, pow_zero, Nat.div_one]
  | succ i ih =>
    rw [powLoop]
    have hbit : (e.sshiftRight i &&& 1#64) = 1#64 ↔ e.toNat / 2 ^ i % 2 = 1 := by
      rw [BitVec.sshiftRight_eq_of_msb_false he, ← BitVec.toNat_inj, BitVec.toNat_and, BitVec.toNat_ushiftRight,
        Nat.shiftRight_eq_div_pow]
      rw [show (1#64).toNat = 1 from rfl, Nat.and_one_is_mod]
    have hdiv : e.toNat / 2 ^ (i + 1) = e.toNat / 2 ^ i / 2 := by
      rw [pow_succ, Nat.div_div_eq_div_mul]
    have hval : (if (e.sshiftRight i &&& 1#64) = 1#64 then
        base ^ (e.toNat / 2 ^ (i + 1)) * base ^ (e.toNat / 2 ^ (i + 1)) * base
      else base ^ (e.toNat / 2 ^ (i + 1)) * base ^ (e.toNat / 2 ^ (i + 1))) = base ^ (e.toNat / 2 ^ i) := by
      rw [hdiv, ← pow_add]
      by_cases h : e.toNat / 2 ^ i % 2 = 1
      · rw [if_pos (hbit.2 h), ← pow_succ]
        congr 1
        omega
      · rw [if_neg (fun h' => h (hbit.1 h'))]
        congr 1
        omega
    rw [hval]
    exact ih

/-- A power with an exponent that is not negative and fits is computed by squarings and products. -/
theorem C111_pow {K : Type} [Monoid K] {w : Nat} (base : K) (exp : BitVec w) (h0 : 0 ≤ exp.toInt)
    (h1 : exp.toInt < 2 ^ 63) : powOp base exp = some (base ^ exp.toInt.toNat) := by
  have hm : exp.msb = false := by
    by_contra h
    rw [Bool.not_eq_false] at h
    have h2 := BitVec.msb_eq_toInt (x := exp)
    rw [h] at h2
    have := of_decide_eq_true h2.symm
    omega
  have hi : exp.toInt = exp.toNat := BitVec.toInt_eq_toNat_of_msb hm
  have hlt : exp.toNat < 2 ^ 63 := by
    rw [hi] at h1
    exact_mod_cast h1
  have hs : (exp.signExtend 64).toNat = exp.toNat := by
    rw [BitVec.toNat_signExtend, hm, BitVec.toNat_setWidth, if_neg (by simp), Nat.add_zero,
      Nat.mod_eq_of_lt (by omega)]
  have hmsb : (exp.signExtend 64).msb = false := by
    rw [BitVec.msb_eq_false_iff_two_mul_lt, hs]
    omega
  rw [powOp, hm, if_neg (by simp), if_neg (by omega), hi, Int.toNat_natCast]
  split
  · rename_i hz
    have : exp.toNat = 0 := by
      rw [← hs, hz]
      rfl
    rw [this, pow_zero]
  · rename_i hz
    have hne : exp.toNat ≠ 0 := by
      intro h
      apply hz
      apply BitVec.eq_of_toNat_eq
      rw [hs, h]
      rfl
    have := powLoop_eq base (exp.signExtend 64) hmsb (Nat.log2 exp.toNat)
    rw [hs] at this
    have h2 : exp.toNat / 2 ^ Nat.log2 exp.toNat = 1 := by
      have a1 := Nat.log2_self_le hne
      have a2 := Nat.lt_log2_self (n := exp.toNat)
      rw [pow_succ] at a2
      apply Nat.div_eq_of_lt_le <;> omega
    rw [h2, pow_one] at this
    rw [this]

/-- Other exponents are rejected. -/
theorem C111_rejected {K : Type} [Monoid K] {w : Nat} (base : K) (exp : BitVec w)
    (h : exp.toInt < 0 ∨ 2 ^ 63 ≤ exp.toInt) : powOp base exp = none := by
  rw [powOp]
  by_cases hm : exp.msb = true
  · rw [if_pos hm]
  · rw [if_neg hm]
    have hi : exp.toInt = exp.toNat := BitVec.toInt_eq_toNat_of_msb (by simpa using hm)
    rw [hi] at h
    rcases h with h | h
    · omega
    · rw [if_pos (by exact_mod_cast h)]

example : powOp (3 : ℤ) 13#8 = some 1594323 ∧ powOp (3 : ℤ) 0#100 = some 1 ∧ powOp (3 : ℤ) 255#8 = none := by
  decide +kernel

/-! ## C112 -/

/-- What the operation computes, by its documentation: the operations of IEEE 754-2019 `maximum` and
`minimum` give NaN if an operand is, the others the operand that is a number. -/
def BinOp.sem : BinOp → Fl → Fl → Fl
  | .maximumf, .num a, .num b => .num (max a b)
  | .maximumf, _, _ => .nan
  | .minimumf, .num a, .num b => .num (min a b)
  | .minimumf, _, _ => .nan
  | .maxnumf, .num a, .num b => .num (max a b)
  | .maxnumf, .nan, b => b
  | .maxnumf, a, .nan => a
  | .minnumf, .num a, .num b => .num (min a b)
  | .minnumf, .nan, b => b
  | .minnumf, a, .nan => a

/-- The function approximated is the operation with its constant operand in its place. Missing: minima
of NaN, see `C112_nan_violated`. -/
theorem C112_unary_partial (op : BinOp) (lhs rhs : Option Fl) (g : Fl → Fl)
    (h : unaryFunc op.cppFunc lhs rhs = some g) (x : Fl)
    (hop : op = .maxnumf ∨ op = .maximumf ∨ x ≠ .nan ∧ lhs ≠ some .nan ∧ rhs ≠ some .nan) :
    (∀ c, lhs = some c → g x = op.sem c x) ∧ (∀ c, lhs = none → rhs = some c → g x = op.sem x c) := by
  have key : ∀ a b : Fl, (op = .maxnumf ∨ op = .maximumf ∨ a ≠ .nan ∧ b ≠ .nan) → op.cppFunc a b = op.sem a b := by
    intro a b h
    cases op <;> cases a <;> cases b <;>
      first
      | rfl
      | (exfalso; simp at h)
  constructor
  · intro c hc
    subst hc
    rw [unaryFunc, Option.some.injEq] at h
    rw [← h]
    apply key
    rcases hop with h | h | ⟨h1, h2, -⟩
    · exact Or.inl h
    · exact Or.inr (Or.inl h)
    · exact Or.inr (Or.inr ⟨fun h => h2 (by rw [h]), h1⟩)
  · intro c hl hc
    subst hl hc
    rw [unaryFunc, Option.some.injEq] at h
    rw [← h]
    apply key
    rcases hop with h | h | ⟨h1, -, h2⟩
    · exact Or.inl h
    · exact Or.inr (Or.inl h)
    · exact Or.inr (Or.inr ⟨h1, fun h => h2 (by rw [h])⟩)

/-- An operation is approximated exactly if it has a constant operand. -/
theorem C112_applies (op : BinOp) (lhs rhs : Option Fl) :
    (∃ g, unaryFunc op.cppFunc lhs rhs = some g) ↔ lhs ≠ none ∨ rhs ≠ none := by
  cases lhs <;> cases rhs <;> simp [unaryFunc]

/-- The functions of the two minima are interchanged. -/
theorem C112_nan_violated (q : ℚ) :
    BinOp.cppFunc .minnumf .nan (.num q) ≠ BinOp.sem .minnumf .nan (.num q) ∧
      BinOp.cppFunc .minimumf .nan (.num q) ≠ BinOp.sem .minimumf .nan (.num q) := by
  constructor <;> simp [BinOp.cppFunc, BinOp.sem, llvmMinimum, llvmMinimumnum]

example : unaryFunc BinOp.maximumf.cppFunc none (some (.num 3)) ≠ none ∧
    BinOp.sem .minnumf (.num 2) (.num 5) = .num 2 := by
  constructor
  · simp [unaryFunc]
  · norm_num [BinOp.sem]

end Heir.Approx
