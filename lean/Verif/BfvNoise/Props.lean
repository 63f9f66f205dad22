import Verif.BfvNoise.Model
import Mathlib.Tactic.Linarith
import Mathlib.Tactic.Ring
import Mathlib.Tactic.Positivity
import Mathlib.Tactic.NormNum
import Mathlib.Tactic.FieldSimp

/-! # Properties of the BFV noise analysis (C199) -/

namespace Heir.BfvNoise

open Heir.NTT Finset

/-! ## Products of polynomials -/

/-- Coefficients of a product modulo `X^n + 1`. -/
theorem negacyclic_bound {n : Nat} {a b : Nat → ℝ} {A B : ℝ} (hA : 0 ≤ A) (ha : ∀ i, i < n → |a i| ≤ A)
    (hB : 0 ≤ B) (hb : ∀ i, i < n → |b i| ≤ B) {k : Nat} (hk : k < n) :
    |negacyclic n a b k| ≤ n * A * B := by
  unfold negacyclic
  have h1 : ∀ i ∈ range n, |∑ j ∈ range n,
      if i + j = k then a i * b j else if i + j = k + n then -(a i * b j) else 0| ≤ A * B := by
    intro i hi
    have hi' := mem_range.1 hi
    obtain ⟨j0, hj0, hu⟩ : ∃ j0, j0 < n ∧ ∀ j, j < n → j ≠ j0 → i + j ≠ k ∧ i + j ≠ k + n := by
      by_cases h : i ≤ k
      · exact ⟨k - i, by omega, fun j _ _ => ⟨by omega, by omega⟩⟩
      · exact ⟨k + n - i, by omega, fun j _ _ => ⟨by omega, by omega⟩⟩
    rw [sum_eq_single j0 (fun j hj hne => by
        rw [if_neg (hu j (mem_range.1 hj) hne).1, if_neg (hu j (mem_range.1 hj) hne).2])
      (fun h => absurd (mem_range.2 hj0) h)]
    have hp : |a i * b j0| ≤ A * B := by
      rw [abs_mul]
      exact mul_le_mul (ha i hi') (hb j0 hj0) (abs_nonneg _) hA
    split
    · exact hp
    · split
      · rw [abs_neg]; exact hp
      · rw [abs_zero]; positivity
  calc _ ≤ ∑ i ∈ range n, |∑ j ∈ range n,
        if i + j = k then a i * b j else if i + j = k + n then -(a i * b j) else 0| := abs_sum_le_sum_abs _ _
    _ ≤ ∑ _i ∈ range n, A * B := sum_le_sum h1
    _ = n * A * B := by rw [sum_const, card_range, nsmul_eq_mul]; ring

/-- C199: a public-key encryption has at most the noise of `evalEncryptPk`: `u e + e_1 s + e_0` with errors
up to `6σ` and ternary `u`, `s`. -/
theorem C199_fresh (p : Param) (hσ : 0 ≤ p.std0) {u e e0 e1 s : Nat → ℝ}
    (hu : ∀ i, i < p.ringDim → |u i| ≤ 1) (hs : ∀ i, i < p.ringDim → |s i| ≤ 1)
    (he : ∀ i, i < p.ringDim → |e i| ≤ 6 * p.std0) (he0 : ∀ i, i < p.ringDim → |e0 i| ≤ 6 * p.std0)
    (he1 : ∀ i, i < p.ringDim → |e1 i| ≤ 6 * p.std0) {k : Nat} (hk : k < p.ringDim) :
    |negacyclic p.ringDim u e k + negacyclic p.ringDim e1 s k + e0 k| ≤ evalEncryptPk p := by
  have h1 := negacyclic_bound zero_le_one hu (by positivity) he hk
  have h2 := negacyclic_bound (by positivity) he1 zero_le_one hs hk
  have h3 := he0 k hk
  have h4 := abs_add_le (negacyclic p.ringDim u e k + negacyclic p.ringDim e1 s k) (e0 k)
  have h5 := abs_add_le (negacyclic p.ringDim u e k) (negacyclic p.ringDim e1 s k)
  unfold evalEncryptPk boundErr expansionFactor boundKey
  linarith

/-- C199: a key switch adds at most what `evalRelinearize` adds: the products of the digits, as many
as groups of at most `dnum` of the `level + 1` moduli and one more, each at most half the special modulus `P`, with the errors of the key, divided by `P`, and the rounding of
both components. -/
theorem C199_keySwitch (p : Param) (hσ : 0 ≤ p.std0) {P : ℝ} (hP : 0 < P) (hd : 0 < p.dnum) {D : Nat}
    (hD : D ≤ (p.level + p.dnum) / p.dnum + 1)
    {c e : Nat → Nat → ℝ} {τ0 τ1 s : Nat → ℝ}
    (hc : ∀ d, d < D → ∀ i, i < p.ringDim → |c d i| ≤ P / 2)
    (he : ∀ d, d < D → ∀ i, i < p.ringDim → |e d i| ≤ 6 * p.std0)
    (h0 : ∀ i, i < p.ringDim → |τ0 i| ≤ 1 / 2) (h1 : ∀ i, i < p.ringDim → |τ1 i| ≤ 1 / 2)
    (hs : ∀ i, i < p.ringDim → |s i| ≤ 1) {k : Nat} (hk : k < p.ringDim) :
    |(∑ d ∈ range D, negacyclic p.ringDim (c d) (e d) k) / P + τ0 k + negacyclic p.ringDim τ1 s k|
      ≤ keySwitchNoise p := by
  have hD : (D : ℝ) ≤ numDigit p := by
    have hd' : (0 : ℝ) < p.dnum := by exact_mod_cast hd
    have h1 : (p.level + p.dnum) / p.dnum * p.dnum ≤ p.level + p.dnum := Nat.div_mul_le_self _ _
    generalize (p.level + p.dnum) / p.dnum = r at hD h1
    have h2 : (r : ℝ) * p.dnum ≤ p.level + p.dnum := by exact_mod_cast h1
    have g : (r : Int) ≤ ⌈((p.level + 1 : Nat) : ℝ) / p.dnum⌉ := by
      rw [← Int.sub_one_lt_iff, Int.lt_ceil, lt_div_iff₀ hd']
      push_cast
      linarith
    have g' : ((r : Int) : ℝ) ≤ (⌈((p.level + 1 : Nat) : ℝ) / p.dnum⌉ : ℝ) := Int.cast_le.2 g
    rw [Int.cast_natCast] at g'
    have h3 : (D : ℝ) ≤ (r : ℝ) + 1 := by exact_mod_cast hD
    unfold numDigit
    linarith
  have g1 : |∑ d ∈ range D, negacyclic p.ringDim (c d) (e d) k| ≤ D * (p.ringDim * (P / 2) * (6 * p.std0)) := by
    calc _ ≤ ∑ d ∈ range D, |negacyclic p.ringDim (c d) (e d) k| := abs_sum_le_sum_abs _ _
      _ ≤ ∑ _d ∈ range D, p.ringDim * (P / 2) * (6 * p.std0) :=
          sum_le_sum fun d hd => negacyclic_bound (by positivity) (hc d (mem_range.1 hd)) (by positivity)
            (he d (mem_range.1 hd)) hk
      _ = _ := by rw [sum_const, card_range, nsmul_eq_mul]
  have g2 : |(∑ d ∈ range D, negacyclic p.ringDim (c d) (e d) k) / P| ≤ D * (p.ringDim * (6 * p.std0) / 2) := by
    rw [abs_div, abs_of_pos hP, div_le_iff₀ hP]
    calc _ ≤ _ := g1
      _ = _ := by ring
  have g3 := negacyclic_bound (by norm_num) h1 zero_le_one hs hk
  have g4 := h0 k hk
  have g5 := abs_add_le ((∑ d ∈ range D, negacyclic p.ringDim (c d) (e d) k) / P + τ0 k)
    (negacyclic p.ringDim τ1 s k)
  have g6 := abs_add_le ((∑ d ∈ range D, negacyclic p.ringDim (c d) (e d) k) / P) (τ0 k)
  have g7 : (D : ℝ) * (p.ringDim * (6 * p.std0) / 2) ≤ numDigit p * (p.ringDim * (6 * p.std0) / 2) :=
    mul_le_mul_of_nonneg_right hD (by positivity)
  unfold keySwitchNoise boundErr expansionFactor boundKey
  have e1 : numDigit p * (p.ringDim : ℝ) * (p.std0 * 6) / 2 = numDigit p * (p.ringDim * (6 * p.std0) / 2) := by ring
  rw [e1]
  linarith

/-! ## Programs -/

theorem near_congr {Q t : Nat} {m ph ph' : Nat → Int} {B : ℝ} (h : Near Q t m ph B)
    (hc : ∀ i, ph' i ≡ ph i [ZMOD Q]) : Near Q t m ph' B := by
  intro i
  obtain ⟨k, hk⟩ := h i
  obtain ⟨c, hc⟩ := (hc i).symm.dvd
  refine ⟨k + c, ?_⟩
  have : (ph' i : ℝ) = ph i + Q * c := by
    have : ph' i = ph i + Q * c := by linarith
    rw [this]; push_cast; ring
  rw [this]; push_cast
  calc _ = |(ph i : ℝ) - (Q : ℝ) / t * m i - Q * k| := by congr 1; ring
    _ ≤ B := hk

/-- The slack of plaintext operands, whose rounding the analysis does not count. -/
noncomputable def slack (e : Prog) : ℝ := if e.isPlain then 1 / 2 else 0

theorem slack_le (e : Prog) : slack e ≤ 1 / 2 := by
  unfold slack; split <;> norm_num

theorem run_near {Q t : Nat} {p : Param} {e : Prog} {ph : Nat → Int} (hw : e.WF)
    (hr : Run Q t (evalEncrypt p) (keySwitchNoise p) e ph) : Near Q t e.message ph (analyse p e + slack e) := by
  induction hr with
  | input h => simpa [analyse, slack, Prog.isPlain, Prog.message] using h
  | plain h => simpa [analyse, slack, Prog.isPlain, Prog.message] using h
  | @add a b x y ph _ _ hc iha ihb =>
    refine near_congr (ph := fun i => x i + y i) (fun i => ?_) hc
    obtain ⟨k, hk⟩ := iha hw.1 i
    obtain ⟨l, hl⟩ := ihb hw.2 i
    refine ⟨k + l, ?_⟩
    have h := abs_add_le ((x i : ℝ) - (Q : ℝ) / t * a.message i - Q * k) ((y i : ℝ) - (Q : ℝ) / t * b.message i - Q * l)
    have e1 : ((x i + y i : Int) : ℝ) - (Q : ℝ) / t * ((a.message i + b.message i : Int) : ℝ) - Q * ((k + l : Int) : ℝ)
        = ((x i : ℝ) - (Q : ℝ) / t * a.message i - Q * k) + ((y i : ℝ) - (Q : ℝ) / t * b.message i - Q * l) := by
      push_cast; ring
    have := slack_le a
    have := slack_le b
    simp only [Prog.message, analyse, evalAdd]
    rw [e1, show slack (.add a b) = 0 from rfl]
    linarith
  | @sub a b x y ph _ _ hc iha ihb =>
    refine near_congr (ph := fun i => x i - y i) (fun i => ?_) hc
    obtain ⟨k, hk⟩ := iha hw.1 i
    obtain ⟨l, hl⟩ := ihb hw.2 i
    refine ⟨k - l, ?_⟩
    have h := abs_sub ((x i : ℝ) - (Q : ℝ) / t * a.message i - Q * k) ((y i : ℝ) - (Q : ℝ) / t * b.message i - Q * l)
    have e1 : ((x i - y i : Int) : ℝ) - (Q : ℝ) / t * ((a.message i - b.message i : Int) : ℝ) - Q * ((k - l : Int) : ℝ)
        = ((x i : ℝ) - (Q : ℝ) / t * a.message i - Q * k) - ((y i : ℝ) - (Q : ℝ) / t * b.message i - Q * l) := by
      push_cast; ring
    have := slack_le a
    have := slack_le b
    simp only [Prog.message, analyse, evalAdd]
    rw [e1, show slack (.sub a b) = 0 from rfl]
    linarith
  | @keySwitch σ s a x ph e _ he hc iha =>
    refine near_congr (ph := fun i => s i * x (σ i) + e i) (fun i => ?_) hc
    obtain ⟨hs, hpl, hwa⟩ := hw
    obtain ⟨k, hk⟩ := iha hwa (σ i)
    refine ⟨s i * k, ?_⟩
    have e1 : ((s i * x (σ i) + e i : Int) : ℝ) - (Q : ℝ) / t * ((s i * a.message (σ i) : Int) : ℝ)
          - Q * ((s i * k : Int) : ℝ)
        = (s i : ℝ) * ((x (σ i) : ℝ) - (Q : ℝ) / t * a.message (σ i) - Q * k) + e i := by
      push_cast; ring
    have h := abs_add_le ((s i : ℝ) * ((x (σ i) : ℝ) - (Q : ℝ) / t * a.message (σ i) - Q * k)) (e i)
    have hs1 : |(s i : ℝ)| = 1 := by rcases hs i with h | h <;> rw [h] <;> norm_num
    rw [abs_mul, hs1, one_mul] at h
    have he' := he i
    simp only [Prog.message, analyse, evalRelinearize]
    rw [e1, show slack (.keySwitch σ s a) = 0 from rfl]
    have : slack a = 0 := by simp [slack, hpl]
    linarith

/-- C199: without products, the analysis bounds the noise of every execution. -/
theorem C199_bound_partial {Q t : Nat} {p : Param} {e : Prog} {ph : Nat → Int} (hw : e.WF)
    (hct : e.isPlain = false) (hr : Run Q t (evalEncrypt p) (keySwitchNoise p) e ph) :
    Near Q t e.message ph (analyse p e) := by
  have := run_near hw hr
  rwa [show slack e = 0 by simp [slack, hct], add_zero] at this

theorem budget_pos_iff {Q t : Nat} (hQ : 0 < Q) (ht : 0 < t) {x : ℝ} (hx : 0 < x) :
    0 < toLogBudget Q t x ↔ x < Q / (2 * t) := by
  have hQ' : (0 : ℝ) < Q := by exact_mod_cast hQ
  have ht' : (0 : ℝ) < t := by exact_mod_cast ht
  have e : Real.logb 2 ((Q : ℝ) / (2 * t)) = toLogTotal Q t := by
    rw [Real.logb_div hQ'.ne' (by positivity), Real.logb_mul two_ne_zero ht'.ne',
      Real.logb_self_eq_one one_lt_two, toLogTotal]
    ring
  unfold toLogBudget
  rw [← e, sub_pos]
  exact Real.logb_lt_logb_iff one_lt_two hx (by positivity)

/-- C199: a value without products whose budget is positive decrypts to the message of the program. -/
theorem C199_decrypts_partial {Q t : Nat} (hQ : 0 < Q) (ht : 0 < t) {p : Param} {e : Prog} {ph : Nat → Int}
    (hw : e.WF) (hct : e.isPlain = false) (hr : Run Q t (evalEncrypt p) (keySwitchNoise p) e ph)
    (hpos : 0 < analyse p e) (hb : 0 < toLogBudget Q t (analyse p e)) (i : Nat) :
    decrypt Q t ph i ≡ e.message i [ZMOD t] := by
  obtain ⟨k, hk⟩ := C199_bound_partial hw hct hr i
  have hlt := lt_of_le_of_lt hk ((budget_pos_iff hQ ht hpos).1 hb)
  have hQ' : (0 : ℝ) < Q := by exact_mod_cast hQ
  have ht' : (0 : ℝ) < t := by exact_mod_cast ht
  set v := (ph i : ℝ) - (Q : ℝ) / t * e.message i - Q * k with hv
  have e1 : (t : ℝ) * ph i / Q = ((e.message i + t * k : Int) : ℝ) + t * v / Q := by
    have : (ph i : ℝ) = v + (Q : ℝ) / t * e.message i + Q * k := by rw [hv]; ring
    rw [this]; push_cast; field_simp; ring
  have e2 : |t * v / Q| < 1 / 2 := by
    rw [abs_div, abs_mul, abs_of_pos ht', abs_of_pos hQ', div_lt_iff₀ hQ']
    calc (t : ℝ) * |v| < t * (Q / (2 * t)) := mul_lt_mul_of_pos_left hlt ht'
      _ = 1 / 2 * Q := by field_simp
  have e3 : decrypt Q t ph i = e.message i + t * k := by
    unfold decrypt
    rw [e1, round_intCast_add]
    rw [show round ((t : ℝ) * v / Q) = 0 by
      rw [round_eq_zero_iff]
      obtain ⟨l, r⟩ := abs_lt.1 e2
      exact ⟨by linarith, r⟩]
    simp
  rw [e3]
  exact (Int.modEq_iff_dvd.2 ⟨-k, by ring⟩)

/-- Parameters of the examples: secret-key encryption. -/
noncomputable def sample : Param := ⟨4, 1, 0, 1, false, false⟩

/-- The hypotheses of `C199_fresh` and `C199_keySwitch` can be met, by errors and digits as large as they may be. -/
example : 0 ≤ sample.std0 ∧ 0 < sample.dnum ∧ 2 ≤ (sample.level + sample.dnum) / sample.dnum + 1 ∧
    (∀ i, i < sample.ringDim → |(fun _ => (6 : ℝ)) i| ≤ 6 * sample.std0) ∧
    (∀ i, i < sample.ringDim → |(fun i => if i = 0 then (1 : ℝ) else -1) i| ≤ 1) ∧
    (∀ i, i < sample.ringDim → |(fun _ => (-8 : ℝ)) i| ≤ 16 / 2) := by
  refine ⟨by norm_num [sample], by norm_num [sample], by norm_num [sample], fun i _ => by norm_num [sample],
    fun i _ => ?_, fun i _ => by norm_num⟩
  dsimp only
  split <;> norm_num

/-- The hypotheses can be met: an encryption of ones plus a plaintext of ones, modulo two. -/
example : ∃ (e : Prog) (ph : Nat → Int), e.WF ∧ e.isPlain = false ∧
    Run 1024 2 (evalEncrypt sample) (keySwitchNoise sample) e ph ∧ 0 < analyse sample e ∧
    0 < toLogBudget 1024 2 (analyse sample e) ∧ ph 0 = 5 ∧ e.message 0 = 2 := by
  have hpos : analyse sample (.add (.input fun _ => 1) (.plain fun _ => 1)) = 7 := by
    simp [analyse, evalAdd, evalEncrypt, evalEncryptSk, boundErr, sample]; norm_num
  refine ⟨.add (.input fun _ => 1) (.plain fun _ => 1), fun _ => 5, ⟨trivial, trivial⟩, rfl, ?_, ?_, ?_, rfl, rfl⟩
  · refine Run.add (x := fun _ => 517) (y := fun _ => 512) (Run.input fun i => ⟨0, ?_⟩)
      (Run.plain fun i => ⟨0, ?_⟩) fun i => by decide
    · simp [evalEncrypt, evalEncryptSk, boundErr, sample]; norm_num
    · norm_num
  · rw [hpos]; norm_num
  · rw [hpos, budget_pos_iff (by norm_num) (by norm_num) (by norm_num)]; norm_num

/-- C199 fails for ciphertexts scaled by the whole part of `Q / t`: two messages without any noise add up to a
ciphertext whose noise is the remainder of `Q`, more than the `0 + 0 + 1` of `evalAdd`. -/
theorem C199_violated_floor : ∃ (Q t : Nat) (m0 m1 : Int), 0 ≤ m0 ∧ m0 < t ∧ 0 ≤ m1 ∧ m1 < t ∧
    ∀ k : Int, evalAdd 0 0 <
      |(((Q / t : Nat) * m0 + (Q / t : Nat) * m1 - ((Q / t : Nat) * ((m0 + m1) % t)) - Q * k : Int) : ℝ)| := by
  refine ⟨107, 10, 9, 9, by norm_num, by norm_num, by norm_num, by norm_num, fun k => ?_⟩
  have h : (1 : Int) < |((107 / 10 : Nat) * 9 + (107 / 10 : Nat) * 9 - ((107 / 10 : Nat) * ((9 + 9) % (10 : Nat)))
      - (107 : Nat) * k : Int)| := by
    norm_num
    rw [lt_abs]
    omega
  unfold evalAdd
  rw [← Int.cast_abs]
  have := (Int.cast_lt (R := ℝ)).2 h
  rw [Int.cast_one] at this
  linarith

/-- C199 fails for fresh ciphertexts with a modulus that `t` does not divide: the rounding of the scaled message
comes on top of the error, and `evalEncrypt` leaves it out. -/
theorem C199_violated_rounding : ∃ (p : Param) (Q t : Nat) (m ph e : Nat → Int), p.extended = false ∧
    p.publicKey = false ∧ Near Q t m ph (1 / 2) ∧ (∀ i, |(e i : ℝ)| ≤ boundErr p) ∧
    ¬ Near Q t m (fun i => ph i + e i) (evalEncrypt p) := by
  refine ⟨⟨4, 1 / 2, 0, 1, false, false⟩, 101, 2, fun _ => 1, fun _ => 51, fun _ => 3, rfl, rfl,
    fun i => ⟨0, by norm_num [abs_of_pos]⟩, fun i => by norm_num [boundErr], fun h => ?_⟩
  obtain ⟨k, hk⟩ := h 0
  simp only [evalEncrypt, evalEncryptSk, boundErr, Bool.false_eq_true, if_false] at hk
  rw [abs_le] at hk
  obtain ⟨h1, h2⟩ := hk
  have a1 : (0 : ℝ) < k := by push_cast at h2; linarith
  have a2 : (k : ℝ) < 1 := by push_cast at h1; linarith
  have b1 : (0 : Int) < k := by exact_mod_cast a1
  have b2 : k < (1 : Int) := by exact_mod_cast a2
  omega

end Heir.BfvNoise
