import Verif.NTT.Spec
import Mathlib.Tactic.Ring
import Mathlib.Tactic.LinearCombination
import Mathlib.Tactic.Linarith
import Mathlib.Algebra.BigOperators.Ring.Finset

/-! # The butterfly recursions over a commutative ring -/

namespace Heir.NTT

open Finset

variable {R : Type} [CommRing R]

theorem bitrev_succ (k p : Nat) : bitrev (k + 1) p = 2 * bitrev k p + p / 2 ^ k % 2 := by
  unfold bitrev
  rw [sum_range_succ, mul_sum]
  congr 1
  · apply sum_congr rfl
    intro i hi
    have := mem_range.1 hi
    rw [show k + 1 - 1 - i = (k - 1 - i) + 1 by omega, pow_succ]; ring
  · simp

theorem bitrev_succ' (k p : Nat) : bitrev (k + 1) p = bitrev k (p / 2) + (p % 2) * 2 ^ k := by
  unfold bitrev
  rw [sum_range_succ']
  congr 1
  · apply sum_congr rfl
    intro i hi
    have := mem_range.1 hi
    rw [show k + 1 - 1 - (i + 1) = k - 1 - i by omega, pow_succ, Nat.div_div_eq_div_mul, mul_comm 2]
  · simp

theorem bitrev_lt (k p : Nat) : bitrev k p < 2 ^ k := by
  induction k with
  | zero => simp [bitrev]
  | succ k ih => rw [bitrev_succ, pow_succ]; omega

theorem bitrev_add_mul (k p g : Nat) : bitrev k (g * 2 ^ k + p) = bitrev k p := by
  unfold bitrev
  apply sum_congr rfl
  intro i hi
  have hik := mem_range.1 hi
  congr 1
  have : 2 ^ k = 2 ^ i * (2 * 2 ^ (k - i - 1)) := by
    rw [← pow_succ', ← pow_add]; congr 1; omega
  rw [this, show g * (2 ^ i * (2 * 2 ^ (k - i - 1))) + p
    = p + 2 ^ i * (2 * (g * 2 ^ (k - i - 1))) by ring,
    Nat.add_mul_div_left _ _ (Nat.two_pow_pos _), Nat.add_mul_mod_self_left]

theorem bitrev_bitrev (k p : Nat) (hp : p < 2 ^ k) : bitrev k (bitrev k p) = p := by
  induction k generalizing p with
  | zero => simp [bitrev] at *; omega
  | succ k ih =>
    rw [bitrev_succ', bitrev_succ k p]
    rw [show (2 * bitrev k p + p / 2 ^ k % 2) / 2 = bitrev k p by omega,
      show (2 * bitrev k p + p / 2 ^ k % 2) % 2 = p / 2 ^ k % 2 by omega]
    have h1 : p / 2 ^ k < 2 := by
      rw [Nat.div_lt_iff_lt_mul (Nat.two_pow_pos _)]; rw [pow_succ] at hp; omega
    have h2 := Nat.div_add_mod p (2 ^ k)
    have h3 : bitrev k p = bitrev k (p % 2 ^ k) := by
      conv_lhs => rw [← h2, mul_comm]
      exact bitrev_add_mul _ _ _
    rw [h3, ih _ (Nat.mod_lt _ (Nat.two_pow_pos _)), Nat.mod_eq_of_lt h1]
    linarith [mul_comm (2 ^ k) (p / 2 ^ k)]

/-! ## Gentleman–Sande stage of `nttInPlace` and its inverse -/

/-- Effect of one forward stage. -/
def gsStage (psi : R) (s ng : Nat) (A : Nat → R) (p : Nat) : R :=
  if p % (2 * s) < s then A p + A (p + s)
  else (A (p - s) - A p) * psi ^ (2 * (p % (2 * s) - s) * ng)

/-- Stages with spans `2^(k-1), …, 1`. -/
def gsRun (psi : R) : Nat → Nat → (Nat → R) → Nat → R
  | 0, _, A => A
  | k + 1, ng, A => gsRun psi k (2 * ng) (gsStage psi (2 ^ k) ng A)

/-- Effect of one inverse stage. -/
def ctStage (phi : R) (s ng : Nat) (A : Nat → R) (p : Nat) : R :=
  if p % (2 * s) < s then A p + A (p + s) * phi ^ (2 * (p % (2 * s)) * ng)
  else A (p - s) - A p * phi ^ (2 * (p % (2 * s) - s) * ng)

/-- Stages with spans `1, …, 2^(k-1)`. -/
def ctRun (phi : R) : Nat → Nat → (Nat → R) → Nat → R
  | 0, _, A => A
  | k + 1, ng, A => ctStage phi (2 ^ k) ng (ctRun phi k (2 * ng) A)

theorem sum_range_two_mul_half (h : Nat) (f : Nat → R) :
    ∑ i ∈ range (2 * h), f i = ∑ i ∈ range h, (f i + f (h + i)) := by
  rw [two_mul, sum_range_add, sum_add_distrib]

theorem sum_range_even_odd (h : Nat) (f : Nat → R) :
    ∑ i ∈ range (2 * h), f i = ∑ i ∈ range h, (f (2 * i) + f (2 * i + 1)) := by
  induction h with
  | zero => simp
  | succ h ih =>
    rw [show 2 * (h + 1) = 2 * h + 1 + 1 by ring, sum_range_succ, sum_range_succ, ih, sum_range_succ]
    ring

theorem gsRun_eq (psi : R) (k : Nat) : ∀ (ng g p : Nat) (A : Nat → R), p < 2 ^ k →
    (k = 0 ∨ psi ^ (ng * 2 ^ k) = -1) →
    gsRun psi k ng A (g * 2 ^ k + p)
      = ∑ i ∈ range (2 ^ k), A (g * 2 ^ k + i) * psi ^ (2 * (ng * i * bitrev k p)) := by
  induction k with
  | zero =>
    intro ng g p A hp _
    have : p = 0 := by simpa using hp
    subst this; simp [gsRun, bitrev]
  | succ k ih =>
    intro ng g p A hp hr
    have hr : psi ^ (ng * 2 ^ (k + 1)) = -1 := by rcases hr with h | h; · omega
                                                  · exact h
    have hr' : psi ^ (2 * ng * 2 ^ k) = -1 := by rw [← hr, pow_succ]; ring_nf
    have hpos : 0 < 2 ^ k := Nat.two_pow_pos _
    have h2k : 2 ^ (k + 1) = 2 * 2 ^ k := by rw [pow_succ]; ring
    rw [gsRun, h2k, sum_range_two_mul_half]
    by_cases hlt : p < 2 ^ k
    · rw [show g * (2 * 2 ^ k) + p = (2 * g) * 2 ^ k + p by ring, ih _ _ _ _ hlt (Or.inr hr')]
      have hb : bitrev (k + 1) p = 2 * bitrev k p := by
        rw [bitrev_succ, Nat.div_eq_of_lt hlt]; simp
      apply sum_congr rfl
      intro i hi
      have hik := mem_range.1 hi
      have hm : ((2 * g) * 2 ^ k + i) % (2 * 2 ^ k) = i := by
        rw [show (2 * g) * 2 ^ k + i = i + (2 * 2 ^ k) * g by ring, Nat.add_mul_mod_self_left]
        exact Nat.mod_eq_of_lt (by omega)
      have e1 : psi ^ (2 * (ng * (2 ^ k + i) * (2 * bitrev k p)))
          = psi ^ (2 * (2 * ng * i * bitrev k p)) := by
        rw [show 2 * (ng * (2 ^ k + i) * (2 * bitrev k p))
          = (2 * ng * 2 ^ k) * (2 * bitrev k p) + 2 * (2 * ng * i * bitrev k p) by ring,
          pow_add, pow_mul, hr', pow_mul]; simp
      rw [gsStage, hm, if_pos hik, hb, e1,
        show 2 * (ng * i * (2 * bitrev k p)) = 2 * (2 * ng * i * bitrev k p) by ring,
        show g * (2 * 2 ^ k) + i = 2 * g * 2 ^ k + i by ring,
        show g * (2 * 2 ^ k) + (2 ^ k + i) = 2 * g * 2 ^ k + i + 2 ^ k by ring]
      ring
    · obtain ⟨p', rfl⟩ : ∃ p', p = 2 ^ k + p' := ⟨p - 2 ^ k, by omega⟩
      have hp' : p' < 2 ^ k := by omega
      rw [show g * (2 * 2 ^ k) + (2 ^ k + p') = (2 * g + 1) * 2 ^ k + p' by ring,
        ih _ _ _ _ hp' (Or.inr hr')]
      have hb : bitrev (k + 1) (2 ^ k + p') = 2 * bitrev k p' + 1 := by
        rw [bitrev_succ, Nat.add_div_left _ hpos, Nat.div_eq_of_lt hp',
          show 2 ^ k + p' = 1 * 2 ^ k + p' by ring, bitrev_add_mul]
      apply sum_congr rfl
      intro i hi
      have hik := mem_range.1 hi
      have hm : ((2 * g + 1) * 2 ^ k + i) % (2 * 2 ^ k) = 2 ^ k + i := by
        rw [show (2 * g + 1) * 2 ^ k + i = (2 ^ k + i) + (2 * 2 ^ k) * g by ring,
          Nat.add_mul_mod_self_left]
        exact Nat.mod_eq_of_lt (by omega)
      have e1 : psi ^ (2 * (ng * (2 ^ k + i) * (2 * bitrev k p' + 1)))
          = - psi ^ (2 * (ng * i * (2 * bitrev k p' + 1))) := by
        rw [show 2 * (ng * (2 ^ k + i) * (2 * bitrev k p' + 1))
          = (2 * ng * 2 ^ k) * (2 * bitrev k p' + 1) + 2 * (ng * i * (2 * bitrev k p' + 1)) by ring,
          pow_add, pow_mul, hr', pow_succ, pow_mul]; simp
      rw [gsStage, hm, if_neg (by omega), hb, e1,
        show 2 ^ k + i - 2 ^ k = i by omega,
        show (2 * g + 1) * 2 ^ k + i - 2 ^ k = g * (2 * 2 ^ k) + i by
          rw [show (2 * g + 1) * 2 ^ k + i = g * (2 * 2 ^ k) + i + 2 ^ k by ring]; omega,
        show g * (2 * 2 ^ k) + (2 ^ k + i) = (2 * g + 1) * 2 ^ k + i by ring,
        show 2 * (ng * i * (2 * bitrev k p' + 1)) = 2 * i * ng + 2 * (2 * ng * i * bitrev k p') by ring,
        pow_add]
      ring

theorem mod_add_half {p s : Nat} (hs : 0 < s) (h : p % (2 * s) < s) :
    (p + s) % (2 * s) = p % (2 * s) + s := by
  have := Nat.div_add_mod p (2 * s)
  rw [show p + s = (p % (2 * s) + s) + 2 * s * (p / (2 * s)) by omega, Nat.add_mul_mod_self_left]
  exact Nat.mod_eq_of_lt (by omega)

theorem mod_sub_half {p s : Nat} (hs : 0 < s) (h : ¬ p % (2 * s) < s) :
    s ≤ p ∧ (p - s) % (2 * s) = p % (2 * s) - s := by
  have h1 := Nat.div_add_mod p (2 * s)
  have h2 := Nat.mod_lt p (show 0 < 2 * s by omega)
  have h3 : s ≤ p := by have := Nat.mod_le p (2 * s); omega
  refine ⟨h3, ?_⟩
  rw [show p - s = (p % (2 * s) - s) + 2 * s * (p / (2 * s)) by omega, Nat.add_mul_mod_self_left]
  exact Nat.mod_eq_of_lt (by omega)

theorem ctStage_gsStage {psi phi : R} (h : psi * phi = 1) (s ng : Nat) (hs : 0 < s) (A : Nat → R) :
    ctStage phi s ng (gsStage psi s ng A) = fun p => 2 * A p := by
  have hpow : ∀ e, psi ^ e * phi ^ e = 1 := fun e => by rw [← mul_pow, h, one_pow]
  funext p
  unfold ctStage
  split
  · rename_i hlt
    have hm := mod_add_half hs hlt
    have hm2 : (p + s) % (2 * s) - s = p % (2 * s) := by omega
    rw [gsStage, if_pos hlt, gsStage, if_neg (by omega), hm2, Nat.add_sub_cancel, mul_assoc, hpow]
    ring
  · rename_i hge
    obtain ⟨h1, h2⟩ := mod_sub_half hs hge
    have h3 := Nat.mod_lt p (show 0 < 2 * s by omega)
    rw [gsStage, if_pos (by omega), gsStage, if_neg hge, mul_assoc, hpow, Nat.sub_add_cancel h1]
    ring

theorem gsStage_ctStage {psi phi : R} (h : psi * phi = 1) (s ng : Nat) (hs : 0 < s) (A : Nat → R) :
    gsStage psi s ng (ctStage phi s ng A) = fun p => 2 * A p := by
  have hpow : ∀ e, phi ^ e * psi ^ e = 1 := fun e => by rw [← mul_pow, mul_comm phi, h, one_pow]
  funext p
  unfold gsStage
  split
  · rename_i hlt
    have hm := mod_add_half hs hlt
    have hm2 : (p + s) % (2 * s) - s = p % (2 * s) := by omega
    rw [ctStage, if_pos hlt, ctStage, if_neg (by omega), hm2, Nat.add_sub_cancel]
    ring
  · rename_i hge
    obtain ⟨h1, h2⟩ := mod_sub_half hs hge
    have h3 := Nat.mod_lt p (show 0 < 2 * s by omega)
    rw [ctStage, if_pos (by omega), ctStage, if_neg hge, Nat.sub_add_cancel h1, h2]
    have := hpow (2 * (p % (2 * s) - s) * ng)
    linear_combination 2 * A p * this

theorem ctStage_smul (phi c : R) (s ng : Nat) (A : Nat → R) :
    ctStage phi s ng (fun p => c * A p) = fun p => c * ctStage phi s ng A p := by
  funext p; unfold ctStage; split <;> ring

theorem gsRun_smul (psi c : R) (k : Nat) : ∀ ng (A : Nat → R),
    gsRun psi k ng (fun p => c * A p) = fun p => c * gsRun psi k ng A p := by
  induction k with
  | zero => intro ng A; rfl
  | succ k ih =>
    intro ng A
    show gsRun psi k (2 * ng) _ = fun p => c * gsRun psi k (2 * ng) (gsStage psi (2 ^ k) ng A) p
    rw [← ih]
    congr 1
    funext p; unfold gsStage; split <;> ring

theorem ctRun_gsRun {psi phi : R} (h : psi * phi = 1) (k : Nat) : ∀ ng (A : Nat → R),
    ctRun phi k ng (gsRun psi k ng A) = fun p => 2 ^ k * A p := by
  induction k with
  | zero => intro ng A; funext p; simp [ctRun, gsRun]
  | succ k ih =>
    intro ng A
    rw [ctRun, gsRun, ih, ctStage_smul, ctStage_gsStage h _ _ (Nat.two_pow_pos _)]
    funext p; rw [pow_succ]; ring

theorem gsRun_ctRun {psi phi : R} (h : psi * phi = 1) (k : Nat) : ∀ ng (A : Nat → R),
    gsRun psi k ng (ctRun phi k ng A) = fun p => 2 ^ k * A p := by
  induction k with
  | zero => intro ng A; funext p; simp [ctRun, gsRun]
  | succ k ih =>
    intro ng A
    rw [ctRun, gsRun, gsStage_ctStage h _ _ (Nat.two_pow_pos _), gsRun_smul, ih]
    funext p; rw [pow_succ]; ring

/-! ## The emitted loops -/

/-- Effect of one emitted forward (Cooley–Tukey) stage. -/
def emCT (psi : R) (s r : Nat) (A : Nat → R) (p : Nat) : R :=
  if p % (2 * s) < s then A p + A (p + s) * psi ^ ((2 * (p % (2 * s)) + 1) * r)
  else A (p - s) - A p * psi ^ ((2 * (p % (2 * s) - s) + 1) * r)

/-- Emitted forward stages with half batch sizes `1, …, 2^(k-1)`. -/
def emCTRun (psi : R) : Nat → Nat → (Nat → R) → Nat → R
  | 0, _, A => A
  | k + 1, r, A => emCT psi (2 ^ k) r (emCTRun psi k (2 * r) A)

/-- Effect of one emitted inverse (Gentleman–Sande) stage. -/
def emGS (phi : R) (s r : Nat) (A : Nat → R) (p : Nat) : R :=
  if p % (2 * s) < s then A p + A (p + s)
  else (A (p - s) - A p) * phi ^ ((2 * (p % (2 * s) - s) + 1) * r)

/-- Emitted inverse stages with half batch sizes `2^(k-1), …, 1`. -/
def emGSRun (phi : R) : Nat → Nat → (Nat → R) → Nat → R
  | 0, _, A => A
  | k + 1, r, A => emGSRun phi k (2 * r) (emGS phi (2 ^ k) r A)

theorem emCTRun_eq (psi : R) (k : Nat) : ∀ (r g p : Nat) (A : Nat → R), p < 2 ^ k →
    (k = 0 ∨ psi ^ (r * 2 ^ k) = -1) →
    emCTRun psi k r A (g * 2 ^ k + p)
      = ∑ i ∈ range (2 ^ k), A (g * 2 ^ k + bitrev k i) * psi ^ (r * i * (2 * p + 1)) := by
  induction k with
  | zero =>
    intro r g p A hp _
    have : p = 0 := by simpa using hp
    subst this; simp [emCTRun, bitrev]
  | succ k ih =>
    intro r g p A hp hr
    have hr : psi ^ (r * 2 ^ (k + 1)) = -1 := by rcases hr with h | h; · omega
                                                 · exact h
    have hr' : psi ^ (2 * r * 2 ^ k) = -1 := by rw [← hr, pow_succ]; ring_nf
    have hpos : 0 < 2 ^ k := Nat.two_pow_pos _
    have h2k : 2 ^ (k + 1) = 2 * 2 ^ k := by rw [pow_succ]; ring
    have hb0 : ∀ i, bitrev (k + 1) (2 * i) = bitrev k i := by
      intro i; rw [bitrev_succ']; simp
    have hb1 : ∀ i, bitrev (k + 1) (2 * i + 1) = bitrev k i + 2 ^ k := by
      intro i
      rw [bitrev_succ', show (2 * i + 1) / 2 = i by omega, show (2 * i + 1) % 2 = 1 by omega, one_mul]
    rw [emCTRun, h2k, sum_range_even_odd]
    simp only [hb0, hb1]
    have key : ∀ h p', p' < 2 ^ k → emCTRun psi k (2 * r) A ((2 * g + h) * 2 ^ k + p')
        = ∑ i ∈ range (2 ^ k), A ((2 * g + h) * 2 ^ k + bitrev k i)
            * psi ^ (2 * r * i * (2 * p' + 1)) := fun h p' hp' => ih _ _ _ _ hp' (Or.inr hr')
    by_cases hlt : p < 2 ^ k
    · have hm : (g * (2 * 2 ^ k) + p) % (2 * 2 ^ k) = p := by
        rw [show g * (2 * 2 ^ k) + p = p + (2 * 2 ^ k) * g by ring, Nat.add_mul_mod_self_left]
        exact Nat.mod_eq_of_lt (by omega)
      rw [emCT, hm, if_pos hlt,
        show g * (2 * 2 ^ k) + p + 2 ^ k = (2 * g + 1) * 2 ^ k + p by ring,
        show g * (2 * 2 ^ k) + p = (2 * g + 0) * 2 ^ k + p by ring, key _ _ hlt, key _ _ hlt,
        sum_mul, ← sum_add_distrib]
      apply sum_congr rfl
      intro i _
      rw [show (2 * g + 0) * 2 ^ k + bitrev k i = g * (2 * 2 ^ k) + bitrev k i by ring,
        show (2 * g + 1) * 2 ^ k + bitrev k i = g * (2 * 2 ^ k) + (bitrev k i + 2 ^ k) by ring,
        show r * (2 * i) * (2 * p + 1) = 2 * r * i * (2 * p + 1) by ring,
        show r * (2 * i + 1) * (2 * p + 1) = 2 * r * i * (2 * p + 1) + (2 * p + 1) * r by ring, pow_add]
      ring
    · obtain ⟨p', rfl⟩ : ∃ p', p = 2 ^ k + p' := ⟨p - 2 ^ k, by omega⟩
      have hp' : p' < 2 ^ k := by omega
      have hm : (g * (2 * 2 ^ k) + (2 ^ k + p')) % (2 * 2 ^ k) = 2 ^ k + p' := by
        rw [show g * (2 * 2 ^ k) + (2 ^ k + p') = (2 ^ k + p') + (2 * 2 ^ k) * g by ring,
          Nat.add_mul_mod_self_left]
        exact Nat.mod_eq_of_lt (by omega)
      rw [emCT, hm, if_neg (by omega), show 2 ^ k + p' - 2 ^ k = p' by omega,
        show g * (2 * 2 ^ k) + (2 ^ k + p') - 2 ^ k = (2 * g + 0) * 2 ^ k + p' by
          rw [show g * (2 * 2 ^ k) + (2 ^ k + p') = (2 * g + 0) * 2 ^ k + p' + 2 ^ k by ring]; omega,
        show g * (2 * 2 ^ k) + (2 ^ k + p') = (2 * g + 1) * 2 ^ k + p' by ring,
        key _ _ hp', key _ _ hp', sum_mul, ← sum_sub_distrib]
      apply sum_congr rfl
      intro i _
      have e0 : psi ^ (r * (2 * i) * (2 * (2 ^ k + p') + 1)) = psi ^ (2 * r * i * (2 * p' + 1)) := by
        rw [show r * (2 * i) * (2 * (2 ^ k + p') + 1)
          = (2 * r * 2 ^ k) * (2 * i) + 2 * r * i * (2 * p' + 1) by ring,
          pow_add, pow_mul, hr', pow_mul]; simp
      have e1 : psi ^ (r * (2 * i + 1) * (2 * (2 ^ k + p') + 1))
          = - (psi ^ (2 * r * i * (2 * p' + 1)) * psi ^ ((2 * p' + 1) * r)) := by
        rw [show r * (2 * i + 1) * (2 * (2 ^ k + p') + 1)
          = (2 * r * 2 ^ k) * (2 * i + 1) + (2 * r * i * (2 * p' + 1) + (2 * p' + 1) * r) by ring,
          pow_add, pow_mul, hr', pow_succ, pow_mul, pow_add]; simp
      rw [e0, e1,
        show (2 * g + 0) * 2 ^ k + bitrev k i = g * (2 * 2 ^ k) + bitrev k i by ring,
        show (2 * g + 1) * 2 ^ k + bitrev k i = g * (2 * 2 ^ k) + (bitrev k i + 2 ^ k) by ring]
      ring

theorem emGS_emCT {psi phi : R} (h : psi * phi = 1) (s r : Nat) (hs : 0 < s) (A : Nat → R) :
    emGS phi s r (emCT psi s r A) = fun p => 2 * A p := by
  have hpow : ∀ e, psi ^ e * phi ^ e = 1 := fun e => by rw [← mul_pow, h, one_pow]
  funext p
  unfold emGS
  split
  · rename_i hlt
    have hm := mod_add_half hs hlt
    have hm2 : (p + s) % (2 * s) - s = p % (2 * s) := by omega
    rw [emCT, if_pos hlt, emCT, if_neg (by omega), hm2, Nat.add_sub_cancel]
    ring
  · rename_i hge
    obtain ⟨h1, h2⟩ := mod_sub_half hs hge
    have h3 := Nat.mod_lt p (show 0 < 2 * s by omega)
    rw [emCT, if_pos (by omega), emCT, if_neg hge, Nat.sub_add_cancel h1, h2]
    have := hpow ((2 * (p % (2 * s) - s) + 1) * r)
    linear_combination 2 * A p * this

theorem emGSRun_smul (phi c : R) (k : Nat) : ∀ r (A : Nat → R),
    emGSRun phi k r (fun p => c * A p) = fun p => c * emGSRun phi k r A p := by
  induction k with
  | zero => intro r A; rfl
  | succ k ih =>
    intro r A
    show emGSRun phi k (2 * r) _ = fun p => c * emGSRun phi k (2 * r) (emGS phi (2 ^ k) r A) p
    rw [← ih]
    congr 1
    funext p; unfold emGS; split <;> ring

theorem emGSRun_emCTRun {psi phi : R} (h : psi * phi = 1) (k : Nat) : ∀ r (A : Nat → R),
    emGSRun phi k r (emCTRun psi k r A) = fun p => 2 ^ k * A p := by
  induction k with
  | zero => intro r A; funext p; simp [emGSRun, emCTRun]
  | succ k ih =>
    intro r A
    rw [emCTRun, emGSRun, emGS_emCT h _ _ (Nat.two_pow_pos _), emGSRun_smul, ih]
    funext p; rw [pow_succ]; ring

theorem emCT_emGS {psi phi : R} (h : psi * phi = 1) (s r : Nat) (hs : 0 < s) (A : Nat → R) :
    emCT psi s r (emGS phi s r A) = fun p => 2 * A p := by
  have hpow : ∀ e, phi ^ e * psi ^ e = 1 := fun e => by rw [← mul_pow, mul_comm phi, h, one_pow]
  funext p
  unfold emCT
  split
  · rename_i hlt
    have hm := mod_add_half hs hlt
    have hm2 : (p + s) % (2 * s) - s = p % (2 * s) := by omega
    rw [emGS, if_pos hlt, emGS, if_neg (by omega), hm2, Nat.add_sub_cancel, mul_assoc, hpow]
    ring
  · rename_i hge
    obtain ⟨h1, h2⟩ := mod_sub_half hs hge
    have h3 := Nat.mod_lt p (show 0 < 2 * s by omega)
    rw [emGS, if_pos (by omega), emGS, if_neg hge, Nat.sub_add_cancel h1, mul_assoc, hpow]
    ring

theorem emCTRun_smul (psi c : R) (k : Nat) : ∀ r (A : Nat → R),
    emCTRun psi k r (fun p => c * A p) = fun p => c * emCTRun psi k r A p := by
  induction k with
  | zero => intro r A; rfl
  | succ k ih =>
    intro r A
    rw [emCTRun, ih]
    funext p
    rw [emCTRun]
    unfold emCT; split <;> ring

theorem emCTRun_emGSRun {psi phi : R} (h : psi * phi = 1) (k : Nat) : ∀ r (A : Nat → R),
    emCTRun psi k r (emGSRun phi k r A) = fun p => 2 ^ k * A p := by
  induction k with
  | zero => intro r A; funext p; simp [emGSRun, emCTRun]
  | succ k ih =>
    intro r A
    have e : emCTRun psi k (2 * r) (emGSRun phi (k + 1) r A)
        = fun p => 2 ^ k * emGS phi (2 ^ k) r A p := by rw [emGSRun, ih]
    rw [emCTRun, e]
    funext p
    have := congrFun (emCT_emGS h (2 ^ k) r (Nat.two_pow_pos _) A) p
    rw [show (fun p => (2 : R) ^ k * emGS phi (2 ^ k) r A p)
      = fun p => (2 : R) ^ k * emGS phi (2 ^ k) r A p from rfl]
    have e2 : emCT psi (2 ^ k) r (fun p => (2 : R) ^ k * emGS phi (2 ^ k) r A p) p
        = 2 ^ k * emCT psi (2 ^ k) r (emGS phi (2 ^ k) r A) p := by
      unfold emCT; split <;> ring
    rw [e2, this, pow_succ]; ring

/-! ## Negacyclic products -/

/-- Evaluation at a root of `X^n + 1` is multiplicative for the negacyclic product. -/
theorem evalAt_negacyclic (n : Nat) (a b : Nat → R) (x : R) (hx : x ^ n = -1) :
    evalAt n (negacyclic n a b) x = evalAt n a x * evalAt n b x := by
  unfold evalAt negacyclic
  rw [sum_mul_sum]
  simp_rw [sum_mul]
  rw [sum_comm]
  apply sum_congr rfl
  intro i hi
  rw [sum_comm]
  apply sum_congr rfl
  intro j hj
  have hi' := mem_range.1 hi
  have hj' := mem_range.1 hj
  by_cases hlt : i + j < n
  · rw [sum_eq_single (i + j)]
    · rw [if_pos rfl, pow_add]; ring
    · intro k _ hk
      rw [if_neg (Ne.symm hk), if_neg (by omega), zero_mul]
    · intro h; exact absurd (mem_range.2 hlt) h
  · rw [sum_eq_single (i + j - n)]
    · rw [if_neg (by omega), if_pos (by omega)]
      have : x ^ i * x ^ j = x ^ (i + j - n) * -1 := by
        rw [← pow_add, ← hx, ← pow_add]; congr 1; omega
      linear_combination -(a i * b j) * this
    · intro k hk hne
      have := mem_range.1 hk
      rw [if_neg (by omega), if_neg (by omega), zero_mul]
    · intro h; exact absurd (mem_range.2 (by omega)) h

end Heir.NTT
