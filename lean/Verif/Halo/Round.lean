import Verif.Halo.Lemmas3
import Mathlib.Tactic.Ring
import Mathlib.Tactic.NormNum
import Mathlib.Tactic.Positivity

/-! # Rounding to single precision -/

namespace Heir.Halo

/-- The distance of the floats around `n`. -/
def ulp (n : Nat) : Nat := 2 ^ (Nat.log 2 n - 23)

theorem flt_big {n : Nat} (h : 2 ^ 24 ≤ n) :
    (flt n = n / ulp n * ulp n ∧ 2 * (n % ulp n) ≤ ulp n ∧
      (2 * (n % ulp n) = ulp n → n / ulp n % 2 = 0)) ∨
    (flt n = (n / ulp n + 1) * ulp n ∧ ulp n ≤ 2 * (n % ulp n) ∧
      (2 * (n % ulp n) = ulp n → (n / ulp n + 1) % 2 = 0)) := by
  rw [flt, if_neg (by omega)]
  change ((if 2 * (n % ulp n) < ulp n then n / ulp n * ulp n
    else if ulp n < 2 * (n % ulp n) then (n / ulp n + 1) * ulp n
    else if n / ulp n % 2 = 0 then n / ulp n * ulp n else (n / ulp n + 1) * ulp n) = _ ∧ _) ∨
    ((if 2 * (n % ulp n) < ulp n then n / ulp n * ulp n
    else if ulp n < 2 * (n % ulp n) then (n / ulp n + 1) * ulp n
    else if n / ulp n % 2 = 0 then n / ulp n * ulp n else (n / ulp n + 1) * ulp n) = _ ∧ _)
  by_cases h1 : 2 * (n % ulp n) < ulp n
  · left; rw [if_pos h1]; exact ⟨rfl, by omega, by omega⟩
  · rw [if_neg h1]
    by_cases h2 : ulp n < 2 * (n % ulp n)
    · right; rw [if_pos h2]; exact ⟨rfl, by omega, by omega⟩
    · rw [if_neg h2]
      by_cases h3 : n / ulp n % 2 = 0
      · left; rw [if_pos h3]; exact ⟨rfl, by omega, fun _ => h3⟩
      · right; rw [if_neg h3]; exact ⟨rfl, by omega, by omega⟩

theorem log_ge {n : Nat} (h : 2 ^ 24 ≤ n) : 24 ≤ Nat.log 2 n :=
  (Nat.le_log_iff_pow_le (by norm_num) (by omega)).2 h

theorem ulp_mul {n : Nat} (h : 2 ^ 24 ≤ n) : 2 ^ 23 * ulp n = 2 ^ Nat.log 2 n := by
  have := log_ge h
  rw [ulp, ← pow_add]; congr 1; omega

theorem flt_between {n : Nat} (h : 2 ^ 24 ≤ n) :
    2 ^ Nat.log 2 n ≤ flt n ∧ flt n ≤ 2 ^ (Nat.log 2 n + 1) := by
  have hu : 0 < ulp n := by unfold ulp; positivity
  have hm := ulp_mul h
  have h1 : 2 ^ Nat.log 2 n ≤ n := Nat.pow_log_le_self 2 (by omega)
  have h2 : n < 2 ^ (Nat.log 2 n + 1) := Nat.lt_pow_succ_log_self (by norm_num) n
  have h3 : 2 ^ 23 ≤ n / ulp n := by rw [Nat.le_div_iff_mul_le hu]; omega
  have h4 : n / ulp n < 2 ^ 24 := by rw [Nat.div_lt_iff_lt_mul hu]; rw [pow_succ] at h2; omega
  have h5 : 2 ^ 23 * ulp n ≤ n / ulp n * ulp n := Nat.mul_le_mul_right _ h3
  have h6 : (n / ulp n + 1) * ulp n ≤ 2 ^ 24 * ulp n := Nat.mul_le_mul_right _ h4
  have h7 : (n / ulp n + 1) * ulp n = n / ulp n * ulp n + ulp n := by ring
  have h8 : 2 ^ (Nat.log 2 n + 1) = 2 ^ 24 * ulp n := by rw [pow_succ, ← hm]; ring
  rcases flt_big h with ⟨h, _⟩ | ⟨h, _⟩ <;> rw [h] <;> omega

theorem flt_mono {a b : Nat} (h : a ≤ b) : flt a ≤ flt b := by
  by_cases hb : b < 2 ^ 24
  · rw [flt_small (by omega), flt_small (by omega)]; exact h
  · have hb' : 2 ^ 24 ≤ b := by omega
    have hbb := flt_between hb'
    by_cases ha : a < 2 ^ 24
    · rw [flt_small (by omega)]
      have : 2 ^ 24 ≤ 2 ^ Nat.log 2 b := Nat.pow_le_pow_right (by norm_num) (log_ge hb')
      omega
    · have ha' : 2 ^ 24 ≤ a := by omega
      have hab := flt_between ha'
      rcases Nat.lt_or_ge (Nat.log 2 a) (Nat.log 2 b) with hl | hl
      · have : 2 ^ (Nat.log 2 a + 1) ≤ 2 ^ Nat.log 2 b := Nat.pow_le_pow_right (by norm_num) hl
        omega
      · have hl : Nat.log 2 a = Nat.log 2 b := le_antisymm (Nat.log_mono_right h) hl
        have hu : ulp a = ulp b := by rw [ulp, ulp, hl]
        have hq : a / ulp b ≤ b / ulp b := Nat.div_le_div_right h
        have e1 := Nat.div_add_mod a (ulp b)
        have e2 := Nat.div_add_mod b (ulp b)
        have fa := flt_big ha'
        have fb := flt_big hb'
        rw [hu] at fa
        rcases Nat.lt_or_eq_of_le hq with hq | hq
        · have h5 : (a / ulp b + 1) * ulp b ≤ b / ulp b * ulp b := Nat.mul_le_mul_right _ hq
          have h6 : (a / ulp b + 1) * ulp b = a / ulp b * ulp b + ulp b := by ring
          have h7 : (b / ulp b + 1) * ulp b = b / ulp b * ulp b + ulp b := by ring
          rcases fa with ⟨h1, _⟩ | ⟨h1, _⟩ <;> rcases fb with ⟨h2, _⟩ | ⟨h2, _⟩ <;> omega
        · rw [hq] at fa e1
          have h7 : (b / ulp b + 1) * ulp b = b / ulp b * ulp b + ulp b := by ring
          rcases fa with ⟨h1, h3, h4⟩ | ⟨h1, h3, h4⟩ <;> rcases fb with ⟨h2, h5, h6⟩ | ⟨h2, h5, h6⟩ <;> omega

end Heir.Halo
