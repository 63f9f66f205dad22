import Verif.Layout.Model
import Mathlib.Tactic.Linarith
import Mathlib.Tactic.Ring
import Mathlib.Tactic.FieldSimp
import Mathlib.Tactic.Positivity
import Mathlib.Tactic.NormNum

/-! # The ciphertext bound computed in binary32 -/

namespace Heir.Layout

theorem roundHalfEven_int (k : Int) : roundHalfEven (k : ℚ) = k := by
  simp [roundHalfEven]

theorem roundHalfEven_le {y : ℚ} {k : Int} (h : y ≤ k) : roundHalfEven y ≤ k := by
  unfold roundHalfEven
  have hf := Int.floor_le y
  have hfk : ⌊y⌋ ≤ k := by exact_mod_cast hf.trans h
  by_cases h1 : y - (⌊y⌋ : ℚ) < 1 / 2
  · simp only [if_pos h1]; exact hfk
  · have : ⌊y⌋ ≠ k := by
      intro e
      apply h1
      rw [e]; linarith
    have : ⌊y⌋ + 1 ≤ k := by omega
    simp only [if_neg h1]
    split
    · exact this
    · split
      · exact hfk
      · exact this

theorem roundHalfEven_ge (y : ℚ) : y - 1 / 2 ≤ (roundHalfEven y : ℚ) := by
  unfold roundHalfEven
  have hf := Int.lt_floor_add_one y
  by_cases h1 : y - (⌊y⌋ : ℚ) < 1 / 2
  · simp only [if_pos h1]; linarith
  · simp only [if_neg h1]
    split
    · push_cast; linarith
    · rename_i h2
      split
      · linarith
      · push_cast; linarith

theorem log_le_of_lt {x : ℚ} (hx : 0 < x) {k : Nat} (h : x < 2 ^ k) : Int.log 2 x ≤ k - 1 := by
  have : Int.log 2 x < k := by
    rw [← Int.lt_zpow_iff_log_lt (by omega) hx]
    exact_mod_cast h
  omega

theorem f32_nat {n : Nat} (hn : n ≤ 2 ^ 24) : f32 n = n := by
  unfold f32
  split
  · rename_i h
    obtain hlt | heq := Nat.lt_or_eq_of_le hn
    · have hl := log_le_of_lt h (k := 24) (by exact_mod_cast hlt)
      obtain ⟨m, hm⟩ := Int.eq_ofNat_of_zero_le (show 0 ≤ -(Int.log 2 (n : ℚ) - 23) by push_cast at hl; omega)
      have he : Int.log 2 (n : ℚ) - 23 = -(m : Int) := by omega
      rw [he, zpow_neg, zpow_natCast, div_inv_eq_mul]
      have : (n : ℚ) * 2 ^ m = ((n * 2 ^ m : Nat) : Int) := by push_cast; ring
      rw [this, roundHalfEven_int]
      push_cast
      field_simp
    · subst heq
      have : Int.log 2 ((2 ^ 24 : Nat) : ℚ) = 24 := by
        rw [Int.log_natCast, Nat.log_pow (by omega)]; rfl
      rw [this]
      have : ((2 ^ 24 : Nat) : ℚ) / 2 ^ ((24 : Int) - 23) = ((8388608 : Int) : ℚ) := by norm_num
      rw [this, roundHalfEven_int]
      norm_num
  · rfl

theorem ceil_f32 {a b : Nat} (ha : 1 ≤ a) (ha' : a ≤ 2 ^ 24) (hb : 1 ≤ b) (hb' : b ≤ 2 ^ 24) :
    ⌈f32 ((a : ℚ) / b)⌉ = ((a - 1) / b : Nat) + 1 := by
  have hb0 : (0 : ℚ) < b := by exact_mod_cast hb
  have ha0 : (0 : ℚ) < a := by exact_mod_cast ha
  have hdm := Nat.div_add_mod (a - 1) b
  have hmod := Nat.mod_lt (a - 1) hb
  set q := (a - 1) / b with hq
  -- `q < a / b ≤ q + 1`
  have hup : (a : ℚ) / b ≤ q + 1 := by
    rw [div_le_iff₀ hb0]
    have : a ≤ (q + 1) * b := by rw [Nat.add_mul, Nat.mul_comm q b]; omega
    exact_mod_cast this
  have hlo : (q : ℚ) + 1 / b ≤ (a : ℚ) / b := by
    rw [le_div_iff₀ hb0, add_mul, div_mul_cancel₀ _ hb0.ne']
    have : q * b + 1 ≤ a := by rw [Nat.mul_comm q b]; omega
    exact_mod_cast this
  have hxpos : (0 : ℚ) < (a : ℚ) / b := by positivity
  by_cases hint : (a : ℚ) / b = ((q + 1 : Nat) : ℚ)
  · rw [hint, f32_nat]
    · rw [Int.ceil_natCast]; push_cast; ring
    · have : q ≤ a - 1 := Nat.div_le_self _ _
      omega
  · have hlt : (a : ℚ) / b < q + 1 := lt_of_le_of_ne hup (by exact_mod_cast hint)
    have hx24 : (a : ℚ) / b < 2 ^ 24 := by
      rw [div_lt_iff₀ hb0]
      have h1 : (a : ℚ) ≤ 2 ^ 24 := by exact_mod_cast ha'
      have h2 : (1 : ℚ) < b := by
        obtain h | h := Nat.lt_or_eq_of_le hb
        · exact_mod_cast h
        · exfalso; subst h
          have : a - 1 = q := by rw [hq]; simp
          apply hint; rw [Nat.cast_one, div_one]
          have : a = q + 1 := by omega
          exact_mod_cast this
      nlinarith
    have hl := log_le_of_lt hxpos hx24
    set L := Int.log 2 ((a : ℚ) / b) with hL
    have hpow : ((2 : ℕ) : ℚ) ^ L ≤ (a : ℚ) / b := Int.zpow_log_le_self (by omega) hxpos
    push_cast at hpow hl
    have he : (0 : ℚ) < 2 ^ (L - 23) := zpow_pos (by norm_num) _
    -- half a unit in the last place is less than the distance to `q`
    have hhalf : (2 : ℚ) ^ (L - 23) * (1 / 2) < 1 / b := by
      have e1 : (2 : ℚ) ^ (L - 23) * (1 / 2) = 2 ^ L / 2 ^ 24 := by
        rw [zpow_sub₀ (by norm_num)]; norm_num; ring
      rw [e1]
      have h1 : (a : ℚ) ≤ 2 ^ 24 := by exact_mod_cast ha'
      have hle : (2 : ℚ) ^ L / 2 ^ 24 ≤ 1 / b := by
        calc (2 : ℚ) ^ L / 2 ^ 24 ≤ ((a : ℚ) / b) / 2 ^ 24 := by gcongr
          _ ≤ ((2 ^ 24 : ℚ) / b) / 2 ^ 24 := by gcongr
          _ = 1 / b := by field_simp
      refine lt_of_le_of_ne hle ?_
      intro e
      -- then `a / b` is a power of two
      have e2 : (2 : ℚ) ^ L = (a : ℚ) / b := by
        apply le_antisymm hpow
        have : (2 : ℚ) ^ L = 2 ^ 24 / b := by
          field_simp at e ⊢
          linarith
        rw [this]; gcongr
      have e3 : (a : ℚ) = 2 ^ 24 := by
        have : (2 : ℚ) ^ L = 2 ^ 24 / b := by
          field_simp at e ⊢
          linarith
        rw [this] at e2
        field_simp at e2
        linarith
      have hL0 : 0 ≤ L := by
        by_contra hneg
        have : (2 : ℚ) ^ L < 1 := zpow_lt_one_of_neg₀ (by norm_num) (by omega)
        rw [e2, e3, div_lt_one hb0] at this
        have hb'' : (b : ℚ) ≤ 2 ^ 24 := by exact_mod_cast hb'
        linarith
      obtain ⟨m, hm⟩ := Int.eq_ofNat_of_zero_le hL0
      rw [hm, zpow_natCast] at e2
      -- an integer strictly between `q` and `q + 1`
      have h5 : (q : ℚ) < ((2 ^ m : Nat) : ℚ) := by
        push_cast; rw [e2]
        have : (0 : ℚ) < 1 / b := by positivity
        linarith
      have h6 : ((2 ^ m : Nat) : ℚ) < ((q + 1 : Nat) : ℚ) := by push_cast; rw [e2]; exact hlt
      have h5 : q < 2 ^ m := by exact_mod_cast h5
      have h6 : 2 ^ m < q + 1 := by exact_mod_cast h6
      omega
    have hE : 0 ≤ -(L - 23) := by omega
    obtain ⟨m, hm⟩ := Int.eq_ofNat_of_zero_le hE
    have hLm : L - 23 = -(m : Int) := by omega
    rw [Int.ceil_eq_iff]
    unfold f32
    rw [if_pos hxpos, ← hL]
    constructor
    · have h1 := roundHalfEven_ge ((a : ℚ) / b / 2 ^ (L - 23))
      have h2 : ((a : ℚ) / b / 2 ^ (L - 23) - 1 / 2) * 2 ^ (L - 23) ≤
          (roundHalfEven ((a : ℚ) / b / 2 ^ (L - 23)) : ℚ) * 2 ^ (L - 23) := by gcongr
      rw [sub_mul, div_mul_cancel₀ _ he.ne'] at h2
      push_cast
      linarith
    · have h1 : roundHalfEven ((a : ℚ) / b / 2 ^ (L - 23)) ≤ ((q + 1) * 2 ^ m : Nat) := by
        apply roundHalfEven_le
        rw [hLm, zpow_neg, zpow_natCast, div_inv_eq_mul]
        push_cast
        gcongr
      have h1 : (roundHalfEven ((a : ℚ) / b / 2 ^ (L - 23)) : ℚ) ≤ (q + 1) * 2 ^ m := by
        exact_mod_cast h1
      calc (roundHalfEven ((a : ℚ) / b / 2 ^ (L - 23)) : ℚ) * 2 ^ (L - 23)
          ≤ (q + 1) * 2 ^ m * 2 ^ (L - 23) := by gcongr
        _ = _ := by rw [hLm, zpow_neg, zpow_natCast]; push_cast; field_simp

/-- The bound is exact up to `2 ^ 24` elements. -/
theorem lastCt_eq {n s : Nat} (hn : 1 ≤ n) (hn' : n ≤ 2 ^ 24) (hs : 1 ≤ s) (hs' : s ≤ 2 ^ 24) :
    lastCt n s = ((n - 1) / s : Nat) := by
  unfold lastCt
  rw [f32_nat hn', f32_nat hs', ceil_f32 hn hn' hs hs']
  have hq : (n - 1) / s ≤ 2 ^ 24 := (Nat.div_le_self _ _).trans (by omega)
  generalize (n - 1) / s = q at hq ⊢
  have h2 : (((q : Int) + 1 : Int) : ℚ) - 1 = (q : ℚ) := by push_cast; ring
  rw [h2, f32_nat hq, Int.floor_natCast]

end Heir.Layout
