import Verif.RotKeys.Match
import Mathlib.RingTheory.ZMod.UnitsCyclic

/-!
# Powers of five
-/

namespace Heir.RotKeys

theorem tmod_cast (m : Nat) (x : Int) :
    ((x.tmod (2 * 2 ^ m) : Int) : ZMod (2 ^ (m + 1))) = (x : ZMod _) := by
  rw [ZMod.intCast_eq_intCast_iff, Int.modEq_iff_dvd]
  have e : ((2 ^ (m + 1) : ℕ) : Int) = 2 * 2 ^ m := by push_cast; ring
  rw [e]
  exact ⟨x.tdiv (2 * 2 ^ m), by have := Int.tmod_add_mul_tdiv x (2 * 2 ^ m); omega⟩

theorem galoisLoop_cast (m : Nat) : ∀ (k : Nat) (g : Int),
    ((galoisLoop (2 ^ m) k g : Int) : ZMod (2 ^ (m + 1))) = g * 5 ^ k
  | 0, g => by simp [galoisLoop]
  | k + 1, g => by
    rw [galoisLoop, galoisLoop_cast m k, tmod_cast]
    push_cast
    ring

theorem galoisLoop_range (m : Nat) : ∀ (k : Nat) (g : Int), 0 ≤ g → g < 2 * 2 ^ m →
    0 ≤ galoisLoop (2 ^ m) k g ∧ galoisLoop (2 ^ m) k g < 2 * 2 ^ m
  | 0, g, h1, h2 => ⟨h1, h2⟩
  | k + 1, g, h1, h2 => by
    have h0 : (0 : Int) < 2 * 2 ^ m := by positivity
    rw [galoisLoop]
    apply galoisLoop_range
    · exact Int.tmod_nonneg _ (by omega)
    · exact Int.tmod_lt_of_pos _ h0

theorem normalize_emod (r : Int) (m : Nat) : normalize r (2 ^ m) = r % 2 ^ m := by
  have h0 : (0 : Int) < 2 ^ m := by positivity
  have h1 := Int.tmod_lt_of_pos r h0
  have h2 := Int.lt_tmod_of_pos r h0
  unfold normalize
  rw [Int.tmod_eq_emod_of_nonneg (by omega), Int.add_emod_right]
  have h3 := Int.tmod_add_mul_tdiv r (2 ^ m)
  conv_rhs => rw [← h3]
  rw [Int.add_mul_emod_self_left]

theorem galois_unfold (m : Nat) (r : Int) :
    galoisElement (m + 1) r = galoisLoop (2 ^ (m + 1)) (r % 2 ^ m).toNat 1 := by
  have e : (2 ^ (m + 1) : Int) / 2 = 2 ^ m := by
    rw [pow_succ]; exact Int.mul_ediv_cancel _ (by norm_num)
  simp only [galoisElement, e, normalize_emod]

theorem galois_range (m : Nat) (r : Int) :
    0 ≤ galoisElement (m + 1) r ∧ galoisElement (m + 1) r < 2 ^ (m + 2) := by
  rw [galois_unfold]
  have e : (2 ^ (m + 2) : Int) = 2 * 2 ^ (m + 1) := by ring
  rw [e]
  exact galoisLoop_range _ _ _ (by norm_num) (by
    have : (0 : Int) < 2 ^ (m + 1) := by positivity
    omega)

theorem galois_cast (m : Nat) (r : Int) :
    ((galoisElement (m + 1) r : Int) : ZMod (2 ^ (m + 2))) = 5 ^ (r % 2 ^ m).toNat := by
  rw [galois_unfold, galoisLoop_cast]
  simp

theorem eq_of_cast {m : Nat} {a b : Int} (ha : 0 ≤ a ∧ a < 2 ^ m) (hb : 0 ≤ b ∧ b < 2 ^ m)
    (h : (a : ZMod (2 ^ m)) = b) : a = b := by
  rw [ZMod.intCast_eq_intCast_iff] at h
  have e : ((2 ^ m : ℕ) : Int) = 2 ^ m := by push_cast; rfl
  rw [e, Int.ModEq, Int.emod_eq_of_lt ha.1 ha.2, Int.emod_eq_of_lt hb.1 hb.2] at h
  exact h

theorem galois_eq (m : Nat) (r : Int) :
    galoisElement (m + 1) r = 5 ^ (r % 2 ^ m).toNat % 2 ^ (m + 2) := by
  have h0 : (0 : Int) < 2 ^ (m + 2) := by positivity
  refine eq_of_cast (galois_range m r)
    ⟨Int.emod_nonneg _ (by omega), Int.emod_lt_of_pos _ h0⟩ ?_
  rw [galois_cast]
  have e : ((2 ^ (m + 2) : ℕ) : Int) = 2 ^ (m + 2) := by push_cast; rfl
  rw [← e, ZMod.intCast_mod]
  simp

theorem five_fin (m : Nat) : IsOfFinOrder (5 : ZMod (2 ^ (m + 2))) := by
  rw [← orderOf_pos_iff, ZMod.orderOf_five]
  positivity

theorem galois_mul (m : Nat) (r s : Int) :
    galoisElement (m + 1) (r + s) =
      galoisElement (m + 1) r * galoisElement (m + 1) s % 2 ^ (m + 2) := by
  have h0 : (0 : Int) < 2 ^ (m + 2) := by positivity
  refine eq_of_cast (galois_range m _)
    ⟨Int.emod_nonneg _ (by omega), Int.emod_lt_of_pos _ h0⟩ ?_
  have e : ((2 ^ (m + 2) : ℕ) : Int) = 2 ^ (m + 2) := by push_cast; rfl
  rw [← e, ZMod.intCast_mod, Int.cast_mul, galois_cast, galois_cast, galois_cast, ← pow_add]
  rw [(five_fin m).pow_eq_pow_iff_modEq, ZMod.orderOf_five]
  have hm : (0 : Int) < 2 ^ m := by positivity
  have h1 := Int.emod_nonneg r (b := 2 ^ m) (by omega)
  have h2 := Int.emod_nonneg s (b := 2 ^ m) (by omega)
  have h3 := Int.emod_nonneg (r + s) (b := 2 ^ m) (by omega)
  rw [← Int.natCast_modEq_iff]
  push_cast
  rw [Int.toNat_of_nonneg h1, Int.toNat_of_nonneg h2, Int.toNat_of_nonneg h3, Int.ModEq,
    Int.emod_emod_of_dvd _ (dvd_refl _), ← Int.add_emod]

theorem galois_inj (m : Nat) (r s : Int) :
    galoisElement (m + 1) r = galoisElement (m + 1) s ↔ (r - s) % 2 ^ m = 0 := by
  have hm : (0 : Int) < 2 ^ m := by positivity
  have h1 := Int.emod_nonneg r (b := 2 ^ m) (by omega)
  have h2 := Int.emod_nonneg s (b := 2 ^ m) (by omega)
  rw [← Int.emod_eq_emod_iff_emod_sub_eq_zero]
  constructor
  · intro h
    have := galois_cast m r
    rw [h, galois_cast, (five_fin m).pow_eq_pow_iff_modEq, ZMod.orderOf_five, ← Int.natCast_modEq_iff] at this
    push_cast at this
    rw [Int.toNat_of_nonneg h1, Int.toNat_of_nonneg h2, Int.ModEq,
      Int.emod_emod_of_dvd _ (dvd_refl _), Int.emod_emod_of_dvd _ (dvd_refl _)] at this
    exact this.symm
  · intro h
    rw [galois_unfold, galois_unfold, h]

end Heir.RotKeys
