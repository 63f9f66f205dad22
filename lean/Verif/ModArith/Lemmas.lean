import Verif.ModArith.Model
import Mathlib.Data.ZMod.Basic
import Mathlib.Tactic.Ring
import Mathlib.Tactic.Linarith
import Mathlib.Tactic.NormNum
import Mathlib.Tactic.Push

/-! Helper lemmas for the `mod_arith` theorems. -/

namespace Heir.ModArith

open Heir.Arith

variable {w : Nat}

theorem typeVerify_lt {q : BitVec w} (h : typeVerify q = true) : q.toNat < 2 ^ (w - 1) := by
  simpa [typeVerify, Nat.size_le] using h

theorem ne_zero_of_pos {q : BitVec w} (h : 0 < q.toNat) : ¬ q = 0#w := by
  rintro rfl; simp at h

theorem pos_width {q : BitVec w} (h : 0 < q.toNat) : 0 < w := by
  rcases Nat.eq_zero_or_pos w with rfl | h'
  · have := q.isLt; simp at this; omega
  · exact h'

theorem two_pow_pred {w : Nat} (h : 0 < w) : 2 ^ w = 2 * 2 ^ (w - 1) := by
  obtain ⟨n, rfl⟩ : ∃ n, w = n + 1 := ⟨w - 1, by omega⟩
  simp [Nat.pow_succ]; ring

theorem remui_eq {a q : BitVec w} (h : 0 < q.toNat) : remui a q = some (a.umod q) := by
  simp [remui, ne_zero_of_pos h]

theorem two_mul_le {q : BitVec w} (h : typeVerify q = true) (h0 : 0 < q.toNat) :
    2 * q.toNat < 2 ^ w := by
  have := typeVerify_lt h
  rw [two_pow_pred (pos_width h0)]; omega

theorem setWidth_toNat_of_le {w' : Nat} (h : w ≤ w') (a : BitVec w) :
    (a.setWidth w').toNat = a.toNat := by
  rw [BitVec.toNat_setWidth]
  exact Nat.mod_eq_of_lt (lt_of_lt_of_le a.isLt (Nat.pow_le_pow_right (by norm_num) h))

theorem setWidth_pos {w' : Nat} (h : w ≤ w') {a : BitVec w} (h0 : 0 < a.toNat) :
    0 < (a.setWidth w').toNat := by rwa [setWidth_toNat_of_le h]

theorem lowerAdd_some {q a b : BitVec w} (hq : typeVerify q = true) (h0 : 0 < q.toNat)
    (ha : a.toNat < q.toNat) (hb : b.toNat < q.toNat) :
    ∃ r, lowerAdd q a b = some r ∧ r.toNat = (a.toNat + b.toNat) % q.toNat := by
  refine ⟨_, remui_eq h0, ?_⟩
  have := two_mul_le hq h0
  simp only [BitVec.umod_eq, BitVec.toNat_umod, BitVec.toNat_add]
  rw [Nat.mod_eq_of_lt (a := a.toNat + b.toNat)]; omega

theorem lowerSub_some {q a b : BitVec w} (hq : typeVerify q = true) (h0 : 0 < q.toNat)
    (ha : a.toNat < q.toNat) (hb : b.toNat < q.toNat) :
    ∃ r, lowerSub q a b = some r ∧ r.toNat = (a.toNat + (q.toNat - b.toNat)) % q.toNat := by
  refine ⟨_, remui_eq h0, ?_⟩
  have := two_mul_le hq h0
  simp only [BitVec.umod_eq, BitVec.toNat_umod, BitVec.toNat_add, BitVec.toNat_sub]
  congr 1
  rw [Nat.mod_add_mod]
  have e : 2 ^ w - b.toNat + a.toNat + q.toNat = (a.toNat + (q.toNat - b.toNat)) + 2 ^ w := by
    omega
  rw [e, Nat.add_mod_right, Nat.mod_eq_of_lt]; omega

theorem mul_lt_pow (a b : BitVec w) : a.toNat * b.toNat < 2 ^ (2 * w) := by
  rw [two_mul, pow_add]; exact Nat.mul_lt_mul'' a.isLt b.isLt

theorem mac_lt_pow (a b c : BitVec w) : a.toNat * b.toNat + c.toNat < 2 ^ (2 * w) := by
  rw [two_mul, pow_add]
  have ha := a.isLt; have hb := b.isLt; have hc := c.isLt
  generalize 2 ^ w = N at *
  obtain ⟨M, rfl⟩ : ∃ M, N = M + 1 := ⟨N - 1, by omega⟩
  have h1 : a.toNat * b.toNat ≤ M * M := Nat.mul_le_mul (by omega) (by omega)
  have h2 : (M + 1) * (M + 1) = M * M + 2 * M + 1 := by ring
  omega

theorem lowerMul_some (q a b : BitVec w) (h0 : 0 < q.toNat) :
    ∃ r, lowerMul q a b = some r ∧ r.toNat = (a.toNat * b.toNat) % q.toNat := by
  have hw : w ≤ 2 * w := by omega
  refine ⟨_, by rw [lowerMul]; simp only [remui_eq (setWidth_pos hw h0)]; rfl, ?_⟩
  rw [BitVec.toNat_setWidth]
  simp only [BitVec.umod_eq, BitVec.toNat_umod, BitVec.toNat_mul, setWidth_toNat_of_le hw]
  rw [Nat.mod_eq_of_lt (mul_lt_pow a b), Nat.mod_eq_of_lt]
  exact (Nat.mod_lt _ h0).trans q.isLt

theorem lowerMac_some (q a b c : BitVec w) (h0 : 0 < q.toNat) :
    ∃ r, lowerMac q a b c = some r ∧ r.toNat = (a.toNat * b.toNat + c.toNat) % q.toNat := by
  have hw : w ≤ 2 * w := by omega
  refine ⟨_, by rw [lowerMac]; simp only [remui_eq (setWidth_pos hw h0)]; rfl, ?_⟩
  rw [BitVec.toNat_setWidth]
  simp only [BitVec.umod_eq, BitVec.toNat_umod, BitVec.toNat_mul, BitVec.toNat_add,
    setWidth_toNat_of_le hw]
  rw [Nat.mod_eq_of_lt (mul_lt_pow a b), Nat.mod_eq_of_lt (mac_lt_pow a b c), Nat.mod_eq_of_lt]
  exact (Nat.mod_lt _ h0).trans q.isLt

theorem foldScalar_add (q a b c : BitVec w) (h0 : 0 < q.toNat) :
    ∃ r, foldScalar .add q a b c = some r ∧ r.toNat = (a.toNat + b.toNat) % q.toNat := by
  have hw : w ≤ 2 * w + 1 := by omega
  have hne := ne_zero_of_pos (setWidth_pos hw h0)
  refine ⟨_, by simp only [foldScalar]; rw [if_neg hne], ?_⟩
  rw [BitVec.toNat_setWidth]
  simp only [BitVec.umod_eq, BitVec.toNat_umod, BitVec.toNat_add,
    setWidth_toNat_of_le hw]
  have : a.toNat + b.toNat < 2 ^ (2 * w + 1) := by
    have ha := a.isLt; have hb := b.isLt
    have : 2 ^ (w + 1) ≤ 2 ^ (2 * w + 1) := Nat.pow_le_pow_right (by norm_num) (by omega)
    rw [pow_succ] at this; omega
  rw [Nat.mod_eq_of_lt this, Nat.mod_eq_of_lt]
  exact (Nat.mod_lt _ h0).trans q.isLt

theorem foldScalar_sub (q a b c : BitVec w) (h0 : 0 < q.toNat) :
    ∃ r, foldScalar .sub q a b c = some r ∧
      r.toNat = (a.toNat + (q.toNat - b.toNat % q.toNat)) % q.toNat := by
  have hw : w ≤ 2 * w + 1 := by omega
  have hne := ne_zero_of_pos (setWidth_pos hw h0)
  refine ⟨_, by simp only [foldScalar]; rw [if_neg hne], ?_⟩
  rw [BitVec.toNat_setWidth]
  simp only [BitVec.umod_eq, BitVec.toNat_umod, BitVec.toNat_add, BitVec.toNat_sub,
    setWidth_toNat_of_le hw]
  have h1 : a.toNat + q.toNat < 2 ^ (2 * w + 1) := by
    have ha := a.isLt; have hb := q.isLt
    have : 2 ^ (w + 1) ≤ 2 ^ (2 * w + 1) := Nat.pow_le_pow_right (by norm_num) (by omega)
    rw [pow_succ] at this; omega
  have h2 : b.toNat % q.toNat < q.toNat := Nat.mod_lt _ h0
  rw [Nat.mod_eq_of_lt h1]
  have e : 2 ^ (2 * w + 1) - b.toNat % q.toNat + (a.toNat + q.toNat)
      = (a.toNat + (q.toNat - b.toNat % q.toNat)) + 2 ^ (2 * w + 1) := by omega
  rw [e, Nat.add_mod_right, Nat.mod_eq_of_lt (a := _ + _), Nat.mod_eq_of_lt]
  · exact (Nat.mod_lt _ h0).trans q.isLt
  · omega

theorem foldScalar_mul (q a b c : BitVec w) (h0 : 0 < q.toNat) :
    ∃ r, foldScalar .mul q a b c = some r ∧ r.toNat = (a.toNat * b.toNat) % q.toNat := by
  have hw : w ≤ 2 * w + 1 := by omega
  have hne := ne_zero_of_pos (setWidth_pos hw h0)
  refine ⟨_, by simp only [foldScalar]; rw [if_neg hne], ?_⟩
  rw [BitVec.toNat_setWidth]
  simp only [BitVec.umod_eq, BitVec.toNat_umod, BitVec.toNat_mul,
    setWidth_toNat_of_le hw]
  have := mul_lt_pow a b
  rw [Nat.mod_eq_of_lt (a := _ * _), Nat.mod_eq_of_lt]
  · exact (Nat.mod_lt _ h0).trans q.isLt
  · rw [pow_succ]; omega

theorem foldScalar_mac (q a b c : BitVec w) (h0 : 0 < q.toNat) :
    ∃ r, foldScalar .mac q a b c = some r ∧
      r.toNat = (c.toNat + a.toNat * b.toNat) % q.toNat := by
  have hw : w ≤ 2 * w + 1 := by omega
  have hne := ne_zero_of_pos (setWidth_pos hw h0)
  refine ⟨_, by simp only [foldScalar]; rw [if_neg hne], ?_⟩
  rw [BitVec.toNat_setWidth]
  simp only [BitVec.umod_eq, BitVec.toNat_umod, BitVec.toNat_mul, BitVec.toNat_add,
    setWidth_toNat_of_le hw]
  have := mac_lt_pow a b c
  have h2 := mul_lt_pow a b
  rw [Nat.mod_eq_of_lt (a := _ * _), Nat.mod_eq_of_lt (a := _ + _), Nat.mod_eq_of_lt]
  · exact (Nat.mod_lt _ h0).trans q.isLt
  · rw [pow_succ]; omega
  · rw [pow_succ]; omega

/-- casting the "add the complement" form of subtraction into `ZMod q` -/
theorem cast_sub_form (q a b : Nat) (h : b ≤ q) :
    (((a + (q - b)) % q : Nat) : ZMod q) = (a : ZMod q) - (b : ZMod q) := by
  rw [ZMod.natCast_mod, Nat.cast_add, Nat.cast_sub h, ZMod.natCast_self]; ring

theorem emod_sub_form (q a b : Nat) (h : b ≤ q) :
    (((a + (q - b)) % q : Nat) : Int) = ((a : Int) - b) % q := by
  have e : ((a + (q - b) : Nat) : Int) = ((a : Int) - b) + q := by
    rw [Nat.cast_add, Nat.cast_sub h]; ring
  rw [Int.natCast_emod, e, Int.add_emod_right]

/-! ### signed operations -/

theorem toInt_of_lt {q : BitVec w} (h : q.toNat < 2 ^ (w - 1)) (h0 : 0 < q.toNat) :
    q.toInt = q.toNat := by
  rw [BitVec.toInt_eq_toNat_of_lt]
  rw [two_pow_pred (pos_width h0)]; omega

theorem remsi_eq {a q : BitVec w} (h0 : 0 < q.toNat) (h : q.toNat < 2 ^ (w - 1)) :
    remsi a q = some (a.srem q) := by
  have hw := pos_width h0
  have : q ≠ BitVec.allOnes w := by
    rintro rfl
    rw [BitVec.toNat_allOnes] at h
    have := two_pow_pred hw
    have : 0 < 2 ^ (w - 1) := Nat.two_pow_pos _
    omega
  simp [remsi, ne_zero_of_pos h0, this]

theorem toInt_srem' (a q : BitVec w) : (a.srem q).toInt = a.toInt.tmod q.toInt :=
  BitVec.toInt_srem a q

theorem tmod_cases (a q : Int) (h : 0 < q) :
    (0 ≤ a.tmod q ∧ a.tmod q = a % q) ∨ (a.tmod q < 0 ∧ a.tmod q + q = a % q) := by
  have hlt := Int.tmod_lt_of_pos a h
  have hgt : -q < a.tmod q := by
    have := Int.lt_tmod_of_pos a h; omega
  have hdvd : a % q = a.tmod q % q := by
    conv_lhs => rw [← Int.tmod_add_tdiv_mul a q]
    simp
  rcases lt_or_ge (a.tmod q) 0 with h1 | h1
  · right; refine ⟨h1, ?_⟩
    rw [hdvd, ← Int.add_emod_right, Int.emod_eq_of_lt] <;> omega
  · left; refine ⟨h1, ?_⟩
    rw [hdvd, Int.emod_eq_of_lt] <;> omega

/-- the value computed before the centring step -/
theorem lowerLiftStandard_some {q : BitVec w} (a : BitVec w) (hq : typeVerify q = true)
    (h0 : 0 < q.toNat) :
    ∃ r, lowerLiftStandard q a = some r ∧ (r.toNat : Int) = a.toInt % q.toNat ∧
      r.toNat < q.toNat := by
  have hlt := typeVerify_lt hq
  have hqi := toInt_of_lt hlt h0
  have h2 := two_mul_le hq h0
  refine ⟨_, by simp only [lowerLiftStandard, remsi_eq h0 hlt]; rfl, ?_⟩
  have hs := toInt_srem' a q
  set s := a.srem q with hsdef
  rw [hqi] at hs
  have hq' : (0 : Int) < q.toNat := by exact_mod_cast h0
  have hb := Int.emod_lt_of_pos a.toInt hq'
  have hb0 := Int.emod_nonneg a.toInt hq'.ne'
  have key : ((select (s.slt 0#w) (s + q) s).toNat : Int) = a.toInt % q.toNat := by
    rcases tmod_cases a.toInt q.toNat hq' with ⟨h1, h3⟩ | ⟨h1, h3⟩
    · have : s.slt 0#w = false := by
        simp [BitVec.slt, hs]; omega
      rw [this]; simp only [select, Bool.false_eq_true, if_false]
      rw [← h3, ← hs, BitVec.toInt_eq_toNat_of_lt]
      have := hs; rw [BitVec.toInt_eq_toNat_cond] at this
      split at this <;> omega
    · have : s.slt 0#w = true := by
        simp [BitVec.slt, hs]; omega
      rw [this]; simp only [select, if_true]
      rw [← h3, ← hs, BitVec.toNat_add]
      have hs' := hs
      rw [BitVec.toInt_eq_toNat_cond] at hs' ⊢
      have hsl := s.isLt
      split at hs'
      · omega
      · rw [if_neg (by omega)]
        have e : s.toNat + q.toNat = (s.toNat + q.toNat - 2 ^ w) + 2 ^ w := by omega
        rw [e, Nat.add_mod_right, Nat.mod_eq_of_lt (by omega)]
        omega
  exact ⟨key, by omega⟩

theorem lowerReduce_some {q : BitVec w} (a : BitVec w) (hq : typeVerify q = true)
    (h0 : 0 < q.toNat) :
    ∃ r, lowerReduce q a = some r ∧ (r.toNat : Int) = a.toInt % q.toNat := by
  have hlt := typeVerify_lt hq
  have hqi := toInt_of_lt hlt h0
  have h2 := two_mul_le hq h0
  refine ⟨_, by simp only [lowerReduce, remsi_eq h0 hlt]; exact remui_eq h0, ?_⟩
  have hs := toInt_srem' a q
  set s := a.srem q with hsdef
  rw [hqi] at hs
  have hq' : (0 : Int) < q.toNat := by exact_mod_cast h0
  have hb := Int.emod_lt_of_pos a.toInt hq'
  have hb0 := Int.emod_nonneg a.toInt hq'.ne'
  have hsl := s.isLt
  have hs' := hs
  rw [BitVec.toInt_eq_toNat_cond] at hs'
  simp only [BitVec.umod_eq, BitVec.toNat_umod, BitVec.toNat_add]
  rcases tmod_cases a.toInt q.toNat hq' with ⟨h1, h3⟩ | ⟨h1, h3⟩
  · have hsn : (s.toNat : Int) = a.toInt % q.toNat := by split at hs' <;> omega
    rw [Nat.mod_eq_of_lt (a := s.toNat + q.toNat) (by omega), Nat.add_mod_right,
      Nat.mod_eq_of_lt (by omega), hsn]
  · have hsn : ((s.toNat + q.toNat - 2 ^ w : Nat) : Int) = a.toInt % q.toNat
        ∧ 2 ^ w ≤ s.toNat + q.toNat := by
      split at hs' <;> omega
    have e : s.toNat + q.toNat = (s.toNat + q.toNat - 2 ^ w) + 2 ^ w := by omega
    rw [e, Nat.add_mod_right, Nat.mod_eq_of_lt (a := _ - _) (by omega),
      Nat.mod_eq_of_lt (by omega), hsn.1]

end Heir.ModArith
