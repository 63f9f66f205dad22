import Verif.ArithMod.Spec
import Verif.ModArith.Props

/-!
# Lemmas for C144–C145
-/

namespace Heir.ArithMod

open Heir.ModArith

/-! ### the lowered operations when the modulus divides a power of two -/

variable {W : Nat}

theorem lowerAdd_dvd {q a b : BitVec W} (h0 : 0 < q.toNat) (hd : q.toNat ∣ 2 ^ W) :
    ∃ r, lowerAdd q a b = some r ∧ (r.toNat : Int) = ((a.toNat : Int) + b.toNat) % q.toNat := by
  refine ⟨_, remui_eq h0, ?_⟩
  simp only [BitVec.umod_eq, BitVec.toNat_umod, BitVec.toNat_add]
  rw [Nat.mod_mod_of_dvd _ hd]
  push_cast; rfl

theorem lowerSub_dvd {q a b : BitVec W} (h0 : 0 < q.toNat) (hd : q.toNat ∣ 2 ^ W) :
    ∃ r, lowerSub q a b = some r ∧ (r.toNat : Int) = ((a.toNat : Int) - b.toNat) % q.toNat := by
  refine ⟨_, remui_eq h0, ?_⟩
  simp only [BitVec.umod_eq, BitVec.toNat_umod, BitVec.toNat_add, BitVec.toNat_sub]
  rw [Nat.mod_mod_of_dvd _ hd, Nat.add_mod_right, Nat.mod_mod_of_dvd _ hd]
  have hb := b.isLt
  push_cast [Nat.cast_sub hb.le]
  obtain ⟨k, hk⟩ := hd
  have hk' : (2 : Int) ^ W = q.toNat * k := by exact_mod_cast hk
  rw [hk', show (q.toNat : Int) * k - b.toNat + a.toNat = (a.toNat - b.toNat) + q.toNat * k by ring,
    Int.add_mul_emod_self_left]

theorem lowerMul_int {q a b : BitVec W} (h0 : 0 < q.toNat) :
    ∃ r, lowerMul q a b = some r ∧ (r.toNat : Int) = ((a.toNat : Int) * b.toNat) % q.toNat := by
  obtain ⟨r, h, hv⟩ := lowerMul_some q a b h0
  exact ⟨r, h, by rw [hv]; push_cast; rfl⟩

theorem lowerAdd_canon {q a b : BitVec W} (hq : typeVerify q = true) (h0 : 0 < q.toNat)
    (ha : a.toNat < q.toNat) (hb : b.toNat < q.toNat) :
    ∃ r, lowerAdd q a b = some r ∧ (r.toNat : Int) = ((a.toNat : Int) + b.toNat) % q.toNat := by
  obtain ⟨r, h, hv⟩ := lowerAdd_some hq h0 ha hb
  exact ⟨r, h, by rw [hv]; push_cast; rfl⟩

theorem lowerSub_canon {q a b : BitVec W} (hq : typeVerify q = true) (h0 : 0 < q.toNat)
    (ha : a.toNat < q.toNat) (hb : b.toNat < q.toNat) :
    ∃ r, lowerSub q a b = some r ∧ (r.toNat : Int) = ((a.toNat : Int) - b.toNat) % q.toNat := by
  obtain ⟨r, h, hv⟩ := lowerSub_some hq h0 ha hb
  refine ⟨r, h, ?_⟩
  rw [hv]
  push_cast [Nat.cast_sub hb.le]
  rw [show (a.toNat : Int) + (q.toNat - b.toNat) = (a.toNat - b.toNat) + q.toNat by ring,
    Int.add_emod_right]

/-! ### types -/

theorem convType_default {w : Nat} (h1 : 1 ≤ w) (h2 : w ≤ 64) :
    ∃ q, convType 0 w = some q ∧ q.toNat = 2 ^ (w - 1) ∧ typeVerify q = true := by
  have e1 : (1#64 <<< (w - 1)).toNat = 2 ^ (w - 1) := by
    rw [BitVec.toNat_shiftLeft, Nat.shiftLeft_eq, show (1#64).toNat = 1 from rfl, one_mul]
    exact Nat.mod_eq_of_lt (Nat.pow_lt_pow_right (by norm_num) (by omega))
  have e2 : ((1#64 <<< (w - 1)).setWidth (storageWidth 0 w)).toNat = 2 ^ (w - 1) := by
    rw [BitVec.toNat_setWidth, e1]
    exact Nat.mod_eq_of_lt (Nat.pow_lt_pow_right (by norm_num) (by simp [storageWidth]))
  have e3 : typeVerify ((1#64 <<< (w - 1)).setWidth (storageWidth 0 w)) = true := by
    rw [typeVerify, e2, decide_eq_true_eq, Nat.size_le]
    exact Nat.pow_lt_pow_right (by norm_num) (by simp [storageWidth]; omega)
  refine ⟨_, ?_, e2, e3⟩
  simp only [convType, modulusWord, if_true, h1, h2, and_self, Option.bind_some, e3]

theorem convType_user {m : Int} {w : Nat} (h0 : 0 < m) (h1 : m < 2 ^ 63) :
    ∃ q, convType m w = some q ∧ (q.toNat : Int) = m ∧ typeVerify q = true := by
  have hm : m ≠ 0 := by omega
  have hs : storageWidth m w = 64 := by simp [storageWidth, hm]
  have e2 : (((BitVec.ofInt 64 m).setWidth (storageWidth m w)).toNat : Int) = m := by
    rw [BitVec.toNat_setWidth, hs, BitVec.toNat_ofInt, Nat.mod_eq_of_lt (by omega)]
    omega
  have e3 : typeVerify ((BitVec.ofInt 64 m).setWidth (storageWidth m w)) = true := by
    rw [typeVerify, decide_eq_true_eq, Nat.size_le, hs]
    rw [hs] at e2
    have : ((2 ^ 63 : Nat) : Int) = 2 ^ 63 := by norm_num
    omega
  refine ⟨_, ?_, e2, e3⟩
  simp only [convType, modulusWord, hm, if_false, Option.bind_some, e3, if_true]

/-! ### the invariant for the default modulus -/

theorem toNat_modEq_toInt {w : Nat} (x : BitVec w) : (x.toNat : Int) ≡ x.toInt [ZMOD 2 ^ w] := by
  rw [BitVec.toInt_eq_toNat_cond]
  split_ifs
  · exact Int.ModEq.refl _
  · push_cast
    exact (Int.modEq_sub_modulus_iff.2 (Int.ModEq.refl _))

theorem modEq_half {w : Nat} {a b : Int} (h : a ≡ b [ZMOD 2 ^ w]) : a ≡ b [ZMOD 2 ^ (w - 1)] :=
  h.of_dvd (pow_dvd_pow 2 (by omega))

theorem eval_bin_modEq {w : Nat} (k : Op) (hk : k ≠ .remu) (ρ : Env) (a b : E w) :
    (((E.bin k a b).eval ρ).toNat : Int) ≡ (match k with
      | .add => ((a.eval ρ).toNat : Int) + (b.eval ρ).toNat
      | .sub => ((a.eval ρ).toNat : Int) - (b.eval ρ).toNat
      | .mul => ((a.eval ρ).toNat : Int) * (b.eval ρ).toNat
      | .remu => 0) [ZMOD 2 ^ w] := by
  cases k with
  | add =>
    simp only [E.eval, BitVec.toNat_add]
    push_cast
    exact Int.mod_modEq _ _
  | sub =>
    simp only [E.eval, BitVec.toNat_sub]
    push_cast [Nat.cast_sub (b.eval ρ).isLt.le]
    refine (Int.mod_modEq _ _).trans ?_
    rw [show (2 : Int) ^ w - (b.eval ρ).toNat + (a.eval ρ).toNat
      = ((a.eval ρ).toNat - (b.eval ρ).toNat) + 2 ^ w by ring]
    exact Int.add_modEq_right
  | mul =>
    simp only [E.eval, BitVec.toNat_mul]
    push_cast
    exact Int.mod_modEq _ _
  | remu => exact absurd rfl hk

/-- The range of widths that the pass can convert when no modulus is given. -/
abbrev ok (w : Nat) : Prop := 1 ≤ w ∧ w ≤ 64

theorem widths_self {P : Nat → Prop} {w : Nat} (e : E w) (h : e.Widths P) : P w := by
  cases e with
  | arg => exact h
  | load => exact h
  | const => exact h
  | bin => exact h.1
  | ext => exact h.1

theorem convConst_nonneg {w W : Nat} (dense : Bool) (c : BitVec w) (hW : c.toNat < 2 ^ W)
    (hc : dense = true → c.msb = false) : (convConst W dense c).toNat = c.toNat := by
  cases dense with
  | false => simp [convConst, BitVec.toNat_setWidth, Nat.mod_eq_of_lt hW]
  | true =>
    simp [convConst, BitVec.signExtend_eq_setWidth_of_msb_false (hc rfl),
      BitVec.toNat_setWidth, Nat.mod_eq_of_lt hW]

theorem convConst_modEq {w : Nat} (dense : Bool) (c : BitVec w) :
    ((convConst (w + 1) dense c).toNat : Int) ≡ c.toNat [ZMOD 2 ^ w] := by
  cases dense with
  | false => simp [convConst]
  | true =>
    simp only [convConst, if_true]
    have h1 := (toNat_modEq_toInt (c.signExtend (w + 1))).of_dvd (pow_dvd_pow 2 (Nat.le_succ w))
    rw [BitVec.toInt_signExtend_of_le (Nat.le_succ w)] at h1
    exact h1.trans (toNat_modEq_toInt c).symm

theorem default_inv {ρ : Env} {σ : Store} (hs : Hands ρ σ fun w => 2 ^ (w - 1)) {w : Nat} (e : E w)
    (hw : e.Widths ok) (hn : e.NoRem) (hf : e.Fits ρ) :
    ∃ p r, conv 0 e = some p ∧ p.run σ = some r ∧
      (r.toNat : Int) ≡ (e.eval ρ).toNat [ZMOD 2 ^ (w - 1)] ∧
      (e.raw = false → r.toNat < 2 ^ (w - 1)) ∧
      (e.raw = true → 0 ≤ (e.eval ρ).toInt → r.toNat = (e.eval ρ).toNat) := by
  induction e with
  | arg w i =>
    obtain ⟨q, h1, h2, h3⟩ := convType_default hw.1 hw.2
    refine ⟨_, _, by rw [conv, h1]; rfl, rfl, ?_⟩
    have hlt : (ρ.arg w i).toNat % 2 ^ (w - 1) < 2 ^ (w - 1) := Nat.mod_lt _ (by positivity)
    have e1 : (BitVec.ofNat (storageWidth 0 w) (σ.arg w i)).toNat
        = (ρ.arg w i).toNat % 2 ^ (w - 1) := by
      rw [BitVec.toNat_ofNat, hs.1]
      exact Nat.mod_eq_of_lt (hlt.trans_le (Nat.pow_le_pow_right (by norm_num)
        (by simp [storageWidth]; omega)))
    rw [e1]
    refine ⟨?_, fun _ => hlt, by simp [E.raw]⟩
    push_cast
    exact Int.mod_modEq _ _
  | load w i =>
    obtain ⟨q, h1, h2, h3⟩ := convType_default hw.1 hw.2
    refine ⟨_, _, by rw [conv, h1]; simp [storageWidth]; rfl, rfl, ?_⟩
    have e1 : ((σ.mem w i).setWidth (storageWidth 0 w)).toNat = (ρ.mem w i).toNat := by
      rw [BitVec.toNat_setWidth, hs.2]
      exact Nat.mod_eq_of_lt ((ρ.mem w i).isLt.trans_le (Nat.pow_le_pow_right (by norm_num)
        (by simp [storageWidth])))
    rw [e1]
    exact ⟨Int.ModEq.refl _, by simp [E.raw], fun _ _ => rfl⟩
  | @const w dense c =>
    obtain ⟨q, h1, h2, h3⟩ := convType_default hw.1 hw.2
    refine ⟨_, _, by rw [conv, h1]; rfl, rfl, ?_⟩
    refine ⟨modEq_half (convConst_modEq dense c), by simp [E.raw], fun _ hp => ?_⟩
    refine convConst_nonneg dense c (c.isLt.trans_le (Nat.pow_le_pow_right (by norm_num)
        (by simp [storageWidth]))) fun _ => ?_
    by_contra hc
    have : c.toInt < 0 := BitVec.toInt_neg_of_msb_true (by simpa using hc)
    exact absurd hp (by simpa [E.eval] using this)
  | @bin w k a b iha ihb =>
    obtain ⟨q, h1, h2, h3⟩ := convType_default hw.1.1 hw.1.2
    obtain ⟨pa, ra, ca, va, ma, -, -⟩ := iha hw.2.1 hn.2.1 hf.1
    obtain ⟨pb, rb, cb, vb, mb, -, -⟩ := ihb hw.2.2 hn.2.2 hf.2
    have h0 : 0 < q.toNat := by rw [h2]; positivity
    have hd : q.toNat ∣ 2 ^ storageWidth 0 w := by
      rw [h2]; exact pow_dvd_pow 2 (by simp [storageWidth]; omega)
    have hq : (q.toNat : Int) = 2 ^ (w - 1) := by rw [h2]; push_cast; rfl
    have key := modEq_half (eval_bin_modEq k hn.1 ρ a b)
    have fin : ∀ (r : BitVec (storageWidth 0 w)) (z : Int), (r.toNat : Int) = z % q.toNat →
        r.toNat < 2 ^ (w - 1) := by
      intro r z h
      have := Int.emod_lt_of_pos z (show (0 : Int) < q.toNat by exact_mod_cast h0)
      rw [← h] at this
      rw [← h2]; exact_mod_cast this
    cases k with
    | add =>
      obtain ⟨r, hr, hv⟩ := lowerAdd_dvd (a := ra) (b := rb) h0 hd
      refine ⟨.add q pa pb, r, by simp [conv, h1, ca, cb, convBin], by simp [M.run, va, vb, hr],
        ?_, fun _ => fin r _ hv, by simp [E.raw]⟩
      rw [hv, hq]
      exact (Int.mod_modEq _ _).trans ((ma.add mb).trans key.symm)
    | sub =>
      obtain ⟨r, hr, hv⟩ := lowerSub_dvd (a := ra) (b := rb) h0 hd
      refine ⟨.sub q pa pb, r, by simp [conv, h1, ca, cb, convBin], by simp [M.run, va, vb, hr],
        ?_, fun _ => fin r _ hv, by simp [E.raw]⟩
      rw [hv, hq]
      exact (Int.mod_modEq _ _).trans ((ma.sub mb).trans key.symm)
    | mul =>
      obtain ⟨r, hr, hv⟩ := lowerMul_int (a := ra) (b := rb) h0
      refine ⟨.mul q pa pb, r, by simp [conv, h1, ca, cb, convBin], by simp [M.run, va, vb, hr],
        ?_, fun _ => fin r _ hv, by simp [E.raw]⟩
      rw [hv, hq]
      exact (Int.mod_modEq _ _).trans ((ma.mul mb).trans key.symm)
    | remu => exact absurd rfl hn.1
  | @ext v s w hvw a ih =>
    obtain ⟨qn, h1, h2, h3⟩ := convType_default hw.1.1 hw.1.2
    have hwa := widths_self a hw.2
    obtain ⟨qo, k1, k2, k3⟩ := convType_default hwa.1 hwa.2
    obtain ⟨fa, hv2, hlt, hlo⟩ := hf
    obtain ⟨pa, ra, ca, va, ma, sa, na⟩ := ih hw.2 hn fa
    have h0 : 0 < qn.toNat := by rw [h2]; positivity
    have hqn : (qn.toNat : Int) = 2 ^ (w - 1) := by rw [h2]; push_cast; rfl
    have hqo : (qo.toNat : Int) = 2 ^ (v - 1) := by rw [k2]; push_cast; rfl
    obtain ⟨u, rfl⟩ : ∃ u, v = u + 2 := ⟨v - 2, by omega⟩
    have e2 : (2 : Int) ^ (u + 2 - 1) = 2 * 2 ^ u := by
      rw [show u + 2 - 1 = u + 1 by omega, pow_succ]; ring
    have e2n : 2 ^ (u + 2 - 1) = 2 * 2 ^ u := by
      rw [show u + 2 - 1 = u + 1 by omega, pow_succ]; ring
    have hpos : (0 : Int) < 2 ^ u := by positivity
    have mt : (ra.toNat : Int) ≡ (a.eval ρ).toInt [ZMOD 2 ^ (u + 2 - 1)] :=
      ma.trans (modEq_half (toNat_modEq_toInt (a.eval ρ)))
    have hlow : -(2 ^ (u + 2 - 1)) ≤ 2 * (a.eval ρ).toInt := by
      split_ifs at hlo
      · exact hlo
      · rw [e2]; omega
    have hcan : ra.toNat < qo.toNat := by
      rw [k2]
      cases hr : a.raw with
      | false => exact sa hr
      | true =>
        rw [hr] at hlo
        simp only [not_true_eq_false, and_false, if_false] at hlo
        have h5 := na hr hlo
        have h6 : ((a.eval ρ).toNat : Int) = (a.eval ρ).toInt := by
          rw [BitVec.toInt_eq_toNat_cond] at hlo ⊢
          have := (a.eval ρ).isLt
          split_ifs at hlo ⊢ <;> omega
        rw [h5]; rw [e2] at hlt; rw [e2n]
        have : ((2 ^ u : Nat) : Int) = 2 ^ u := by push_cast; rfl
        omega
    have hodd : 2 * ra.toNat + 1 ≠ qo.toNat := by rw [k2, e2n]; omega
    obtain ⟨r, hr, hz⟩ := C16_modSwitch_partial (qo := qo) (qn := qn) (a := ra) h3 h0 hcan hodd
    have hz' := hz (a.eval ρ).toInt ⟨by rw [hqo]; exact mt.symm, by rw [hqo]; omega, by rw [hqo]; omega⟩
    refine ⟨.switch qo qn pa, r, by simp [conv, h1, k1, ca], by simp [M.run, va, hr], ?_, ?_,
      by simp [E.raw]⟩
    · rw [hz', hqn]
      refine (Int.mod_modEq _ _).trans ?_
      cases s with
      | true =>
        have := modEq_half (toNat_modEq_toInt ((a.eval ρ).signExtend w))
        rw [BitVec.toInt_signExtend_of_le hvw.le] at this
        exact this.symm
      | false =>
        simp only [Bool.false_eq_true, false_and, if_false] at hlo
        simp only [E.eval]
        rw [BitVec.toNat_setWidth, Nat.mod_eq_of_lt ((a.eval ρ).isLt.trans_le
          (Nat.pow_le_pow_right (by norm_num) hvw.le))]
        have h6 : ((a.eval ρ).toNat : Int) = (a.eval ρ).toInt := by
          rw [BitVec.toInt_eq_toNat_cond] at hlo ⊢
          have := (a.eval ρ).isLt
          split_ifs at hlo ⊢ <;> omega
        rw [h6]
    · intro _
      have := Int.emod_lt_of_pos (a.eval ρ).toInt (show (0 : Int) < qn.toNat by exact_mod_cast h0)
      rw [← hz'] at this
      rw [← h2]; exact_mod_cast this

/-! ### the invariant for a given modulus -/

theorem user_inv {ρ : Env} {σ : Store} {m : Nat} (hm0 : 0 < m) (hm : m < 2 ^ 63)
    (hs : Hands ρ σ fun _ => m) {w : Nat} (e : E w)
    (hn : e.NoRem) (hb : e.Below ρ m) :
    ∃ p r, conv (m : Int) e = some p ∧ p.run σ = some r ∧ (r.toNat : Int) = e.exact ρ % m := by
  have hm' : (m : Int) ≠ 0 := by omega
  have hsw : ∀ w, storageWidth m w = 64 := by intro w; rw [storageWidth, if_neg hm']
  have ty : ∀ w, ∃ q, convType (m : Int) w = some q ∧ q.toNat = m ∧ typeVerify q = true := by
    intro w
    obtain ⟨q, h1, h2, h3⟩ := convType_user (m := (m : Int)) (w := w) (by omega)
      (by exact_mod_cast hm)
    exact ⟨q, h1, by exact_mod_cast h2, h3⟩
  induction e with
  | arg w i =>
    obtain ⟨q, h1, h2, h3⟩ := ty w
    refine ⟨_, _, by rw [conv, h1]; rfl, rfl, ?_⟩
    rw [BitVec.toNat_ofNat, hs.1, hsw, Nat.mod_eq_of_lt ((Nat.mod_lt _ hm0).trans (by omega))]
    push_cast; rfl
  | load w i =>
    obtain ⟨q, h1, h2, h3⟩ := ty w
    have hw' : w < 64 := hb.1
    refine ⟨.enc _ w i, _, by rw [conv, h1, Option.bind_some, if_pos (by rw [hsw]; exact hw')],
      rfl, ?_⟩
    have hb' : (ρ.mem w i).toNat < m := hb.2
    rw [BitVec.toNat_setWidth, hs.2, hsw, Nat.mod_eq_of_lt (by omega)]
    exact (Int.emod_eq_of_lt (by omega) (by exact_mod_cast hb')).symm
  | @const w dense c =>
    obtain ⟨q, h1, h2, h3⟩ := ty w
    refine ⟨_, _, by rw [conv, h1]; rfl, rfl, ?_⟩
    have hb' : c.toNat < m := hb.1
    rw [convConst_nonneg dense c (by rw [hsw]; omega) hb.2]
    exact (Int.emod_eq_of_lt (by omega) (by exact_mod_cast hb')).symm
  | @bin w k a b iha ihb =>
    obtain ⟨q, h1, h2, h3⟩ := ty w
    obtain ⟨pa, ra, ca, va, ma⟩ := iha hn.2.1 hb.1
    obtain ⟨pb, rb, cb, vb, mb⟩ := ihb hn.2.2 hb.2
    have h0 : 0 < q.toNat := by omega
    have la : ra.toNat < q.toNat := by
      have := Int.emod_lt_of_pos (a.exact ρ) (show (0 : Int) < m by exact_mod_cast hm0)
      omega
    have lb : rb.toNat < q.toNat := by
      have := Int.emod_lt_of_pos (b.exact ρ) (show (0 : Int) < m by exact_mod_cast hm0)
      omega
    cases k with
    | add =>
      obtain ⟨r, hr, hv⟩ := lowerAdd_canon h3 h0 la lb
      refine ⟨.add q pa pb, r, by simp [conv, h1, ca, cb, convBin], by simp [M.run, va, vb, hr], ?_⟩
      rw [hv, h2, ma, mb]; exact (Int.add_emod _ _ _).symm
    | sub =>
      obtain ⟨r, hr, hv⟩ := lowerSub_canon h3 h0 la lb
      refine ⟨.sub q pa pb, r, by simp [conv, h1, ca, cb, convBin], by simp [M.run, va, vb, hr], ?_⟩
      rw [hv, h2, ma, mb]; exact (Int.sub_emod _ _ _).symm
    | mul =>
      obtain ⟨r, hr, hv⟩ := lowerMul_int (a := ra) (b := rb) h0
      refine ⟨.mul q pa pb, r, by simp [conv, h1, ca, cb, convBin], by simp [M.run, va, vb, hr], ?_⟩
      rw [hv, h2, ma, mb]; exact (Int.mul_emod _ _ _).symm
    | remu => exact absurd rfl hn.1
  | @ext v s w hvw a ih =>
    obtain ⟨qn, h1, h2, h3⟩ := ty w
    obtain ⟨qo, k1, k2, k3⟩ := ty v
    obtain ⟨pa, ra, ca, va, ma⟩ := ih hn hb
    have h0 : 0 < qn.toNat := by omega
    obtain ⟨r, hr, hv⟩ := C16_exact (qo := qo) (qn := qn) ra h3 h0
    refine ⟨.switch qo qn pa, r, by simp [conv, h1, k1, ca], by simp [M.run, va, hr], ?_⟩
    rw [hv, h2, k2]
    have e1 : (ra.toNat : Int) % m = a.exact ρ % m := by rw [ma, Int.emod_emod_of_dvd _ (dvd_refl _)]
    split_ifs
    · exact e1
    · rw [Int.sub_emod_right]; exact e1

end Heir.ArithMod
