import Verif.ModArith.Lemmas2

/-!
# Properties C12–C16, C18–C20: the `mod_arith` dialect

The modulus is always assumed accepted by the type verifier and non-zero (the verifier does
not reject `0`, with which every lowered operation is undefined, see
`C12_modulus_zero_accepted_but_undefined`).
-/

namespace Heir.ModArith

open Heir.Arith

variable {w : Nat}

/-! ## C12 -/

/-- C12, add. -/
theorem C12_add {q a b : BitVec w} (hq : typeVerify q = true) (h0 : 0 < q.toNat)
    (ha : Canonical q a) (hb : Canonical q b) :
    ∃ r, lowerAdd q a b = some r ∧ (r.toNat : Int) = ((a.toNat : Int) + b.toNat) % q.toNat := by
  obtain ⟨r, h, hv⟩ := lowerAdd_some hq h0 ha hb
  exact ⟨r, h, by rw [hv]; push_cast; rfl⟩

example : typeVerify (7#4) = true ∧ 0 < (7#4).toNat ∧ Canonical 7#4 6#4 ∧ Canonical 7#4 5#4 ∧
    lowerAdd 7#4 6#4 5#4 = some 4#4 := by
  refine ⟨by decide, by decide, by decide, by decide, by decide⟩

/-- C12, sub. -/
theorem C12_sub {q a b : BitVec w} (hq : typeVerify q = true) (h0 : 0 < q.toNat)
    (ha : Canonical q a) (hb : Canonical q b) :
    ∃ r, lowerSub q a b = some r ∧ (r.toNat : Int) = ((a.toNat : Int) - b.toNat) % q.toNat := by
  obtain ⟨r, h, hv⟩ := lowerSub_some hq h0 ha hb
  exact ⟨r, h, by rw [hv]; exact emod_sub_form _ _ _ (le_of_lt hb)⟩

example : lowerSub 7#4 2#4 5#4 = some 4#4 := by decide

/-- C12, mul. -/
theorem C12_mul {q a b : BitVec w} (h0 : 0 < q.toNat) :
    ∃ r, lowerMul q a b = some r ∧ (r.toNat : Int) = ((a.toNat : Int) * b.toNat) % q.toNat := by
  obtain ⟨r, h, hv⟩ := lowerMul_some q a b h0
  exact ⟨r, h, by rw [hv]; push_cast; rfl⟩

example : lowerMul 7#4 6#4 6#4 = some 1#4 := by decide

/-- C12, mac. -/
theorem C12_mac {q a b c : BitVec w} (h0 : 0 < q.toNat) :
    ∃ r, lowerMac q a b c = some r ∧
      (r.toNat : Int) = ((a.toNat : Int) * b.toNat + c.toNat) % q.toNat := by
  obtain ⟨r, h, hv⟩ := lowerMac_some q a b c h0
  exact ⟨r, h, by rw [hv]; push_cast; rfl⟩

example : lowerMac 7#4 6#4 6#4 6#4 = some 0#4 := by decide

/-- C12 for whole programs: on canonical inputs and canonical constants the lowered code of
any expression is defined, and its result is the canonical representative of the value the
expression denotes in `ℤ/q`. -/
theorem C12_program {q : BitVec w} (hq : typeVerify q = true) (h0 : 0 < q.toNat)
    (env : Nat → BitVec w) (henv : ∀ i, Canonical q (env i)) (e : Expr w)
    (hc : e.CanonicalConsts q) :
    ∃ r, lowerRun q env e = some r ∧ Canonical q r ∧
      (r.toNat : ZMod q.toNat) = e.eval q.toNat (fun i => ((env i).toNat : ZMod q.toNat)) :=
  lowerRun_some hq h0 env henv e hc

example : lowerRun 7#4 (fun _ => 5#4) (.sub (.mac (.var 0) (.var 1) (.const 3#4)) (.var 2))
    = some 2#4 := by decide

/-- The verifier's bound is needed: with a modulus using the top bit the addition overflows.
(Such a modulus is rejected.) -/
theorem C12_bound_needed : typeVerify (13#4) = false ∧
    lowerAdd 13#4 12#4 12#4 = some 8#4 ∧ (12 + 12) % 13 = 11 := by decide

/-- Modulus `0` passes the type verifier but every operation on it is undefined. -/
theorem C12_modulus_zero_accepted_but_undefined (a b : BitVec w) :
    typeVerify 0#w = true ∧ lowerAdd 0#w a b = none ∧ lowerSub 0#w a b = none ∧
      lowerMul 0#w a b = none := by
  refine ⟨by simp [typeVerify], by simp [lowerAdd, remui], by simp [lowerSub, remui], ?_⟩
  simp [lowerMul, remui]

/-! ## C13 -/

/-- C13: `reduce` maps any storage word, read as a signed integer, to its residue. -/
theorem C13_reduce {q : BitVec w} (a : BitVec w) (hq : typeVerify q = true)
    (h0 : 0 < q.toNat) :
    ∃ r, lowerReduce q a = some r ∧ (r.toNat : Int) = a.toInt % q.toNat :=
  lowerReduce_some a hq h0

example : lowerReduce 7#4 (-8 : BitVec 4) = some 6#4 ∧ (-8 : Int) % 7 = 6 := by decide

/-! ## C14 -/

/-- C14, standard lift. -/
theorem C14_lift_standard {q : BitVec w} (a : BitVec w) (hq : typeVerify q = true)
    (h0 : 0 < q.toNat) :
    ∃ r, lowerLiftStandard q a = some r ∧ r.toInt = a.toInt % q.toNat := by
  obtain ⟨r, h, hv, hlt⟩ := lowerLiftStandard_some a hq h0
  refine ⟨r, h, ?_⟩
  rw [BitVec.toInt_eq_toNat_of_lt (by have := two_mul_le hq h0; omega), hv]

example : lowerLiftStandard 7#4 5#4 = some 5#4 ∧ lowerLiftStandard 7#4 (-1 : BitVec 4) = some 6#4 := by
  decide

/-- C14, centered lift; missing: the modulus `2^(w-1) - 1`, which the type verifier accepts
and for which the claim is false (`C14_lift_centered_violated`). -/
theorem C14_lift_centered_partial {q : BitVec w} (a : BitVec w) (hq : typeVerify q = true)
    (h0 : 0 < q.toNat) (hm : q.toNat ≠ 2 ^ (w - 1) - 1) :
    ∃ r, lowerLiftCentered q a = some r ∧ IsCentered q.toNat a.toInt r.toInt := by
  have hlt := typeVerify_lt hq
  obtain ⟨r, h, hv⟩ := lowerLiftCentered_some a hq h0 (by omega)
  refine ⟨r, h, ?_⟩
  have hq' : (0 : Int) < q.toNat := by exact_mod_cast h0
  have hb := Int.emod_lt_of_pos a.toInt hq'
  have hb0 := Int.emod_nonneg a.toInt hq'.ne'
  rw [hv]
  split
  · refine ⟨?_, by omega, by omega⟩
    exact (Int.emod_emod_of_dvd _ dvd_rfl ▸ by simp [Int.ModEq])
  · refine ⟨?_, by omega, by omega⟩
    simp [Int.ModEq]

example : (17#6).toNat ≠ 2 ^ (6 - 1) - 1 ∧ typeVerify 17#6 = true ∧
    lowerLiftCentered 17#6 9#6 = some (-8 : BitVec 6) ∧ lowerLiftCentered 17#6 8#6 = some 8#6 := by
  decide

/-- C14 violated: for the largest accepted modulus `q = 2^(w-1)-1` (for instance the Mersenne
prime `2^31-1` in `i32`) the bound `(q+1)/2` is computed with signed overflow, and *every*
residue `r` is lifted to `r - q`; the results for `r ≤ (q-1)/2`, in particular `0`, are not
centred. -/
theorem C14_lift_centered_violated (hw : 3 ≤ w) (a : BitVec w)
    (ha : a.toNat < 2 ^ (w - 1) - 1) :
    typeVerify (BitVec.ofNat w (2 ^ (w - 1) - 1)) = true ∧
    ∃ r, lowerLiftCentered (BitVec.ofNat w (2 ^ (w - 1) - 1)) a = some r ∧
      r.toInt = (a.toNat : Int) - (2 ^ (w - 1) - 1 : Nat) := by
  have hp := two_pow_pred (w := w) (by omega)
  have h4 : 2 ^ 2 ≤ 2 ^ (w - 1) := Nat.pow_le_pow_right (by norm_num) (by omega)
  set q := BitVec.ofNat w (2 ^ (w - 1) - 1) with hqdef
  have hqn : q.toNat = 2 ^ (w - 1) - 1 := by
    rw [hqdef, BitVec.toNat_ofNat]; exact Nat.mod_eq_of_lt (by omega)
  have hv : typeVerify q = true := by
    simp only [typeVerify, decide_eq_true_eq, Nat.size_le, hqn]; omega
  have h0 : 0 < q.toNat := by omega
  refine ⟨hv, ?_⟩
  obtain ⟨p, hp1, hp2, hp3⟩ := lowerLiftStandard_some a hv h0
  have hai : a.toInt = a.toNat := BitVec.toInt_eq_toNat_of_lt (by omega)
  have hpa : p.toNat = a.toNat := by
    rw [hai, Int.emod_eq_of_lt (by omega) (by omega)] at hp2; exact_mod_cast hp2
  have t2 : (2#w).toNat = 2 := by rw [BitVec.toNat_ofNat]; exact Nat.mod_eq_of_lt (by omega)
  have t1 : (1#w).toNat = 1 := by rw [BitVec.toNat_ofNat]; exact Nat.mod_eq_of_lt (by omega)
  have n0 : 2#w ≠ 0#w := by
    intro h; have := congrArg BitVec.toNat h; rw [t2] at this; simp at this
  have n1 : 2#w ≠ BitVec.allOnes w := by
    intro h; have := congrArg BitVec.toNat h; rw [t2, BitVec.toNat_allOnes] at this; omega
  have hd : divsi (q + 1#w) 2#w = some ((q + 1#w).sdiv 2#w) := by simp [divsi, n0, n1]
  refine ⟨_, by simp only [lowerLiftCentered, hp1, hd]; rfl, ?_⟩
  have hneg : ((q + 1#w).sdiv 2#w).toInt < 0 := by
    have ta : (q + 1#w).toNat = 2 ^ (w - 1) := by
      rw [BitVec.toNat_add, t1, hqn]
      rw [Nat.mod_eq_of_lt (by omega)]; omega
    have ti : (q + 1#w).toInt = -(2 ^ (w - 1) : Nat) := by
      rw [BitVec.toInt_eq_toNat_cond, ta, if_neg (by omega)]; omega
    have ti2 : (2#w).toInt = 2 := by
      rw [BitVec.toInt_eq_toNat_of_lt (by omega), t2]; rfl
    rw [BitVec.toInt_sdiv_of_ne_or_ne _ _ (Or.inr (by
      intro h; apply n1; rw [h, BitVec.neg_one_eq_allOnes])), ti, ti2]
    rw [Int.neg_tdiv]
    have : 0 < Int.tdiv ((2 ^ (w - 1) : Nat) : Int) 2 := by
      rw [Int.tdiv_eq_ediv_of_nonneg (by omega)]; omega
    omega
  have hge : ((q + 1#w).sdiv 2#w).sle p = true := by
    simp only [BitVec.sle, decide_eq_true_eq]
    have : p.toInt = p.toNat := BitVec.toInt_eq_toNat_of_lt (by omega)
    omega
  rw [hge]
  simp only [select, if_true]
  rw [toInt_sub_of hp3 (typeVerify_lt hv), hpa, hqn]

/-- C14 violated, concretely: `0 : Z/127` in `i8` is lifted to `-127`. -/
theorem C14_lift_centered_violated_i8 :
    typeVerify 127#8 = true ∧ lowerLiftCentered 127#8 0#8 = some (-127 : BitVec 8) ∧
      ¬ IsCentered 127 0 (-127) := by
  refine ⟨by decide, by decide, ?_⟩
  rintro ⟨-, h, -⟩; omega

/-! ## C15 -/

/-- C15: Barrett reduction followed by `subifge`.  `m` is the modulus attribute (any width of
at least three times the modulus size, otherwise `APInt::trunc` asserts), `y` the modulus as
a word of the input type. -/
theorem C15_barrett {wa : Nat} {m : BitVec wa} {x : BitVec w} (hm : 2 ≤ m.toNat)
    (hv : barrettVerify w m = true) (ha : 3 * barrettBits m ≤ wa)
    (hx : x.toNat < m.toNat * m.toNat) :
    ∃ r, lowerBarrett m x = some r ∧
      (r.toNat = x.toNat % m.toNat ∨ r.toNat = x.toNat % m.toNat + m.toNat) ∧
      ∀ y : BitVec w, y.toNat = m.toNat → (lowerSubIfGE r y).toNat = x.toNat % m.toNat := by
  have hb : barrettBits m ≤ w ∧ w ≤ 2 * barrettBits m := by
    simp [barrettVerify] at hv; exact hv.1
  have hk : 1 ≤ barrettBits m := by
    by_contra hc
    have hz : barrettBits m = 0 := by omega
    rw [hz] at hb
    have hm1 : (m - 1#wa).toNat = 0 := by
      have : (m - 1#wa).toNat.size = 0 := hz
      simpa [Nat.size_eq_zero] using this
    have : m - 1#wa = 0#wa := BitVec.eq_of_toNat_eq (by simpa using hm1)
    have hm' : m = 1#wa := by
      have := congrArg (· + 1#wa) this; simpa using this
    have : m.toNat ≤ 1 := by rw [hm', BitVec.toNat_ofNat]; exact Nat.mod_le _ _
    omega
  obtain ⟨r, h, h1, h2, _⟩ := lowerBarrett_some hm ha (by omega) hx
  refine ⟨r, h, ?_, ?_⟩
  · rcases lt_or_ge r.toNat m.toNat with hlt | hge
    · left; rwa [Nat.mod_eq_of_lt hlt] at h1
    · right
      rw [Nat.mod_eq_sub_mod hge, Nat.mod_eq_of_lt (by omega)] at h1; omega
  · intro y hy
    rcases lt_or_ge r.toNat m.toNat with hlt | hge
    · have : y.ule r = false := by simp [BitVec.ule, hy]; omega
      simp only [lowerSubIfGE, this, select, Bool.false_eq_true, if_false]
      rwa [Nat.mod_eq_of_lt hlt] at h1
    · have : y.ule r = true := by simp [BitVec.ule, hy]; omega
      simp only [lowerSubIfGE, this, select, if_true]
      rw [Nat.mod_eq_sub_mod hge, Nat.mod_eq_of_lt (by omega)] at h1
      rw [BitVec.toNat_sub, hy]
      have := r.isLt
      have e : 2 ^ w - m.toNat + r.toNat = (r.toNat - m.toNat) + 2 ^ w := by omega
      rw [e, Nat.add_mod_right, Nat.mod_eq_of_lt (by omega), h1]

example : barrettVerify 10 (17#64) = true ∧ 3 * barrettBits 17#64 ≤ 64 ∧
    lowerBarrett 17#64 288#10 = some 16#10 ∧ lowerBarrett 17#64 254#10 = some 16#10 := by
  refine ⟨?_, ?_, ?_, ?_⟩ <;> decide

/-- Both alternatives of C15 occur: for `q = 17`, `x = 17` the extra modulus remains. -/
theorem C15_extra_modulus_occurs : lowerBarrett 17#64 17#10 = some 17#10 := by decide

/-- An attribute narrower than three times the modulus size trips `APInt::trunc`'s assertion. -/
theorem C15_narrow_attribute_undefined {wa : Nat} (m : BitVec wa) (x : BitVec w)
    (h : wa < 3 * barrettBits m) : lowerBarrett m x = none := by
  unfold lowerBarrett; rw [if_neg (by omega)]

example : (10 : Nat) < 3 * barrettBits 17#10 := by decide

/-! ## C16 -/

/-- The value `mod_switch` produces, for every storage word: it reduces `a` when
`a < ⌊q/2⌋` and `a - q` otherwise. -/
theorem C16_exact {wo wn : Nat} {qo : BitVec wo} {qn : BitVec wn} (a : BitVec wo)
    (hn : typeVerify qn = true) (hn0 : 0 < qn.toNat) :
    ∃ r, lowerModSwitch qo qn a = some r ∧
      (r.toNat : Int) =
        (if a.toNat < qo.toNat / 2 then (a.toNat : Int) else (a.toNat : Int) - qo.toNat)
          % qn.toNat :=
  lowerModSwitch_some hn hn0

/-- C16; missing: for an odd old modulus the residue `(q-1)/2`, see `C16_violated`. -/
theorem C16_modSwitch_partial {wo wn : Nat} {qo : BitVec wo} {qn : BitVec wn} {a : BitVec wo}
    (hn : typeVerify qn = true) (hn0 : 0 < qn.toNat)
    (ha : Canonical qo a) (hodd : 2 * a.toNat + 1 ≠ qo.toNat) :
    ∃ r, lowerModSwitch qo qn a = some r ∧
      ∀ z : Int, IsCentered qo.toNat a.toNat z → (r.toNat : Int) = z % qn.toNat := by
  obtain ⟨r, h, hv⟩ := C16_exact a hn hn0 (qo := qo)
  refine ⟨r, h, ?_⟩
  rintro z ⟨hz, hz1, hz2⟩
  rw [hv]; congr 1
  have ha' : a.toNat < qo.toNat := ha
  obtain ⟨k, hk⟩ := hz.dvd
  have hk' : (a.toNat : Int) = z + qo.toNat * k := by omega
  have hqp : (0 : Int) < qo.toNat := by omega
  have hk0 : k = 0 ∨ k = 1 := by
    have h1 : -1 < k := by
      by_contra hc
      have : (qo.toNat : Int) * k ≤ qo.toNat * (-1) :=
        mul_le_mul_of_nonneg_left (by omega) hqp.le
      omega
    have h2 : k < 2 := by
      by_contra hc
      have : (qo.toNat : Int) * 2 ≤ qo.toNat * k :=
        mul_le_mul_of_nonneg_left (by omega) hqp.le
      omega
    omega
  rcases hk0 with rfl | rfl
  · rw [if_pos (by omega)]; omega
  · rw [if_neg (by omega)]; omega

example : Canonical 17#8 9#8 ∧ typeVerify 5#8 = true ∧ lowerModSwitch 17#8 5#8 9#8 = some 2#8 ∧
    (-8 : Int) % 5 = 2 := by
  refine ⟨by decide, by decide, by decide, by decide⟩

/-- C16 violated: for every odd old modulus, the residue `(q-1)/2` is its own centred
representative (and `lift centered` returns it unchanged), but `mod_switch` reduces
`(q-1)/2 - q`; the two differ unless the new modulus divides the old one. -/
theorem C16_violated {wo wn : Nat} {qo : BitVec wo} {qn : BitVec wn} {a : BitVec wo}
    (hn : typeVerify qn = true) (hn0 : 0 < qn.toNat)
    (hodd : 2 * a.toNat + 1 = qo.toNat) (hd : ¬ qn.toNat ∣ qo.toNat) :
    IsCentered qo.toNat a.toNat a.toNat ∧
    ∃ r, lowerModSwitch qo qn a = some r ∧ (r.toNat : Int) ≠ (a.toNat : Int) % qn.toNat := by
  refine ⟨⟨rfl, by omega, by omega⟩, ?_⟩
  obtain ⟨r, h, hv⟩ := C16_exact a hn hn0 (qo := qo)
  refine ⟨r, h, ?_⟩
  rw [hv, if_neg (by omega)]
  intro hc
  apply hd
  have : (qn.toNat : Int) ∣ (a.toNat : Int) - ((a.toNat : Int) - qo.toNat) :=
    (Int.ModEq.dvd hc)
  have h2 : (qn.toNat : Int) ∣ qo.toNat := by simpa using this
  exact_mod_cast h2

/-- C16 violated, concretely: `8 : Z/17` lifts to `8`, but switches to `8 - 17 = -9 ≡ 1 mod 5`
instead of `8 ≡ 3 mod 5`. -/
theorem C16_violated_example : lowerLiftCentered 17#8 8#8 = some 8#8 ∧
    lowerModSwitch 17#8 5#8 8#8 = some 1#8 := by decide

/-! ## C18 -/

/-- C18: folding agrees with executing the lowered code on canonical constants. -/
theorem C18_fold_eq_lower {q a b c : BitVec w} (hq : typeVerify q = true) (h0 : 0 < q.toNat)
    (ha : Canonical q a) (hb : Canonical q b) :
    (∃ r, foldScalar .add q a b c = some r ∧ lowerAdd q a b = some r) ∧
    (∃ r, foldScalar .sub q a b c = some r ∧ lowerSub q a b = some r) ∧
    (∃ r, foldScalar .mul q a b c = some r ∧ lowerMul q a b = some r) ∧
    (∃ r, foldScalar .mac q a b c = some r ∧ lowerMac q a b c = some r) := by
  refine ⟨?_, ?_, ?_, ?_⟩
  · obtain ⟨r, h, hv⟩ := foldScalar_add q a b c h0
    obtain ⟨s, k, kv⟩ := lowerAdd_some hq h0 ha hb
    exact ⟨r, h, by rw [k, BitVec.eq_of_toNat_eq (hv.trans kv.symm)]⟩
  · obtain ⟨r, h, hv⟩ := foldScalar_sub q a b c h0
    obtain ⟨s, k, kv⟩ := lowerSub_some hq h0 ha hb
    rw [Nat.mod_eq_of_lt (a := b.toNat) hb] at hv
    exact ⟨r, h, by rw [k, BitVec.eq_of_toNat_eq (hv.trans kv.symm)]⟩
  · obtain ⟨r, h, hv⟩ := foldScalar_mul q a b c h0
    obtain ⟨s, k, kv⟩ := lowerMul_some q a b h0
    exact ⟨r, h, by rw [k, BitVec.eq_of_toNat_eq (hv.trans kv.symm)]⟩
  · obtain ⟨r, h, hv⟩ := foldScalar_mac q a b c h0
    obtain ⟨s, k, kv⟩ := lowerMac_some q a b c h0
    rw [add_comm] at hv
    exact ⟨r, h, by rw [k, BitVec.eq_of_toNat_eq (hv.trans kv.symm)]⟩

example : foldScalar .sub 7#4 2#4 5#4 0#4 = some 4#4 ∧ lowerSub 7#4 2#4 5#4 = some 4#4 := by
  decide

/-- Folding gives the mathematical value even on non-canonical constants. -/
theorem C18_fold_value {q a b c : BitVec w} (h0 : 0 < q.toNat) :
    (∃ r, foldScalar .add q a b c = some r ∧ (r.toNat : Int) = ((a.toNat : Int) + b.toNat) % q.toNat) ∧
    (∃ r, foldScalar .sub q a b c = some r ∧ (r.toNat : Int) = ((a.toNat : Int) - b.toNat) % q.toNat) ∧
    (∃ r, foldScalar .mul q a b c = some r ∧ (r.toNat : Int) = ((a.toNat : Int) * b.toNat) % q.toNat) ∧
    (∃ r, foldScalar .mac q a b c = some r ∧
      (r.toNat : Int) = ((a.toNat : Int) * b.toNat + c.toNat) % q.toNat) := by
  refine ⟨?_, ?_, ?_, ?_⟩
  · obtain ⟨r, h, hv⟩ := foldScalar_add q a b c h0
    exact ⟨r, h, by rw [hv]; push_cast; rfl⟩
  · obtain ⟨r, h, hv⟩ := foldScalar_sub q a b c h0
    refine ⟨r, h, ?_⟩
    rw [hv, emod_sub_form _ _ _ (Nat.mod_lt _ h0).le]; push_cast
    rw [Int.sub_emod, Int.emod_emod_of_dvd _ dvd_rfl, ← Int.sub_emod]
  · obtain ⟨r, h, hv⟩ := foldScalar_mul q a b c h0
    exact ⟨r, h, by rw [hv]; push_cast; rfl⟩
  · obtain ⟨r, h, hv⟩ := foldScalar_mac q a b c h0
    exact ⟨r, h, by rw [hv]; push_cast; rw [add_comm]⟩

/-- Non-canonical constants: the folder and the lowered code disagree (the lowering's
precondition fails): `6 + 10` with `q = 7 : i4`. -/
theorem C18_noncanonical_disagree :
    foldScalar .add 7#4 6#4 10#4 0#4 = some 2#4 ∧ lowerAdd 7#4 6#4 10#4 = some 0#4 := by decide

/-! ## C19 -/

/-- C19, exact characterisation: a negative constant accepted by the parser folds to its
residue if and only if the modulus divides `2^w`. -/
theorem C19_negative_constant_iff {q : BitVec w} {c : Int} {v : BitVec w} (h0 : 0 < q.toNat)
    (hc : c < 0) (hp : parseConstant w c = some v) :
    ((foldConstant q v).toNat : Int) = c % q.toNat ↔ q.toNat ∣ 2 ^ w := by
  have hw := pos_width h0
  have hpp := two_pow_pred hw
  rw [parseConstant, if_pos hc] at hp
  split at hp
  · rename_i hlo
    obtain rfl := Option.some.inj hp
    have hv : ((BitVec.ofInt w c).toNat : Int) = c + (2 ^ w : Nat) := by
      rw [BitVec.toNat_ofInt]
      have h1 : (0 : Int) < (2 ^ w : Nat) := by exact_mod_cast Nat.two_pow_pos w
      rw [Int.toNat_of_nonneg (Int.emod_nonneg _ (by exact_mod_cast h1.ne'))]
      rw [← Int.add_emod_right]
      refine Int.emod_eq_of_lt ?_ ?_
      · push_cast [hpp] at *; linarith [pow_pos (show (0 : Int) < 2 by norm_num) (w - 1)]
      · push_cast at *; linarith
    simp only [foldConstant, BitVec.umod_eq, BitVec.toNat_umod]
    rw [Int.natCast_emod, hv]
    constructor
    · intro h
      have : (q.toNat : Int) ∣ (c + (2 ^ w : Nat)) - c := (Int.ModEq.dvd h.symm)
      have h2 : (q.toNat : Int) ∣ ((2 ^ w : Nat) : Int) := by simpa using this
      exact_mod_cast h2
    · intro h
      have h2 : (q.toNat : Int) ∣ ((2 ^ w : Nat) : Int) := by exact_mod_cast h
      rw [Int.add_emod, Int.emod_eq_zero_of_dvd h2, add_zero, Int.emod_emod_of_dvd _ dvd_rfl]
  · simp at hp

example : parseConstant 8 (-3) = some 253#8 := by decide

/-- C19; missing: moduli not dividing `2^w`, for which the claim is false. -/
theorem C19_negative_constant_partial {q : BitVec w} {c : Int} {v : BitVec w}
    (h0 : 0 < q.toNat) (hc : c < 0) (hp : parseConstant w c = some v)
    (hd : q.toNat ∣ 2 ^ w) : ((foldConstant q v).toNat : Int) = c % q.toNat :=
  (C19_negative_constant_iff h0 hc hp).2 hd

example : (16#8).toNat ∣ 2 ^ 8 ∧ foldConstant 16#8 253#8 = 13#8 ∧ (-3 : Int) % 16 = 13 := by
  decide

/-- C19 violated: `-1 : int<7 : i8>` folds to `3`, not to `6`. -/
theorem C19_violated : typeVerify 7#8 = true ∧ parseConstant 8 (-1) = some 255#8 ∧
    foldConstant 7#8 255#8 = 3#8 ∧ (-1 : Int) % 7 = 6 := by decide

/-- C19 violated for a common NTT modulus: `-1 : int<65537 : i32>` folds to `0`. -/
theorem C19_violated_65537 : typeVerify 65537#32 = true ∧
    parseConstant 32 (-1) = some (BitVec.allOnes 32) ∧
    foldConstant 65537#32 (BitVec.allOnes 32) = 0#32 := by decide

/-- C19 violated before folding too: the raw word of a negative constant is not canonical, and
the lowered addition `2 + (-1)` modulo 7 in `i8` yields `1`, but `0 + (-1)` yields `3`. -/
theorem C19_violated_unfolded :
    lowerRun 7#8 (fun _ => 0#8) (.add (.var 0) (.const 255#8)) = some 3#8 := by decide

/-- Non-negative constants do fold to their residue. -/
theorem C19_nonnegative {q : BitVec w} {c : Int} {v : BitVec w}
    (hc : 0 ≤ c) (hp : parseConstant w c = some v) :
    ((foldConstant q v).toNat : Int) = c % q.toNat := by
  rw [parseConstant, if_neg (by omega)] at hp
  split at hp
  · rename_i hlt
    obtain rfl := Option.some.inj hp
    have hv : ((BitVec.ofInt w c).toNat : Int) = c := by
      rw [BitVec.toNat_ofInt]
      have h1 : (0 : Int) < (2 ^ w : Nat) := by exact_mod_cast Nat.two_pow_pos w
      rw [Int.toNat_of_nonneg (Int.emod_nonneg _ (by exact_mod_cast h1.ne'))]
      exact Int.emod_eq_of_lt hc (by push_cast; exact hlt)
    simp only [foldConstant, BitVec.umod_eq, BitVec.toNat_umod]
    rw [Int.natCast_emod, hv]
  · simp at hp

example : parseConstant 8 200 = some 200#8 ∧ foldConstant 7#8 200#8 = 4#8 := by decide

/-! ## C20 -/

/-- C20: every rewrite pattern, the mac rewrite, folding and operand commutation, applied any
number of times at any positions in any order, preserve the value in `ℤ/q`. -/
theorem C20_rewrites_preserve_value {q : BitVec w} (h0 : 0 < q.toNat)
    (env : Nat → ZMod q.toNat) {e e' : Expr w} (h : Relation.ReflTransGen (Step q) e e') :
    e.eval q.toNat env = e'.eval q.toNat env := by
  induction h with
  | refl => rfl
  | tail _ hs ih => exact ih.trans (step_eval h0 env hs)

/-- C20, executable form: for canonical constants, lowering before or after any sequence of
rewrites gives code computing the same word on canonical inputs. -/
theorem C20_rewrites_preserve_lowered_code {q : BitVec w} (hq : typeVerify q = true)
    (h0 : 0 < q.toNat) (env : Nat → BitVec w) (henv : ∀ i, Canonical q (env i))
    {e e' : Expr w} (hc : e.CanonicalConsts q) (h : Relation.ReflTransGen (Step q) e e') :
    lowerRun q env e = lowerRun q env e' := by
  have hc' : e'.CanonicalConsts q := by
    induction h with
    | refl => exact hc
    | tail _ hs ih => exact step_canon h0 hs ih
  obtain ⟨r, hr, hrc, hrv⟩ := lowerRun_some hq h0 env henv e hc
  obtain ⟨r', hr', hrc', hrv'⟩ := lowerRun_some hq h0 env henv e' hc'
  rw [hr, hr', canonical_ext hrc hrc' (by
    rw [hrv, hrv']; exact C20_rewrites_preserve_value h0 _ h)]

/-- A two-step rewrite `x + 6·y ⟶ x - y`, then congruence inside a product (q = 7). -/
example : Relation.ReflTransGen (Step 7#4)
    (.mul (.add (.var 0) (.mul (.var 1) (.const 6#4))) (.const 1#4))
    (.sub (.var 0) (.var 1)) := by
  refine .tail (.tail .refl (Step.mulL (Step.pat (p := .addMulNegativeOneRhs)
      (e' := .sub (.var 0) (.var 1)) ?_)))
    (Step.pat (p := .mulOne) ?_)
  · decide
  · decide

end Heir.ModArith
