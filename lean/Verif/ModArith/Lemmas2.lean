import Verif.ModArith.Lemmas
import Verif.ModArith.Spec

namespace Heir.ModArith

open Heir.Arith

variable {w : Nat}

/-! ### centred lift -/

theorem divsi_two {q : BitVec w} (h0 : 0 < q.toNat) (h : q.toNat + 1 < 2 ^ (w - 1)) :
    ∃ b, divsi (q + 1#w) 2#w = some b ∧ b.toNat = (q.toNat + 1) / 2 := by
  have hw := pos_width h0
  have hw3 : 3 ≤ w := by
    by_contra hc
    have : w = 1 ∨ w = 2 := by omega
    rcases this with rfl | rfl <;> simp at h
    omega
  have h8 : 2 ^ 3 ≤ 2 ^ w := Nat.pow_le_pow_right (by norm_num) hw3
  have h4 : 2 ^ 2 ≤ 2 ^ (w - 1) := Nat.pow_le_pow_right (by norm_num) (by omega)
  have hp := two_pow_pred hw
  have t2 : (2#w).toNat = 2 := by rw [BitVec.toNat_ofNat]; exact Nat.mod_eq_of_lt (by omega)
  have t1 : (1#w).toNat = 1 := by rw [BitVec.toNat_ofNat]; exact Nat.mod_eq_of_lt (by omega)
  have n0 : 2#w ≠ 0#w := by
    intro h; have := congrArg BitVec.toNat h; rw [t2] at this; simp at this
  have n1 : 2#w ≠ BitVec.allOnes w := by
    intro h; have := congrArg BitVec.toNat h; rw [t2, BitVec.toNat_allOnes] at this; omega
  refine ⟨_, by simp [divsi, n0, n1]; rfl, ?_⟩
  have ta : (q + 1#w).toNat = q.toNat + 1 := by
    rw [BitVec.toNat_add, t1]; exact Nat.mod_eq_of_lt (by omega)
  have m1 : (q + 1#w).msb = false := by rw [BitVec.msb_eq_false_iff_two_mul_lt]; omega
  have m2 : (2#w).msb = false := by rw [BitVec.msb_eq_false_iff_two_mul_lt]; omega
  rw [BitVec.sdiv_eq, m1, m2]
  simp only [BitVec.udiv_eq, BitVec.toNat_udiv, ta, t2]

theorem toInt_sub_of {r q : BitVec w} (hr : r.toNat < q.toNat) (hq : q.toNat < 2 ^ (w - 1)) :
    (r - q).toInt = (r.toNat : Int) - q.toNat := by
  have hw := pos_width (q := q) (by omega)
  have hp := two_pow_pred hw
  rw [BitVec.toInt_eq_toNat_cond, BitVec.toNat_sub]
  have e : 2 ^ w - q.toNat + r.toNat < 2 ^ w := by omega
  rw [Nat.mod_eq_of_lt e, if_neg (by omega)]
  omega

theorem sle_eq {a b : BitVec w} (ha : 2 * a.toNat < 2 ^ w) (hb : 2 * b.toNat < 2 ^ w) :
    a.sle b = decide (a.toNat ≤ b.toNat) := by
  simp [BitVec.sle, BitVec.toInt_eq_toNat_of_lt ha, BitVec.toInt_eq_toNat_of_lt hb]

theorem lowerLiftCentered_some {q : BitVec w} (a : BitVec w) (hq : typeVerify q = true)
    (h0 : 0 < q.toNat) (hm : q.toNat + 1 < 2 ^ (w - 1)) :
    ∃ r, lowerLiftCentered q a = some r ∧
      r.toInt = if (q.toNat + 1) / 2 ≤ (a.toInt % q.toNat).toNat
        then a.toInt % q.toNat - q.toNat else a.toInt % q.toNat := by
  have hlt := typeVerify_lt hq
  have h2 := two_mul_le hq h0
  have hp := two_pow_pred (pos_width h0)
  obtain ⟨p, hp1, hp2, hp3⟩ := lowerLiftStandard_some a hq h0
  obtain ⟨b, hb1, hb2⟩ := divsi_two h0 hm
  refine ⟨_, by simp only [lowerLiftCentered, hp1, hb1]; rfl, ?_⟩
  rw [sle_eq (by omega) (by omega), ← hp2, hb2]
  simp only [Int.toNat_natCast]
  by_cases hc : (q.toNat + 1) / 2 ≤ p.toNat
  · simp only [hc, decide_true, select, if_true]; exact toInt_sub_of hp3 hlt
  · simp only [hc, decide_false, select, if_false, Bool.false_eq_true]
    exact BitVec.toInt_eq_toNat_of_lt (by omega)

/-! ### modulus switching -/

theorem lowerModSwitch_some {wo wn : Nat} {qo : BitVec wo} {qn : BitVec wn} {a : BitVec wo}
    (hn : typeVerify qn = true) (hn0 : 0 < qn.toNat) :
    ∃ r, lowerModSwitch qo qn a = some r ∧
      (r.toNat : Int) =
        (if a.toNat < qo.toNat / 2 then (a.toNat : Int) else (a.toNat : Int) - qo.toNat)
          % qn.toNat := by
  have hl : wo ≤ max wo wn := le_max_left _ _
  have hr : wn ≤ max wo wn := le_max_right _ _
  have h2 := two_mul_le hn hn0
  have hpow : 2 ^ wn ≤ 2 ^ max wo wn := Nat.pow_le_pow_right (by norm_num) hr
  refine ⟨_, by
    simp only [lowerModSwitch, remui_eq (setWidth_pos hr hn0)]; rfl, ?_⟩
  rw [BitVec.toNat_setWidth]
  have hcmp : (a.setWidth (max wo wn)).ult ((qo.setWidth (max wo wn)) >>> 1)
      = decide (a.toNat < qo.toNat / 2) := by
    simp [BitVec.ult, BitVec.toNat_ushiftRight, setWidth_toNat_of_le hl, Nat.shiftRight_eq_div_pow]
  rw [hcmp]
  by_cases hc : a.toNat < qo.toNat / 2
  · simp only [hc, decide_true, select, if_true, BitVec.umod_eq, BitVec.toNat_umod,
      setWidth_toNat_of_le hl, setWidth_toNat_of_le hr]
    rw [Nat.mod_eq_of_lt (a := _ % _) ((Nat.mod_lt _ hn0).trans qn.isLt), Int.natCast_emod]
  · simp only [hc, decide_false, select, if_false, Bool.false_eq_true, BitVec.umod_eq,
      BitVec.toNat_umod, BitVec.toNat_add, BitVec.toNat_sub,
      setWidth_toNat_of_le hl, setWidth_toNat_of_le hr]
    have h3 : a.toNat % qn.toNat < qn.toNat := Nat.mod_lt _ hn0
    have h4 : qo.toNat % qn.toNat < qn.toNat := Nat.mod_lt _ hn0
    have e : 2 ^ max wo wn - qo.toNat % qn.toNat + qn.toNat
        = (qn.toNat - qo.toNat % qn.toNat) + 2 ^ max wo wn := by omega
    rw [e, Nat.add_mod_right, Nat.mod_eq_of_lt (a := qn.toNat - _) (by omega),
      Nat.mod_eq_of_lt (a := _ + _) (by omega),
      Nat.mod_eq_of_lt (a := _ % _) ((Nat.mod_lt _ hn0).trans qn.isLt), emod_sub_form _ _ _ h4.le]
    push_cast
    exact (Int.sub_emod _ _ _).symm

/-! ### Barrett -/

theorem barrett_nat (m k x : Nat) (hm : 0 < m) (hmk : m ≤ 2 ^ k) (hx : x < m * m) :
    let B := 2 ^ (2 * k)
    let s := x * (B / m) / B
    x * (B / m) < 2 ^ (3 * k) ∧ s * m ≤ x ∧ x - s * m < 2 * m := by
  intro B s
  have hB : 0 < B := Nat.two_pow_pos _
  have hBB : B = 2 ^ k * 2 ^ k := by show 2 ^ (2 * k) = _; rw [two_mul, pow_add]
  have hr1 : B / m * m ≤ B := Nat.div_mul_le_self _ _
  have hr2 : B < (B / m + 1) * m := by
    have := Nat.lt_mul_div_succ B hm; rw [mul_comm] at this; exact this
  have hs1 : s * B ≤ x * (B / m) := Nat.div_mul_le_self _ _
  have hs2 : x * (B / m) < (s + 1) * B := by
    have := Nat.lt_mul_div_succ (x * (B / m)) hB; rw [mul_comm B] at this; exact this
  have hxB : x < B := by
    rw [hBB]; exact lt_of_lt_of_le hx (Nat.mul_le_mul hmk hmk)
  generalize hR : B / m = R at *
  refine ⟨?_, ?_, ?_⟩
  · have h1 : x * R * m ≤ x * B := by rw [mul_assoc]; exact Nat.mul_le_mul_left _ hr1
    have h2 : x * B < m * m * B := Nat.mul_lt_mul_of_pos_right hx hB
    have h3 : x * R < m * B := by
      by_contra hc; push Not at hc
      have := Nat.mul_le_mul_right m hc
      have e : m * B * m = m * m * B := by ring
      omega
    have h4 : m * B ≤ 2 ^ k * B := Nat.mul_le_mul_right _ hmk
    have h5 : 2 ^ k * B = 2 ^ (3 * k) := by
      rw [hBB, ← pow_add, ← pow_add]; congr 1; omega
    omega
  · have h1 : s * B * m ≤ x * R * m := Nat.mul_le_mul_right _ hs1
    have h2 : x * R * m ≤ x * B := by rw [mul_assoc]; exact Nat.mul_le_mul_left _ hr1
    have e : s * B * m = s * m * B := by ring
    rw [e] at h1
    exact Nat.le_of_mul_le_mul_right (h1.trans h2) hB
  · have h1 : x * B ≤ x * ((R + 1) * m) := Nat.mul_le_mul_left _ hr2.le
    have h2 : x * R * m < (s + 1) * B * m := Nat.mul_lt_mul_of_pos_right hs2 hm
    have h3 : x * m ≤ B * m := Nat.mul_le_mul_right _ hxB.le
    have h4 : x * B < (s + 2) * m * B := by
      have e1 : x * ((R + 1) * m) = x * R * m + x * m := by ring
      have e2 : (s + 2) * m * B = (s + 1) * B * m + B * m := by ring
      omega
    have h5 : x < (s + 2) * m := Nat.lt_of_mul_lt_mul_right h4
    have e : (s + 2) * m = s * m + 2 * m := by ring
    omega

theorem lowerBarrett_some {wa : Nat} {m : BitVec wa} {x : BitVec w} (hm : 2 ≤ m.toNat)
    (ha : 3 * barrettBits m ≤ wa) (hw : w < 3 * barrettBits m)
    (hx : x.toNat < m.toNat * m.toNat) :
    ∃ r, lowerBarrett m x = some r ∧
      r.toNat % m.toNat = x.toNat % m.toNat ∧ r.toNat < 2 * m.toNat ∧ r.toNat ≤ x.toNat := by
  have hwa : 0 < wa := pos_width (q := m) (by omega)
  set k := barrettBits m with hk
  have hk1 : 1 ≤ k := by omega
  have hm1 : (m - 1#wa).toNat = m.toNat - 1 := by
    rw [BitVec.toNat_sub, BitVec.toNat_ofNat, Nat.mod_eq_of_lt (a := 1) (Nat.one_lt_two_pow hwa.ne')]
    have := m.isLt
    have e : 2 ^ wa - 1 + m.toNat = (m.toNat - 1) + 2 ^ wa := by omega
    rw [e, Nat.add_mod_right, Nat.mod_eq_of_lt (by omega)]
  have hmk : m.toNat ≤ 2 ^ k := by
    have : m.toNat - 1 < 2 ^ k := by
      rw [← Nat.size_le, ← hm1]; exact le_of_eq hk.symm
    omega
  obtain ⟨h1, h2, h3⟩ := barrett_nat m.toNat k x.toNat (by omega) hmk hx
  have hlt : 2 ^ k < 2 ^ (3 * k) := Nat.pow_lt_pow_right (by norm_num) (by omega)
  have hmd : (m.setWidth (3 * k)).toNat = m.toNat := by
    rw [BitVec.toNat_setWidth]; exact Nat.mod_eq_of_lt (by omega)
  have hbt : ((1#(3 * k)) <<< (2 * k)).toNat = 2 ^ (2 * k) := by
    rw [BitVec.toNat_shiftLeft, BitVec.toNat_ofNat,
      Nat.mod_eq_of_lt (a := 1) (Nat.one_lt_two_pow (by omega)), Nat.shiftLeft_eq, one_mul]
    exact Nat.mod_eq_of_lt (Nat.pow_lt_pow_right (by norm_num) (by omega))
  have hne : ¬ m.setWidth (3 * k) = 0#(3 * k) := ne_zero_of_pos (by omega)
  have hsh : (BitVec.ofNat (3 * k) (2 * k)).toNat = 2 * k := by
    rw [BitVec.toNat_ofNat]
    refine Nat.mod_eq_of_lt ?_
    calc 2 * k < 2 ^ (2 * k) := Nat.lt_two_pow_self
      _ ≤ 2 ^ (3 * k) := Nat.pow_le_pow_right (by norm_num) (by omega)
  refine ⟨_, by
    unfold lowerBarrett
    rw [← hk, if_pos ⟨ha, hw⟩]
    show (if m.setWidth (3 * k) = 0#(3 * k) then none else _) = _
    rw [if_neg hne]
    simp only [shrui, hsh]
    rw [if_pos (by omega)]; rfl, ?_⟩
  rw [BitVec.toNat_setWidth]
  simp only [BitVec.toNat_sub, BitVec.toNat_mul,
    BitVec.toNat_ushiftRight, BitVec.udiv_eq, BitVec.toNat_udiv, hmd, hbt,
    setWidth_toNat_of_le hw.le, Nat.shiftRight_eq_div_pow]
  rw [Nat.mod_eq_of_lt h1]
  have hx3 : x.toNat < 2 ^ (3 * k) :=
    x.isLt.trans (Nat.pow_lt_pow_right (by norm_num) hw)
  generalize hS : x.toNat * (2 ^ (2 * k) / m.toNat) / 2 ^ (2 * k) = s at *
  rw [Nat.mod_eq_of_lt (a := s * _) (by omega)]
  have e : 2 ^ (3 * k) - s * m.toNat + x.toNat = (x.toNat - s * m.toNat) + 2 ^ (3 * k) := by omega
  have hxl := x.isLt
  rw [e, Nat.add_mod_right, Nat.mod_eq_of_lt (a := _ - _) (by omega),
    Nat.mod_eq_of_lt (a := _ - _) (by omega)]
  refine ⟨?_, h3, by omega⟩
  conv_rhs => rw [show x.toNat = (x.toNat - s * m.toNat) + s * m.toNat by omega]
  simp

/-! ### rewriting -/

theorem cast_isMinusOne {q c : BitVec w} (h0 : 0 < q.toNat) (h : isMinusOne q c = true) :
    (c.toNat : ZMod q.toNat) = -1 := by
  have hw := pos_width h0
  have hc : c = q - 1#w := by simpa [isMinusOne] using h
  have : c.toNat = q.toNat - 1 := by
    rw [hc, BitVec.toNat_sub, BitVec.toNat_ofNat, Nat.mod_eq_of_lt (a := 1) (Nat.one_lt_two_pow hw.ne')]
    have := q.isLt
    have e : 2 ^ w - 1 + q.toNat = (q.toNat - 1) + 2 ^ w := by omega
    rw [e, Nat.add_mod_right, Nat.mod_eq_of_lt (by omega)]
  rw [this, Nat.cast_sub (by omega)]; simp

theorem cast_isOne {q c : BitVec w} (h0 : 0 < q.toNat) (h : isOne c = true) :
    (c.toNat : ZMod q.toNat) = 1 := by
  have hw := pos_width h0
  have hc : c = 1#w := by simpa [isOne] using h
  have : c.toNat = 1 := by
    rw [hc, BitVec.toNat_ofNat, Nat.mod_eq_of_lt (Nat.one_lt_two_pow hw.ne')]
  rw [this]; simp

theorem cast_isZero {q c : BitVec w} (h : isZero c = true) :
    (c.toNat : ZMod q.toNat) = 0 := by
  have hc : c = 0#w := by simpa [isZero] using h
  simp [hc]

theorem rewrite_eval {q : BitVec w} (h0 : 0 < q.toNat) (env : Nat → ZMod q.toNat)
    {p : Pattern} {e e' : Expr w} (h : rewrite q p e = some e') :
    e.eval q.toNat env = e'.eval q.toNat env := by
  unfold rewrite at h
  split at h
  all_goals (try split at h)
  all_goals first
    | (exact absurd h (Option.some_ne_none _).symm)
    | skip
  all_goals (obtain rfl := Option.some.inj h)
  all_goals simp only [Expr.eval, BitVec.toNat_ofNat, Nat.zero_mod, Nat.cast_zero]
  all_goals first
    | ring1
    | (rename_i hz; rw [cast_isZero hz]; ring1)
    | (rename_i hz; rw [cast_isOne h0 hz]; ring1)
    | (rename_i hz; rw [cast_isMinusOne h0 hz]; ring1)
    | (rename_i hz; subst hz; ring1)

theorem foldOp_eval {q : BitVec w} (h0 : 0 < q.toNat) (env : Nat → ZMod q.toNat)
    {e e' : Expr w} (h : foldOp q e = some e') :
    e.eval q.toNat env = e'.eval q.toNat env := by
  unfold foldOp at h
  split at h
  · split at h
    · simp at h
    · obtain rfl := Option.some.inj h
      simp [Expr.eval, foldConstant]
  · rename_i a b
    obtain ⟨r, hr, hv⟩ := foldScalar_add q a b 0#w h0
    rw [hr] at h; obtain rfl := Option.some.inj h
    simp [Expr.eval, hv]
  · rename_i a b
    obtain ⟨r, hr, hv⟩ := foldScalar_sub q a b 0#w h0
    rw [hr] at h; obtain rfl := Option.some.inj h
    simp only [Expr.eval, hv]
    rw [cast_sub_form _ _ _ (Nat.mod_lt _ h0).le, ZMod.natCast_mod]
  · rename_i a b
    obtain ⟨r, hr, hv⟩ := foldScalar_mul q a b 0#w h0
    rw [hr] at h; obtain rfl := Option.some.inj h
    simp [Expr.eval, hv]
  · rename_i a b c
    obtain ⟨r, hr, hv⟩ := foldScalar_mac q a b c h0
    rw [hr] at h; obtain rfl := Option.some.inj h
    simp [Expr.eval, hv]; ring
  · simp at h

theorem step_eval {q : BitVec w} (h0 : 0 < q.toNat) (env : Nat → ZMod q.toNat)
    {e e' : Expr w} (h : Step q e e') : e.eval q.toNat env = e'.eval q.toNat env := by
  induction h with
  | pat h => exact rewrite_eval h0 env h
  | fold h => exact foldOp_eval h0 env h
  | addComm => simp only [Expr.eval]; ring
  | mulComm => simp only [Expr.eval]; ring
  | _ => rename_i ih; simp only [Expr.eval, ih]

theorem rewrite_canon {q : BitVec w} (h0 : 0 < q.toNat) 
    {p : Pattern} {e e' : Expr w} (h : rewrite q p e = some e') (hc : e.CanonicalConsts q) :
    e'.CanonicalConsts q := by
  unfold rewrite at h
  split at h
  all_goals (try split at h)
  all_goals first
    | (exact absurd h (Option.some_ne_none _).symm)
    | skip
  all_goals (obtain rfl := Option.some.inj h)
  all_goals simp only [Expr.CanonicalConsts, Canonical, BitVec.toNat_ofNat, Nat.zero_mod] at hc ⊢
  all_goals tauto

theorem foldOp_canon {q : BitVec w} (h0 : 0 < q.toNat)
    {e e' : Expr w} (h : foldOp q e = some e') : e'.CanonicalConsts q := by
  unfold foldOp at h
  split at h
  · split at h
    · simp at h
    · obtain rfl := Option.some.inj h
      simp [Expr.CanonicalConsts, Canonical, foldConstant, Nat.mod_lt _ h0]
  · rename_i a b
    obtain ⟨r, hr, hv⟩ := foldScalar_add q a b 0#w h0
    rw [hr] at h; obtain rfl := Option.some.inj h
    simp [Expr.CanonicalConsts, Canonical, hv, Nat.mod_lt _ h0]
  · rename_i a b
    obtain ⟨r, hr, hv⟩ := foldScalar_sub q a b 0#w h0
    rw [hr] at h; obtain rfl := Option.some.inj h
    simp only [Expr.CanonicalConsts, Canonical, hv]; exact Nat.mod_lt _ h0
  · rename_i a b
    obtain ⟨r, hr, hv⟩ := foldScalar_mul q a b 0#w h0
    rw [hr] at h; obtain rfl := Option.some.inj h
    simp [Expr.CanonicalConsts, Canonical, hv, Nat.mod_lt _ h0]
  · rename_i a b c
    obtain ⟨r, hr, hv⟩ := foldScalar_mac q a b c h0
    rw [hr] at h; obtain rfl := Option.some.inj h
    simp [Expr.CanonicalConsts, Canonical, hv, Nat.mod_lt _ h0]
  · simp at h

theorem step_canon {q : BitVec w} (h0 : 0 < q.toNat)
    {e e' : Expr w} (h : Step q e e') (hc : e.CanonicalConsts q) : e'.CanonicalConsts q := by
  induction h with
  | pat h => exact rewrite_canon h0 h hc
  | fold h => exact foldOp_canon h0 h
  | addComm => exact ⟨hc.2, hc.1⟩
  | mulComm => exact ⟨hc.2, hc.1⟩
  | addL _ ih => exact ⟨ih hc.1, hc.2⟩
  | subL _ ih => exact ⟨ih hc.1, hc.2⟩
  | mulL _ ih => exact ⟨ih hc.1, hc.2⟩
  | addR _ ih => exact ⟨hc.1, ih hc.2⟩
  | subR _ ih => exact ⟨hc.1, ih hc.2⟩
  | mulR _ ih => exact ⟨hc.1, ih hc.2⟩
  | macA _ ih => exact ⟨ih hc.1, hc.2⟩
  | macB _ ih => exact ⟨hc.1, ih hc.2.1, hc.2.2⟩
  | macC _ ih => exact ⟨hc.1, hc.2.1, ih hc.2.2⟩

theorem lowerRun_some {q : BitVec w} (hq : typeVerify q = true) (h0 : 0 < q.toNat)
    (env : Nat → BitVec w) (henv : ∀ i, Canonical q (env i)) (e : Expr w)
    (hc : e.CanonicalConsts q) :
    ∃ r, lowerRun q env e = some r ∧ Canonical q r ∧
      (r.toNat : ZMod q.toNat) = e.eval q.toNat (fun i => ((env i).toNat : ZMod q.toNat)) := by
  induction e with
  | var i => exact ⟨_, rfl, henv i, rfl⟩
  | const c => exact ⟨_, rfl, hc, rfl⟩
  | add a b iha ihb =>
    obtain ⟨x, hx, hxc, hxv⟩ := iha hc.1
    obtain ⟨y, hy, hyc, hyv⟩ := ihb hc.2
    obtain ⟨r, hr, hv⟩ := lowerAdd_some hq h0 hxc hyc
    refine ⟨r, by simp [lowerRun, hx, hy, hr], by rw [Canonical, hv]; exact Nat.mod_lt _ h0, ?_⟩
    rw [hv]; simp [Expr.eval, ← hxv, ← hyv]
  | sub a b iha ihb =>
    obtain ⟨x, hx, hxc, hxv⟩ := iha hc.1
    obtain ⟨y, hy, hyc, hyv⟩ := ihb hc.2
    obtain ⟨r, hr, hv⟩ := lowerSub_some hq h0 hxc hyc
    refine ⟨r, by simp [lowerRun, hx, hy, hr], by rw [Canonical, hv]; exact Nat.mod_lt _ h0, ?_⟩
    rw [hv, cast_sub_form _ _ _ (le_of_lt hyc)]; simp only [Expr.eval, ← hxv, ← hyv]
  | mul a b iha ihb =>
    obtain ⟨x, hx, hxc, hxv⟩ := iha hc.1
    obtain ⟨y, hy, hyc, hyv⟩ := ihb hc.2
    obtain ⟨r, hr, hv⟩ := lowerMul_some q x y h0
    refine ⟨r, by simp [lowerRun, hx, hy, hr], by rw [Canonical, hv]; exact Nat.mod_lt _ h0, ?_⟩
    rw [hv]; simp [Expr.eval, ← hxv, ← hyv]
  | mac a b c iha ihb ihc =>
    obtain ⟨x, hx, hxc, hxv⟩ := iha hc.1
    obtain ⟨y, hy, hyc, hyv⟩ := ihb hc.2.1
    obtain ⟨z, hz, hzc, hzv⟩ := ihc hc.2.2
    obtain ⟨r, hr, hv⟩ := lowerMac_some q x y z h0
    refine ⟨r, by simp [lowerRun, hx, hy, hz, hr],
      by rw [Canonical, hv]; exact Nat.mod_lt _ h0, ?_⟩
    rw [hv]; simp [Expr.eval, ← hxv, ← hyv, ← hzv]

theorem canonical_ext {q a b : BitVec w} (ha : Canonical q a) (hb : Canonical q b)
    (h : (a.toNat : ZMod q.toNat) = (b.toNat : ZMod q.toNat)) : a = b := by
  have := (ZMod.natCast_eq_natCast_iff' _ _ _).1 h
  rw [Nat.mod_eq_of_lt ha, Nat.mod_eq_of_lt hb] at this
  exact BitVec.eq_of_toNat_eq this

end Heir.ModArith
