import Verif.RNS.Garner

/-! # Properties of RNS residue conversion -/

namespace Heir.RNS

open Heir.Arith Heir.Loop Heir.NumTheory Heir.ModArith Heir.NTT

variable {w wo : Nat}

theorem mapLimbs_forall {α β : Type} {f : α → Option β} {P : α → β → Prop} : ∀ {l : List α},
    (∀ a ∈ l, ∃ b, f a = some b ∧ P a b) →
    ∃ l', mapLimbs f l = some l' ∧ l'.length = l.length ∧
      ∀ (i : Nat) (a : α) (b : β), l[i]? = some a → l'[i]? = some b → P a b := by
  intro l
  induction l with
  | nil => intro _; exact ⟨[], rfl, rfl, by intro i a b h; simp at h⟩
  | cons x l ih =>
    intro h
    obtain ⟨b, hb, hp⟩ := h x (by simp)
    obtain ⟨l', h1, h2, h3⟩ := ih fun a ha => h a (by simp [ha])
    refine ⟨b :: l', by simp [mapLimbs, hb, h1], by simp [h2], ?_⟩
    intro i a b' ha hb'
    cases i with
    | zero =>
      simp only [List.getElem?_cons_zero, Option.some.injEq] at ha hb'
      rw [← ha, ← hb']; exact hp
    | succ i => exact h3 i a b' (by simpa using ha) (by simpa using hb')

/-! ## C17 -/

/-- Interpolation returns the residue modulo `Q` with the given limbs, for every list of limb
words, every number of limbs and every width. -/
theorem C17_interpolate {Q : BitVec wo} {qs limbs : List (BitVec w)} (hpc : PC qs)
    (hpos : ∀ q ∈ qs, 0 < q.toNat) (hQ : Q.toNat = modProd qs) (hne : qs ≠ [])
    (hl : limbs.length = qs.length) :
    ∃ r, lowerFromRNS Q qs limbs = some r ∧ r.toNat < Q.toNat ∧
      ∀ (i : Nat) (q l : BitVec w), qs[i]? = some q → limbs[i]? = some l →
        r.toNat ≡ l.toNat [MOD q.toNat] := by
  set W := fromWidth wo w qs.length with hW
  have hWle : wo + w ≤ W := by rw [hW, fromWidth]; omega
  have hbig : (Q.setWidth W).toNat = Q.toNat := setWidth_toNat_of_le (by omega) Q
  have hQ0 : 0 < Q.toNat := by rw [hQ]; exact modProd_pos hpos
  have hlen : (qs.zip limbs).length = qs.length := by simp [hl]
  obtain ⟨s, hs, hse⟩ := fromSum_spec (wo := wo) (Q := Q.setWidth W) hWle (by rw [hbig]; exact Q.isLt)
    (qs.zip limbs) 0#W (by
      intro x hx
      have hm : x.1 ∈ qs := (List.of_mem_zip hx).1
      rw [hbig, hQ]
      exact ⟨hpos _ hm, coprime_div hpos hpc hm⟩)
    (by
      rw [hlen, BitVec.toNat_ofNat, Nat.zero_mod, Nat.zero_add, hW, fromWidth, pow_add _ (wo + 2 * w),
        mul_comm]
      exact Nat.mul_le_mul_left _ (Nat.le_pow_clog (by norm_num) _))
  rw [BitVec.toNat_ofNat, Nat.zero_mod, Nat.zero_add] at hse
  have hrem := remui_eq (a := s) (q := Q.setWidth W) (by rw [hbig]; exact hQ0)
  have hval : ((s.umod (Q.setWidth W)).setWidth wo).toNat = s.toNat % Q.toNat := by
    rw [BitVec.toNat_setWidth, BitVec.umod_eq, BitVec.toNat_umod, hbig]
    exact Nat.mod_eq_of_lt (lt_trans (Nat.mod_lt _ hQ0) Q.isLt)
  refine ⟨(s.umod (Q.setWidth W)).setWidth wo, ?_, ?_, ?_⟩
  · show (fromSum (Q.setWidth W) (qs.zip limbs) 0#W).bind _ = _
    rw [hs]
    show (remui s (Q.setWidth W)).bind _ = _
    rw [hrem]; rfl
  · rw [hval]; exact Nat.mod_lt _ hQ0
  · intro i q l hq hl'
    rw [hval]
    have h1 := sum_residue (wo := wo) (Q := Q.setWidth W) hWle (by rw [hbig]; exact Q.isLt) hpos hpc
      (by rw [hbig, hQ]) hl hq hl'
    rw [← hse] at h1
    refine Nat.ModEq.trans ?_ h1
    refine Nat.ModEq.of_dvd ?_ (Nat.mod_modEq s.toNat Q.toNat)
    rw [hQ]; exact dvd_modProd (List.mem_of_getElem? hq)

/-- It is the only such residue. -/
theorem C17_unique {qs limbs : List (BitVec w)} (hpc : PC qs) (hl : limbs.length = qs.length) {x y : Nat}
    (hx : x < modProd qs) (hy : y < modProd qs)
    (hxr : ∀ (i : Nat) (q l : BitVec w), qs[i]? = some q → limbs[i]? = some l → x ≡ l.toNat [MOD q.toNat])
    (hyr : ∀ (i : Nat) (q l : BitVec w), qs[i]? = some q → limbs[i]? = some l → y ≡ l.toNat [MOD q.toNat]) :
    x = y := by
  refine crt_unique hpc hx hy fun q hq => ?_
  obtain ⟨i, hi, rfl⟩ := List.mem_iff_getElem.1 hq
  have h1 := List.getElem?_eq_getElem hi
  have h2 := List.getElem?_eq_getElem (l := limbs) (i := i) (by omega)
  exact (hxr i _ _ h1 h2).trans (hyr i _ _ h1 h2).symm

example : PC [3#4, 5#4, 7#4] ∧ (∀ q ∈ [3#4, 5#4, 7#4], 0 < q.toNat) ∧ (105#8).toNat = modProd [3#4, 5#4, 7#4] := by
  unfold PC; decide

/-- Decomposition gives the residues.  Partial: the storage width of the limbs must be strictly
smaller than the width of `Q`; see `C17_equal_width_violated`. -/
theorem C17_decompose_partial (hw : w < wo) (a : BitVec wo) {qs : List (BitVec w)}
    (hpos : ∀ q ∈ qs, 0 < q.toNat) :
    ∃ limbs, lowerToRNS qs a = some limbs ∧ limbs.length = qs.length ∧
      ∀ (i : Nat) (q l : BitVec w), qs[i]? = some q → limbs[i]? = some l → l.toNat = a.toNat % q.toNat := by
  refine mapLimbs_forall (P := fun (q l : BitVec w) => l.toNat = a.toNat % q.toNat) fun q hq => ?_
  have hqw : (q.setWidth wo).toNat = q.toNat := setWidth_toNat_of_le (by omega) q
  have h0 := hpos q hq
  refine ⟨(a.umod (q.setWidth wo)).setWidth w, ?_, ?_⟩
  · rw [toRNSLimb, if_pos hw, remui_eq (by omega)]; rfl
  · rw [BitVec.toNat_setWidth, BitVec.umod_eq, BitVec.toNat_umod, hqw]
    exact Nat.mod_eq_of_lt (lt_trans (Nat.mod_lt _ h0) q.isLt)

/-- Decomposition then interpolation returns the residue (`a` itself when canonical). -/
theorem C17_roundtrip_partial (hw : w < wo) {Q : BitVec wo} {qs : List (BitVec w)} (hpc : PC qs)
    (hpos : ∀ q ∈ qs, 0 < q.toNat) (hQ : Q.toNat = modProd qs) (hne : qs ≠ []) (a : BitVec wo) :
    ∃ limbs r, lowerToRNS qs a = some limbs ∧ lowerFromRNS Q qs limbs = some r ∧
      r.toNat = a.toNat % Q.toNat := by
  obtain ⟨limbs, h1, h2, h3⟩ := C17_decompose_partial hw a hpos
  obtain ⟨r, h4, h5, h6⟩ := C17_interpolate hpc hpos hQ hne h2
  refine ⟨limbs, r, h1, h4, ?_⟩
  have hQ0 : 0 < Q.toNat := by rw [hQ]; exact modProd_pos hpos
  refine C17_unique hpc h2 (by rw [← hQ]; exact h5) (by rw [← hQ]; exact Nat.mod_lt _ hQ0) h6 ?_
  intro i q l hq hl
  rw [h3 i q l hq hl]
  refine Nat.ModEq.trans ?_ (Nat.mod_modEq _ _).symm
  refine Nat.ModEq.of_dvd ?_ (Nat.mod_modEq a.toNat Q.toNat)
  rw [hQ]; exact dvd_modProd (List.mem_of_getElem? hq)

/-- Interpolation then decomposition returns canonical limbs unchanged. -/
theorem C17_limbs_roundtrip_partial (hw : w < wo) {Q : BitVec wo} {qs limbs : List (BitVec w)} (hpc : PC qs)
    (hQ : Q.toNat = modProd qs) (hne : qs ≠ [])
    (hl : limbs.length = qs.length) (hcan : Canonical qs limbs) :
    ∃ r, lowerFromRNS Q qs limbs = some r ∧ lowerToRNS qs r = some limbs := by
  have hpos : ∀ q ∈ qs, 0 < q.toNat := by
    intro q hq
    obtain ⟨i, hi, rfl⟩ := List.mem_iff_getElem.1 hq
    have := hcan i _ _ (List.getElem?_eq_getElem hi) (List.getElem?_eq_getElem (l := limbs) (by omega))
    omega
  obtain ⟨r, h4, h5, h6⟩ := C17_interpolate hpc hpos hQ hne hl
  obtain ⟨limbs', h1, h2, h3⟩ := C17_decompose_partial hw r hpos
  refine ⟨r, h4, ?_⟩
  rw [h1]
  congr 1
  apply List.ext_getElem (by omega)
  intro i hi1 hi2
  have hq := List.getElem?_eq_getElem (l := qs) (i := i) (by omega)
  have e1 := h3 i _ _ hq (List.getElem?_eq_getElem hi1)
  have e2 := h6 i _ _ hq (List.getElem?_eq_getElem hi2)
  have e3 := hcan i _ _ hq (List.getElem?_eq_getElem hi2)
  apply BitVec.eq_of_toNat_eq
  rw [e1, e2, Nat.mod_eq_of_lt e3]

/-- With equal widths, which the verifier accepts, the lowering of the decomposition is an
`arith.trunci` to the same type: invalid IR for every basis and input. -/
theorem C17_equal_width_violated (a : BitVec w) (q : BitVec w) (qs : List (BitVec w)) :
    lowerToRNS (q :: qs) a = none := by
  simp [lowerToRNS, mapLimbs, toRNSLimb]

example : verifySwitch false (15#8) [3#8, 5#8] = true := by decide

/-- The product check of the verifier wraps: it accepts `Z/13` with basis `17, 61` in 8 bits,
and decomposing then has no inverse (two residues modulo 13 with the same image are told apart,
but the limbs of 13 values cannot cover the 17 * 61 residues). -/
theorem C17_verifier_wraps_violated :
    verifySwitch false (13#8) [17#8, 61#8] = true ∧ modProd [17#8, 61#8] ≠ (13#8).toNat := by
  decide

/-! ## C21 -/

/-- Basis conversion is right for bases of any length whenever the Horner constants are those of
the formula in the comments of the code: `z` is the centred integer with the given residues. -/
theorem C21_formula {qs ps xs : List (BitVec w)} (hg : GoodBasis qs) (hne : ps ≠ [])
    (hps : ∀ p ∈ ps, typeVerify p = true ∧ p.toNat % 2 = 1)
    (hx : xs.length = qs.length) (hcan : Canonical qs xs)
    {const : Nat → Nat → Option (BitVec w)}
    (hconst : ∀ i j q, j + 1 < i → qs[i]? = some q → ∃ k qj, const i j = some k ∧ qs[j]? = some qj ∧
      (k.toNat : ZMod q.toNat) = qj.toNat)
    {z : Int} (hz : -(modProd qs : Int) ≤ 2 * z ∧ 2 * z < modProd qs) (hzr : HasResidues qs xs z) :
    ∃ out, convertBasisWith const qs ps xs = some (some out) ∧ out.length = ps.length ∧
      ∀ (j : Nat) (p o : BitVec w), ps[j]? = some p → out[j]? = some o → (o.toNat : Int) = z % p.toNat := by
  obtain ⟨invs, hi, hil, hinv⟩ := buildQInvProds_ok hg.ne hg.two hg.pc
  obtain ⟨mrcs, hm, hmi⟩ := mrcWith_ok hg hx hcan hil hinv hconst
  have hmv := mrc_value hg hx hmi hz hzr
  have hqlen : 0 < qs.length := List.length_pos_iff.2 hg.ne
  obtain ⟨out, ho, hol, hov⟩ := mapLimbs_forall (f := targetLimb qs xs mrcs)
    (P := fun p o => (o.toNat : Int) = z % p.toNat) (l := ps) (by
    intro p hp
    obtain ⟨hver, hodd⟩ := hps p hp
    have h0 : 0 < p.toNat := by omega
    unfold targetLimb
    split
    · next qx hf =>
      have h1 := List.find?_some hf
      simp only [beq_iff_eq] at h1
      have h2 := List.mem_of_find?_eq_some hf
      rw [List.mem_reverse] at h2
      obtain ⟨i, hi, he⟩ := List.mem_iff_getElem.1 h2
      have hz1 : (qs.zip xs)[i]? = some (qx.1, qx.2) := by
        rw [List.getElem?_eq_getElem hi, he]
      obtain ⟨e1, e2⟩ := List.getElem?_zip_eq_some.1 hz1
      refine ⟨qx.2, rfl, ?_⟩
      have e3 := hzr i _ _ e1 e2
      have e4 := hcan i _ _ e1 e2
      rw [h1] at e3 e4
      rw [e3.eq]
      exact_mod_cast (Nat.mod_eq_of_lt e4).symm
    · have hlast := List.getElem?_eq_getElem (l := mrcs) (i := mrcs.length - 1) (by rw [hmi.1]; omega)
      obtain ⟨t, ht, ht'⟩ := reduce_okB (a := mrcs[mrcs.length - 1]'(by rw [hmi.1]; omega)) hver h0
      obtain ⟨r, hr, hr'⟩ := hornerLoop_ok hver h0 (const := fun j => Loop.get qs j) (mrcs := mrcs)
        (qs := qs) (count := mrcs.length - 1) (by rw [hmi.1]; omega) (by rw [hmi.1]; omega)
        (fun j hj => by
          have := List.getElem?_eq_getElem (l := qs) (i := j) (by rw [hmi.1] at hj; omega)
          exact ⟨_, _, this, this, rfl⟩) hlast ht'
      refine ⟨r, ?_, ?_⟩
      · simp only [Loop.get] at hlast ⊢
        rw [hlast]
        simp only [Option.bind_eq_bind, Option.bind_some, ht]
        exact hr
      · rw [hmv] at hr'
        have e1 : ((r.toNat : Int) : ZMod p.toNat) = ((z : Int) : ZMod p.toNat) := by
          rw [Int.cast_natCast]; exact hr'.2
        rw [ZMod.intCast_eq_intCast_iff] at e1
        rw [← e1.eq]
        exact_mod_cast (Nat.mod_eq_of_lt hr'.1).symm)
  refine ⟨out, ?_, hol, hov⟩
  have lsb : ∀ q : BitVec w, q.toNat % 2 = 1 → q.getLsbD 0 = true := by
    intro q hq
    rw [BitVec.getLsbD, Nat.testBit_zero]; simp [hq]
  unfold convertBasisWith
  rw [hi]
  simp only [Option.bind_eq_bind, Option.bind_some]
  rw [if_neg (by rintro ⟨q, hq, h⟩; rw [lsb q (hg.odd q hq)] at h; exact absurd h (by simp)),
    if_neg (by rintro ⟨p, hp, h⟩; rw [lsb p (hps p hp).2] at h; exact absurd h (by simp)),
    if_neg hg.ne, if_neg hne, hm]
  simp only [Option.bind_some]
  rw [ho]; rfl

/-- The algorithm with the documented constants, any number of limbs. -/
theorem C21_documented {qs ps xs : List (BitVec w)} (hg : GoodBasis qs) (hne : ps ≠ [])
    (hps : ∀ p ∈ ps, typeVerify p = true ∧ p.toNat % 2 = 1)
    (hx : xs.length = qs.length) (hcan : Canonical qs xs)
    {z : Int} (hz : -(modProd qs : Int) ≤ 2 * z ∧ 2 * z < modProd qs) (hzr : HasResidues qs xs z) :
    ∃ out, convertBasisWith (formulaConst qs) qs ps xs = some (some out) ∧ out.length = ps.length ∧
      ∀ (j : Nat) (p o : BitVec w), ps[j]? = some p → out[j]? = some o → (o.toNat : Int) = z % p.toNat :=
  C21_formula hg hne hps hx hcan (fun i j q hj hq => by
    have hi := (List.getElem?_eq_some_iff.1 hq).1
    have := List.getElem?_eq_getElem (l := qs) (i := j) (by omega)
    exact ⟨_, _, this, this, rfl⟩) hz hzr

/-- The code as it is, for input bases of at most two limbs.  Partial: with three limbs the code
multiplies by the wrong modulus, see `C21_violated_three_limbs`. -/
theorem C21_convert_basis_partial {qs ps xs : List (BitVec w)} (hlen : qs.length ≤ 2) (hg : GoodBasis qs)
    (hne : ps ≠ []) (hps : ∀ p ∈ ps, typeVerify p = true ∧ p.toNat % 2 = 1)
    (hx : xs.length = qs.length) (hcan : Canonical qs xs)
    {z : Int} (hz : -(modProd qs : Int) ≤ 2 * z ∧ 2 * z < modProd qs) (hzr : HasResidues qs xs z) :
    ∃ out, convertBasis qs ps xs = some (some out) ∧ out.length = ps.length ∧
      ∀ (j : Nat) (p o : BitVec w), ps[j]? = some p → out[j]? = some o → (o.toNat : Int) = z % p.toNat :=
  C21_formula hg hne hps hx hcan (fun i j q hj hq => by
    have hi := (List.getElem?_eq_some_iff.1 hq).1
    omega) hz hzr

example : GoodBasis [5#8, 7#8] ∧ Canonical [5#8, 7#8] [3#8, 5#8] ∧ HasResidues [5#8, 7#8] [3#8, 5#8] (-2) ∧
    (-(modProd [5#8, 7#8] : Int) ≤ 2 * (-2) ∧ 2 * (-2) < (modProd [5#8, 7#8] : Int)) := by
  refine ⟨⟨by decide, by decide, by decide, by decide, by decide, by unfold PC; decide⟩, ?_, ?_, by decide⟩
  · intro i q x hq hx
    match i with
    | 0 => simp at hq hx; subst hq hx; decide
    | 1 => simp at hq hx; subst hq hx; decide
    | n + 2 => simp at hq
  · intro i q x hq hx
    match i with
    | 0 => simp at hq hx; subst hq hx; decide
    | 1 => simp at hq hx; subst hq hx; decide
    | n + 2 => simp at hq

theorem inverse_value {x m : BitVec w} (hm : 2 ≤ m.toNat) (hx : x.toNat < m.toNat) {v : BitVec w}
    (hv : v.toNat < m.toNat) (hvx : v.toNat * x.toNat % m.toNat = 1) : multiplicativeInverse x m = some v := by
  have h1 : v.toNat * x.toNat ≡ 1 [MOD m.toNat] := by rw [Nat.ModEq, hvx, Nat.mod_eq_of_lt hm]
  have hc : Nat.Coprime x.toNat m.toNat := by
    refine Nat.coprime_of_mul_modEq_one v.toNat ?_
    rwa [mul_comm]
  obtain ⟨r, hr, hr1, _⟩ := C01_multiplicativeInverse hm hx
  obtain ⟨h3, h4⟩ := hr1 hc
  rw [hr]
  congr 1
  apply BitVec.eq_of_toNat_eq
  have h5 : r.toNat ≡ v.toNat [MOD m.toNat] :=
    Nat.ModEq.cancel_right_of_coprime (by rw [Nat.gcd_comm]; exact hc) (h4.trans h1.symm)
  rwa [Nat.ModEq, Nat.mod_eq_of_lt h3, Nat.mod_eq_of_lt hv] at h5

/-- Three limbs: the integer `3` in basis `3, 5, 7` converted to modulus `11` gives `4`. -/
theorem C21_violated_three_limbs :
    GoodBasis [3#8, 5#8, 7#8] ∧ HasResidues [3#8, 5#8, 7#8] [0#8, 3#8, 3#8] 3 ∧
      convertBasis [3#8, 5#8, 7#8] [11#8] [0#8, 3#8, 3#8] = some (some [4#8]) := by
  refine ⟨⟨by decide, by decide, by decide, by decide, by decide, by unfold PC; decide⟩, ?_, ?_⟩
  · intro i q x hq hx
    match i with
    | 0 => simp at hq hx; subst hq hx; decide
    | 1 => simp at hq hx; subst hq hx; decide
    | 2 => simp at hq hx; subst hq hx; decide
    | n + 3 => simp at hq
  · have e1 : multiplicativeInverse (BitVec.ofNat 8 (1 * (3#8).toNat % (5#8).toNat)) 5#8 = some 2#8 :=
      inverse_value (by decide) (by decide) (by decide) (by decide)
    have e2 : multiplicativeInverse (BitVec.ofNat 8 (1 * (3#8).toNat * (5#8).toNat % (7#8).toNat)) 7#8 = some 1#8 :=
      inverse_value (by decide) (by decide) (by decide) (by decide)
    have e3 : buildQInvProds [3#8, 5#8, 7#8] = some (some [2#8, 1#8]) := by
      have f1 : qInvLoop (1 * (3#8).toNat * (5#8).toNat) 7#8 [] = some (some []) := rfl
      have f2 : qInvLoop (1 * (3#8).toNat) 5#8 [7#8] = some (some [1#8]) := by
        show (multiplicativeInverse (BitVec.ofNat 8 (1 * (3#8).toNat * (5#8).toNat % (7#8).toNat)) 7#8).bind _ = _
        rw [e2]; rfl
      show (multiplicativeInverse (BitVec.ofNat 8 (1 * (3#8).toNat % (5#8).toNat)) 5#8).bind _ = _
      rw [e1]
      show (qInvLoop (1 * (3#8).toNat) 5#8 [7#8]).bind _ = _
      rw [f2]; rfl
    unfold convertBasis convertBasisWith
    rw [e3]
    decide

end Heir.RNS
