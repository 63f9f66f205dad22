import Verif.Poly.Instances

/-! # Properties of the polynomial lowering -/

namespace Heir.Poly

open Heir.Arith Heir.Loop Heir.NumTheory Heir.ModArith Heir.NTT Heir.RNS
open Polynomial Finset

variable {w wc : Nat}

/-! ## C23 -/

/-- Stored coefficients are the residues of the integers.  Partial: the integer must fit the
storage width and the modulus must be at most `2^63`. -/
theorem C23_coefficient_partial {q : BitVec w} {c : BitVec wc} (hq : typeVerify q = true) (h0 : 0 < q.toNat)
    (h63 : q.toNat ≤ 2 ^ 63) (hc : Fits w c.toInt) :
    ∃ v, constCoeff q c = some v ∧ (v.toNat : Int) = c.toInt % q.toNat :=
  constCoeff_ok hq h0 h63 hc.1 hc.2

/-- Storage at least as wide as the coefficients: every integer is stored correctly. -/
theorem C23_wide_storage {q : BitVec w} (c : BitVec wc) (hwc : 0 < wc) (hw : wc ≤ w) (hq : typeVerify q = true)
    (h0 : 0 < q.toNat) (h63 : q.toNat ≤ 2 ^ 63) :
    ∃ v, constCoeff q c = some v ∧ (v.toNat : Int) = c.toInt % q.toNat := by
  have h1 := BitVec.le_two_mul_toInt (x := c)
  have h2 := BitVec.two_mul_toInt_lt (x := c)
  have h3 : (2 : Int) ^ wc = 2 * 2 ^ (wc - 1) := by exact_mod_cast two_pow_pred hwc
  have h4 : (2 : Int) ^ (wc - 1) ≤ 2 ^ (w - 1) := by
    exact_mod_cast Nat.pow_le_pow_right (by norm_num : 0 < 2) (by omega : wc - 1 ≤ w - 1)
  exact constCoeff_ok hq h0 h63 (by omega) (by omega)

/-- The whole tensor: each position holds the residue of the coefficient of the polynomial there
(zero if there is no such term). -/
theorem C23_tensor_partial {q : BitVec w} {m : Nat} {ts : Terms wc} (hq : typeVerify q = true) (h0 : 0 < q.toNat)
    (h63 : q.toNat ≤ 2 ^ 63) (hinc : (ts.map Prod.fst).Pairwise (· < ·))
    (hts : ∀ x ∈ ts, x.1 < m ∧ Fits w x.2.toInt) :
    ∃ t, constTensor (modCoeff q) (constCoeff q) m ts = some t ∧ CanonTensor q m t ∧
      wordsPoly q t = termsPoly ts := by
  obtain ⟨t, h1, h2⟩ := constTensor_ok (modCoeff_refines hq h0) (conv := constCoeff q) (m := m) (ts := ts)
    (fun x hx => ⟨(hts x hx).1, by
      obtain ⟨v, hv, hv'⟩ := constCoeff_ok hq h0 h63 (hts x hx).2.1 (hts x hx).2.2
      exact ⟨v, hv, okB_of_residue h0 hv'⟩⟩) hinc
  refine ⟨t, h1, ⟨h2.1, fun x hx => ?_⟩, ?_⟩
  · obtain ⟨i, hi, rfl⟩ := List.mem_iff_getElem.1 hx
    obtain ⟨v, hv, hv'⟩ := h2.2 i (by rw [← h2.1]; exact hi)
    rw [List.getElem?_eq_getElem hi] at hv
    injection hv with hv
    rw [hv]; exact hv'.1
  · ext k
    rw [wordsPoly, polyOf_coeff, h2.1]
    split
    · next hk =>
      obtain ⟨v, hv, hv'⟩ := h2.2 k hk
      rw [List.getD_eq_getElem?_getD, hv]
      exact hv'.2
    · next hk => rw [termsPoly_coeff_absent fun x hx => by have := (hts x hx).1; omega]

example : typeVerify 7#32 = true ∧ Fits 32 ((-1 : BitVec 64)).toInt ∧ constCoeff 7#32 (-1 : BitVec 64) = some 6#32 := by
  refine ⟨by decide, ?_, by decide⟩
  unfold Fits; decide

/-- RNS constants, every limb; no bound on the modulus. -/
theorem C23_rns_partial {qs : List (BitVec w)} {c : BitVec wc} (hq : ∀ q ∈ qs, typeVerify q = true ∧ 0 < q.toNat)
    (hc : Fits w c.toInt) :
    ∃ l, constLimbs qs c = some l ∧ l.length = qs.length ∧
      ∀ (i : Nat) (q v : BitVec w), qs[i]? = some q → l[i]? = some v → (v.toNat : Int) = c.toInt % q.toNat :=
  mapLimbs_forall (f := fun q => constResidue q c) (P := fun (q v : BitVec w) => (v.toNat : Int) = c.toInt % q.toNat)
    fun q h => constResidue_ok (hq q h).1 (hq q h).2 hc.1 hc.2

/-- A coefficient wider than the storage type is truncated before it is reduced:
`300` with modulus `7 : i8` is stored as `2`, while `300 mod 7 = 6`. -/
theorem C23_violated_truncation :
    typeVerify 7#8 = true ∧ constCoeff 7#8 300#64 = some 2#8 ∧ (300 : Int) % 7 = 6 := by decide

/-- Every modulus above `2^63`: the constant `-1` trips the assertion of `getSExtValue`. -/
theorem C23_violated_large_modulus {q : BitVec w} (hq : typeVerify q = true) (hbig : 2 ^ 63 < q.toNat) :
    constCoeff q (-1 : BitVec 64) = none := by
  have h0 : 0 < q.toNat := by omega
  have hlt := typeVerify_lt hq
  have hone : (-1 : BitVec 64).toInt = -1 := by decide
  have hw : (1 : Int) ≤ 2 ^ (w - 1) := by exact_mod_cast Nat.one_le_two_pow
  obtain ⟨v, hv, hv'⟩ := constResidue_ok (c := (-1 : BitVec 64)) hq h0 (by rw [hone]; omega) (by rw [hone]; omega)
  rw [hone] at hv'
  have hneg : (-1 : Int) % q.toNat = q.toNat - 1 := by
    have h3 : (-1 : Int) % q.toNat = ((q.toNat : Int) - 1) % q.toNat := by
      rw [Int.emod_emod_of_dvd _ (dvd_refl _) |>.symm]
      have : (-1 : Int) ≡ q.toNat - 1 [ZMOD q.toNat] := Int.modEq_iff_dvd.2 ⟨1, by ring⟩
      rw [this.eq]; simp
    rw [h3]
    exact Int.emod_eq_of_lt (by omega) (by omega)
  rw [hneg] at hv'
  have h2 := two_mul_le hq h0
  have hvi : v.toInt = v.toNat := BitVec.toInt_eq_toNat_of_lt (by omega)
  simp only [constCoeff, hv, Option.bind_eq_bind, Option.bind_some, viaInt64]
  rw [if_neg]
  rintro ⟨_, h⟩
  rw [hvi] at h
  omega

/-! ## C22 -/

theorem rep_of_canon {q : BitVec w} {n : Nat} {a : List (BitVec w)} (h : CanonTensor q n a) :
    Rep (okB q) n a (fun i => ((a.getD i 0#w).toNat : ZMod q.toNat)) := by
  refine ⟨h.1, fun p hp => ?_⟩
  have hl : p < a.length := by rw [h.1]; exact hp
  refine ⟨a[p], List.getElem?_eq_getElem hl, h.2 _ (List.getElem_mem _), ?_⟩
  beta_reduce
  rw [List.getD_eq_getElem?_getD, List.getElem?_eq_getElem hl]; rfl

theorem canon_of_rep {q : BitVec w} {n : Nat} {t : List (BitVec w)} {T : Nat → ZMod q.toNat}
    (h : Rep (okB q) n t T) : CanonTensor q n t ∧ wordsPoly q t = polyOf n T := by
  refine ⟨⟨h.1, fun x hx => ?_⟩, ?_⟩
  · obtain ⟨i, hi, rfl⟩ := List.mem_iff_getElem.1 hx
    obtain ⟨v, hv, hv'⟩ := h.2 i (by rw [← h.1]; exact hi)
    rw [List.getElem?_eq_getElem hi] at hv
    injection hv with hv
    rw [hv]; exact hv'.1
  · rw [wordsPoly, h.1]
    apply polyOf_congr
    intro p hp
    obtain ⟨v, hv, hv'⟩ := h.2 p hp
    rw [List.getD_eq_getElem?_getD, hv]
    exact hv'.2

/-- Conditions on the ring modulus and the coefficient modulus under which the code compiles:
increasing exponents, degree at least two, a positive leading coefficient below `q` and coprime
to it, every coefficient within the storage width. -/
structure GoodRing (q : BitVec w) (ts : Terms wc) (n : Nat) (lc : BitVec wc) : Prop where
  ver : typeVerify q = true
  two : 2 ≤ q.toNat
  inc : (ts.map Prod.fst).Pairwise (· < ·)
  last : ts.getLast? = some (n, lc)
  deg : 2 ≤ n
  pos : 0 ≤ lc.toInt
  lt : lc.toNat < q.toNat
  cop : Nat.Coprime lc.toNat q.toNat
  fits : ∀ x ∈ ts, Fits w x.2.toInt

theorem nonneg_toInt {c : BitVec wc} (h : 0 ≤ c.toInt) : c.toInt = c.toNat := by
  have h4 := BitVec.toInt_eq_toNat_cond c
  have := c.isLt
  split at h4 <;> omega

theorem lowerPolyMul_eq {q : BitVec w} {ts : Terms wc} {n : Nat} {lc : BitVec wc} (h : GoodRing q ts n lc)
    (h63 : q.toNat ≤ 2 ^ 63) :
    ∃ (D : List (BitVec w)) (inv : BitVec w),
      Rep (okB q) (2 * n - 1) D (fun p => (termsPoly (R := ZMod q.toNat) ts).coeff p) ∧
      okB q inv (inv.toNat : ZMod q.toNat) ∧
      (termsPoly (R := ZMod q.toNat) ts).coeff n * (inv.toNat : ZMod q.toNat) = 1 ∧
      ∀ fuel a b, lowerPolyMul q ts fuel a b = some (some (polyMulMod (modCoeff q) n D inv fuel a b)) := by
  have h0 : 0 < q.toNat := by have := h.two; omega
  obtain ⟨hle, _, hcoeff⟩ := termsPoly_last (R := ZMod q.toNat) h.inc h.last
  obtain ⟨inv, hi, hi1, hi2⟩ := modInverse_ok h.ver h63 h.two h.lt h.cop
  obtain ⟨hi3, hi4⟩ := inv_okB (v := inv) hi1 rfl (nonneg_toInt h.pos) hi2
  obtain ⟨D, hD, hD'⟩ := constTensor_ok (modCoeff_refines h.ver h0) (conv := constCoeff q) (m := 2 * n - 1)
    (ts := ts) (fun x hx => ⟨by have := hle x hx; have := h.deg; omega, by
      obtain ⟨v, hv, hv'⟩ := constCoeff_ok h.ver h0 h63 (h.fits x hx).1 (h.fits x hx).2
      exact ⟨v, hv, okB_of_residue h0 hv'⟩⟩) h.inc
  refine ⟨D, inv, hD', hi3, by rw [hcoeff]; exact hi4, fun fuel a b => ?_⟩
  have hl : leadingOf ts = some (n, lc) := h.last
  simp [lowerPolyMul, hl, hi, hD]

/-- The emitted product is the remainder of the product modulo the ring polynomial, for every pair
of canonical inputs.  Partial: the remainder must not be zero (`C22_violated_zero_remainder`), the
conditions `GoodRing` on the ring, and a modulus of at most `2^63`.  `fuel` is the iteration budget
of the model: any budget of at least twice the degree suffices. -/
theorem C22_mul_partial {q : BitVec w} {ts : Terms wc} {n : Nat} {lc : BitVec wc} (h : GoodRing q ts n lc)
    (h63 : q.toNat ≤ 2 ^ 63) {a b : List (BitVec w)} (ha : CanonTensor q n a) (hb : CanonTensor q n b)
    {fuel : Nat} (hf : 2 * n ≤ fuel) (hnz : ¬ termsPoly ts ∣ wordsPoly q a * wordsPoly q b) :
    ∃ t, lowerPolyMul q ts fuel a b = some (some (.done t)) ∧ CanonTensor q n t ∧
      IsRemainder (termsPoly ts) (wordsPoly q a * wordsPoly q b) (wordsPoly q t) n := by
  have h0 : 0 < q.toNat := by have := h.two; omega
  obtain ⟨hle, _, _⟩ := termsPoly_last (R := ZMod q.toNat) h.inc h.last
  obtain ⟨D, inv, hD, hinv, hu, hrun⟩ := lowerPolyMul_eq h h63
  have key := (polyMulMod_ok (modCoeff_refines h.ver h0) h.deg hD
    (fun p h1 _ => termsPoly_coeff_absent fun x hx => by have := hle x hx; omega)
    hinv hu (rep_of_canon ha) (rep_of_canon hb) hf).1
  rw [polyOf_terms hle] at key
  have ea : wordsPoly q a = polyOf n (fun i => ((a.getD i 0#w).toNat : ZMod q.toNat)) := by rw [wordsPoly, ha.1]
  have eb : wordsPoly q b = polyOf n (fun i => ((b.getD i 0#w).toNat : ZMod q.toNat)) := by rw [wordsPoly, hb.1]
  rw [← ea, ← eb] at key
  obtain ⟨t, T, h1, h2, Q, h3⟩ := key hnz
  obtain ⟨hc, hp⟩ := canon_of_rep h2
  refine ⟨t, by rw [hrun, h1], hc, ⟨Q, by rw [hp]; exact h3⟩, by rw [hp]; exact polyOf_degree_lt _ _⟩

/-- Whenever the product reduces to zero (in particular when an operand is zero), the emitted
code reads at index `-1`. -/
theorem C22_violated_zero_remainder {q : BitVec w} {ts : Terms wc} {n : Nat} {lc : BitVec wc}
    (h : GoodRing q ts n lc) (h63 : q.toNat ≤ 2 ^ 63) {a b : List (BitVec w)} (ha : CanonTensor q n a)
    (hb : CanonTensor q n b) {fuel : Nat} (hf : 2 * n ≤ fuel)
    (hz : termsPoly ts ∣ wordsPoly q a * wordsPoly q b) :
    lowerPolyMul q ts fuel a b = some (some .ub) := by
  have h0 : 0 < q.toNat := by have := h.two; omega
  obtain ⟨hle, _, _⟩ := termsPoly_last (R := ZMod q.toNat) h.inc h.last
  obtain ⟨D, inv, hD, hinv, hu, hrun⟩ := lowerPolyMul_eq h h63
  have key := (polyMulMod_ok (modCoeff_refines h.ver h0) h.deg hD
    (fun p h1 _ => termsPoly_coeff_absent fun x hx => by have := hle x hx; omega)
    hinv hu (rep_of_canon ha) (rep_of_canon hb) hf).2
  rw [polyOf_terms hle] at key
  have ea : wordsPoly q a = polyOf n (fun i => ((a.getD i 0#w).toNat : ZMod q.toNat)) := by rw [wordsPoly, ha.1]
  have eb : wordsPoly q b = polyOf n (fun i => ((b.getD i 0#w).toNat : ZMod q.toNat)) := by rw [wordsPoly, hb.1]
  rw [← ea, ← eb] at key
  rw [hrun, key hz]

/-- Multiplying by zero is undefined, whatever the other operand. -/
theorem C22_violated_zero_operand {q : BitVec w} {ts : Terms wc} {n : Nat} {lc : BitVec wc}
    (h : GoodRing q ts n lc) (h63 : q.toNat ≤ 2 ^ 63) {b : List (BitVec w)} (hb : CanonTensor q n b) :
    lowerPolyMul q ts (2 * n) (List.replicate n 0#w) b = some (some .ub) := by
  have h0 : 0 < q.toNat := by have := h.two; omega
  refine C22_violated_zero_remainder h h63 ⟨by simp, fun x hx => ?_⟩ hb le_rfl ?_
  · rw [List.eq_of_mem_replicate hx]; simpa using h0
  · have : wordsPoly q (List.replicate n 0#w) = 0 := by
      apply polyOf_zero
      intro p hp
      rw [List.length_replicate] at hp
      rw [List.getD_eq_getElem?_getD, List.getElem?_replicate, if_pos hp]; simp
    rw [this, zero_mul]; exact dvd_zero _

/-- The remainder is unique, so `C22_mul_partial` determines the result. -/
theorem C22_remainder_unique {q : BitVec w} {ts : Terms wc} {n : Nat} {lc : BitVec wc} (h : GoodRing q ts n lc)
    {p r s : (ZMod q.toNat)[X]} (hr : IsRemainder (termsPoly ts) p r n) (hs : IsRemainder (termsPoly ts) p s n) :
    r = s := by
  obtain ⟨hle, _, hcoeff⟩ := termsPoly_last (R := ZMod q.toNat) h.inc h.last
  have hu : ∃ u : ZMod q.toNat, (termsPoly (R := ZMod q.toNat) ts).coeff n * u = 1 := by
    obtain ⟨inv, hi, hi1, hi2⟩ := leadingInverse_ok h.two h.lt h.cop
    refine ⟨(inv.toNat : ZMod q.toNat), ?_⟩
    rw [hcoeff, nonneg_toInt h.pos, Int.cast_natCast, mul_comm]
    have := (ZMod.natCast_eq_natCast_iff _ _ _).2 hi2
    simpa using this
  obtain ⟨u, hu⟩ := hu
  obtain ⟨⟨Q1, e1⟩, d1⟩ := hr
  obtain ⟨⟨Q2, e2⟩, d2⟩ := hs
  have hd : termsPoly ts ∣ r - s := ⟨Q2 - Q1, by linear_combination (-e1) + e2⟩
  have hdeg : (r - s).degree < n := lt_of_le_of_lt (degree_sub_le r s) (max_lt d1 d2)
  have hnat : (termsPoly (R := ZMod q.toNat) ts).natDegree ≤ n := by
    rw [natDegree_le_iff_coeff_eq_zero]
    intro N hN
    exact termsPoly_coeff_absent fun x hx => by have := hle x hx; omega
  exact sub_eq_zero.1 (not_dvd_of_degree_lt hnat hu hdeg hd)

example : GoodRing 17#8 [(0, 1#64), (2, 1#64)] 2 1#64 := by
  refine ⟨by decide, by decide, by decide, by decide, by decide, by decide, by decide, by decide, ?_⟩
  intro x hx
  simp only [List.mem_cons, List.not_mem_nil, or_false] at hx
  rcases hx with rfl | rfl <;> (unfold Fits; decide)

example : polyMulMod (modCoeff 17#8) 2 [1#8, 0#8, 1#8] 1#8 4 [3#8, 4#8] [5#8, 6#8] = .done [8#8, 4#8] ∧
    polyMulMod (modCoeff 17#8) 2 [1#8, 0#8, 1#8] 1#8 4 [0#8, 0#8] [5#8, 6#8] = .ub ∧
    polyMulMod (modCoeff 17#8) 2 [1#8, 0#8, 1#8] 1#8 4 [4#8, 1#8] [13#8, 1#8] = .ub := by decide

/-- A negative leading coefficient, even when invertible, trips an assertion: it is zero extended
(64-bit coefficients, storage of at most 64 bits). -/
theorem C22_violated_negative_leading {q : BitVec w} (hw : w ≤ 64) (hq : typeVerify q = true)
    (ini : Terms 64) (n : Nat) {lc : BitVec 64} (hlc : lc.toInt < 0) (fuel : Nat) (a b : List (BitVec w)) :
    lowerPolyMul q (ini ++ [(n, lc)]) fuel a b = none := by
  have hl : leadingOf (ini ++ [(n, lc)]) = some (n, lc) := by simp [leadingOf]
  have e1 : (lc.setWidth (max 64 w)).toNat = lc.toNat := setWidth_toNat_of_le (by omega) lc
  have e2 : (q.setWidth (max 64 w)).toNat = q.toNat := setWidth_toNat_of_le (by omega) q
  have h4 := BitVec.toInt_eq_toNat_cond lc
  have h5 := typeVerify_lt hq
  have h6 : (2 : Nat) ^ (w - 1) ≤ 2 ^ 63 := Nat.pow_le_pow_right (by norm_num) (by omega)
  have hge : ¬ lc.toNat < q.toNat := by
    have := lc.isLt
    split at h4 <;> omega
  have hinv : multiplicativeInverse (lc.setWidth (max 64 w)) (q.setWidth (max 64 w)) = none := by
    rw [multiplicativeInverse, if_neg]
    simp only [BitVec.ult, e1, e2, decide_eq_true_eq]; exact hge
  simp [lowerPolyMul, hl, modInverse, leadingInverse, hinv]

/-- A ring polynomial of degree one: its constant tensor has length one and the leading term is
written out of bounds. -/
theorem C22_violated_degree_one {q : BitVec w} (ini : Terms wc) (lc : BitVec wc) (fuel : Nat)
    (a b : List (BitVec w)) (inv : BitVec w) (hinv : modInverse q lc = some (some inv)) :
    lowerPolyMul q (ini ++ [(1, lc)]) fuel a b = none := by
  have hl : leadingOf (ini ++ [(1, lc)]) = some (1, lc) := by simp [leadingOf]
  have hlen : ∀ (ts : Terms wc) (t t' : List (BitVec w)),
      ts.foldlM (fun t (x : Nat × BitVec wc) => do
        let v ← constCoeff q x.2
        put t x.1 v) t = some t' → t'.length = t.length := by
    intro ts
    induction ts with
    | nil => intro t t' h; simp at h; rw [h]
    | cons x ts ih =>
      intro t t' h
      rw [List.foldlM_cons] at h
      obtain ⟨t1, h1, h2⟩ := Option.bind_eq_some_iff.1 h
      obtain ⟨v, hv, h3⟩ := Option.bind_eq_some_iff.1 h1
      rw [ih _ _ h2]
      unfold put at h3
      split at h3
      · injection h3 with h3; rw [← h3]; simp
      · exact absurd h3 (by simp)
  have hD : constTensor (modCoeff q) (constCoeff q) (2 * 1 - 1) (ini ++ [(1, lc)]) = none := by
    unfold constTensor
    rw [List.foldlM_append]
    cases hfold : ini.foldlM (fun t (x : Nat × BitVec wc) => do
        let v ← constCoeff q x.2
        put t x.1 v) (List.replicate (2 * 1 - 1) (modCoeff q).zero) with
    | none => simp [hfold]
    | some t =>
      have := hlen _ _ _ hfold
      simp only [List.length_replicate] at this
      have hput : ∀ v, put t 1 v = none := fun v => by rw [put, if_neg (by omega)]
      simp [hfold, hput]
  simp [lowerPolyMul, hl, hinv, hD]

/-! ## C22 over an RNS type -/

theorem repR_of_canon {qs : List (BitVec w)} {n : Nat} {a : List (List (BitVec w))} (h : CanonLimbs qs n a) :
    Rep (okR qs) n a (fun p i => (((a.getD p []).getD i.1 0#w).toNat : ZMod (qs.get i).toNat)) := by
  refine ⟨h.1, fun p hp => ?_⟩
  have hl : p < a.length := by rw [h.1]; exact hp
  obtain ⟨h1, h2⟩ := h.2 _ (List.getElem_mem hl)
  refine ⟨a[p], List.getElem?_eq_getElem hl, h1, fun i => ?_⟩
  have hi : i.1 < (a[p]).length := by rw [h1]; exact i.2
  refine ⟨a[p][i.1], List.getElem?_eq_getElem hi, h2 i.1 _ _ (List.getElem?_eq_getElem i.2)
    (List.getElem?_eq_getElem hi), ?_⟩
  beta_reduce
  rw [List.getD_eq_getElem?_getD (l := a), List.getElem?_eq_getElem hl, Option.getD_some,
    List.getD_eq_getElem?_getD, List.getElem?_eq_getElem hi]; rfl

theorem canonR_of_rep {qs : List (BitVec w)} {n : Nat} {t : List (List (BitVec w))}
    {T : Nat → (i : Fin qs.length) → ZMod (qs.get i).toNat} (h : Rep (okR qs) n t T) :
    CanonLimbs qs n t ∧ limbsPoly qs t = polyOf n T := by
  refine ⟨⟨h.1, fun x hx => ?_⟩, ?_⟩
  · obtain ⟨i, hi, rfl⟩ := List.mem_iff_getElem.1 hx
    obtain ⟨v, hv, hv'⟩ := h.2 i (by rw [← h.1]; exact hi)
    rw [List.getElem?_eq_getElem hi] at hv
    injection hv with hv
    rw [hv]
    refine ⟨hv'.1, fun j q x hq hx => ?_⟩
    obtain ⟨hj, he⟩ := List.getElem?_eq_some_iff.1 hq
    obtain ⟨b, hb, hb'⟩ := hv'.2 ⟨j, hj⟩
    have hb : v[j]? = some b := hb
    rw [hx] at hb
    injection hb with hb
    subst hb he
    exact hb'.1
  · rw [limbsPoly, h.1]
    apply polyOf_congr
    intro p hp
    obtain ⟨v, hv, hv'⟩ := h.2 p hp
    funext i
    obtain ⟨b, hb, hb'⟩ := hv'.2 i
    rw [List.getD_eq_getElem?_getD (l := t), hv, Option.getD_some, List.getD_eq_getElem?_getD, hb]
    exact hb'.2

theorem lowerPolyMulRNS_eq {qs : List (BitVec w)} {ts : Terms wc} {n : Nat} {lc : BitVec wc}
    (hne : qs ≠ []) (h : ∀ q ∈ qs, GoodRing q ts n lc) :
    ∃ (D : List (List (BitVec w))) (inv : List (BitVec w)) (u : (i : Fin qs.length) → ZMod (qs.get i).toNat),
      Rep (okR qs) (2 * n - 1) D (fun p => (termsPoly (R := (i : Fin qs.length) → ZMod (qs.get i).toNat) ts).coeff p) ∧
      okR qs inv u ∧
      (termsPoly (R := (i : Fin qs.length) → ZMod (qs.get i).toNat) ts).coeff n * u = 1 ∧
      ∀ fuel a b, lowerPolyMulRNS qs ts fuel a b = some (some (polyMulMod (rnsCoeff qs) n D inv fuel a b)) := by
  obtain ⟨q0, hq0⟩ := List.exists_mem_of_ne_nil _ hne
  have g0 := h q0 hq0
  have hver : ∀ q ∈ qs, typeVerify q = true ∧ 0 < q.toNat := fun q hq =>
    ⟨(h q hq).ver, by have := (h q hq).two; omega⟩
  obtain ⟨hle, _, hcoeff⟩ := termsPoly_last (R := (i : Fin qs.length) → ZMod (qs.get i).toNat) g0.inc g0.last
  obtain ⟨inv, hi, hil, hiv⟩ := mapLimbsOpt_forall (l := qs)
    (f := fun q => (do
      match ← leadingInverse q lc with
      | none => some none
      | some inv => some (some (inv.setWidth w)) : Option (Option (BitVec w))))
    (P := fun (q v : BitVec w) => v.toNat < q.toNat ∧ v.toNat * lc.toNat ≡ 1 [MOD q.toNat]) (by
      intro q hq
      have g := h q hq
      obtain ⟨r, h1, h2, h3⟩ := leadingInverse_ok g.two g.lt g.cop
      have hr : (r.setWidth w).toNat = r.toNat := by
        rw [BitVec.toNat_setWidth]
        exact Nat.mod_eq_of_lt (lt_trans h2 q.isLt)
      exact ⟨r.setWidth w, by simp [h1], by rw [hr]; exact h2, by rw [hr]; exact h3⟩)
  have hiv' : ∀ i : Fin qs.length, ∃ b, inv[i.1]? = some b ∧ b.toNat < (qs.get i).toNat ∧
      b.toNat * lc.toNat ≡ 1 [MOD (qs.get i).toNat] := fun i => by
    have hl : i.1 < inv.length := by rw [hil]; exact i.2
    exact ⟨inv[i.1], List.getElem?_eq_getElem hl,
      hiv i.1 _ _ (List.getElem?_eq_getElem i.2) (List.getElem?_eq_getElem hl)⟩
  obtain ⟨D, hD, hD'⟩ := constTensor_ok (rnsCoeff_refines hver) (conv := constLimbs qs) (m := 2 * n - 1)
    (ts := ts) (fun x hx => ⟨by have := hle x hx; have := g0.deg; omega, by
      obtain ⟨l, hl, hll, hlv⟩ := mapLimbs_forall (f := fun q => constResidue q x.2) (l := qs)
        (P := fun (q v : BitVec w) => (v.toNat : Int) = x.2.toInt % q.toNat)
        fun q h' => constResidue_ok (hver q h').1 (hver q h').2 (g0.fits x hx).1 (g0.fits x hx).2
      refine ⟨l, hl, hll, fun i => ?_⟩
      have hi : i.1 < l.length := by rw [hll]; exact i.2
      refine ⟨l[i.1], List.getElem?_eq_getElem hi, ?_⟩
      have := okB_of_residue (hver _ (List.get_mem qs i)).2
        (hlv i.1 _ _ (List.getElem?_eq_getElem i.2) (List.getElem?_eq_getElem hi))
      rw [Pi.intCast_apply]
      exact this⟩) g0.inc
  refine ⟨D, inv, fun i => ((Classical.choose (hiv' i)).toNat : ZMod (qs.get i).toNat), hD', ⟨hil, fun i => ?_⟩,
    ?_, fun fuel a b => ?_⟩
  · obtain ⟨h1, h2, _⟩ := Classical.choose_spec (hiv' i)
    exact ⟨_, h1, h2, rfl⟩
  · rw [hcoeff]
    funext i
    obtain ⟨_, h2, h3⟩ := Classical.choose_spec (hiv' i)
    rw [Pi.mul_apply, Pi.intCast_apply, Pi.one_apply]
    exact (inv_okB (q := qs.get i) h2 rfl (nonneg_toInt g0.pos) h3).2
  · have hl : leadingOf ts = some (n, lc) := g0.last
    have hi' : rnsInverse qs lc = some (some inv) := hi
    simp [lowerPolyMulRNS, hl, hi', hD]

/-- RNS coefficients: the same statement over the product ring `∏ ℤ/q_i`, any number of limbs and
no bound on the moduli. -/
theorem C22_mul_rns_partial {qs : List (BitVec w)} {ts : Terms wc} {n : Nat} {lc : BitVec wc}
    (hne : qs ≠ []) (h : ∀ q ∈ qs, GoodRing q ts n lc) {a b : List (List (BitVec w))}
    (ha : CanonLimbs qs n a) (hb : CanonLimbs qs n b) {fuel : Nat} (hf : 2 * n ≤ fuel) :
    (¬ termsPoly ts ∣ limbsPoly qs a * limbsPoly qs b →
      ∃ t, lowerPolyMulRNS qs ts fuel a b = some (some (.done t)) ∧ CanonLimbs qs n t ∧
        IsRemainder (termsPoly ts) (limbsPoly qs a * limbsPoly qs b) (limbsPoly qs t) n) ∧
    (termsPoly ts ∣ limbsPoly qs a * limbsPoly qs b → lowerPolyMulRNS qs ts fuel a b = some (some .ub)) := by
  obtain ⟨q0, hq0⟩ := List.exists_mem_of_ne_nil _ hne
  have g0 := h q0 hq0
  have hver : ∀ q ∈ qs, typeVerify q = true ∧ 0 < q.toNat := fun q hq =>
    ⟨(h q hq).ver, by have := (h q hq).two; omega⟩
  obtain ⟨hle, _, _⟩ := termsPoly_last (R := (i : Fin qs.length) → ZMod (qs.get i).toNat) g0.inc g0.last
  obtain ⟨D, inv, u, hD, hinv, hu, hrun⟩ := lowerPolyMulRNS_eq hne h
  have key := polyMulMod_ok (rnsCoeff_refines hver) g0.deg hD
    (fun p h1 _ => termsPoly_coeff_absent fun x hx => by have := hle x hx; omega)
    hinv hu (repR_of_canon ha) (repR_of_canon hb) hf
  rw [polyOf_terms hle] at key
  have ea : limbsPoly qs a = polyOf n (fun p (i : Fin qs.length) => (((a.getD p []).getD i.1 0#w).toNat : ZMod (qs.get i).toNat)) := by
    rw [limbsPoly, ha.1]
  have eb : limbsPoly qs b = polyOf n (fun p (i : Fin qs.length) => (((b.getD p []).getD i.1 0#w).toNat : ZMod (qs.get i).toNat)) := by
    rw [limbsPoly, hb.1]
  rw [← ea, ← eb] at key
  refine ⟨fun hnz => ?_, fun hz => by rw [hrun, key.2 hz]⟩
  obtain ⟨t, T, h1, h2, Q, h3⟩ := key.1 hnz
  obtain ⟨hc, hp⟩ := canonR_of_rep h2
  exact ⟨t, by rw [hrun, h1], hc, ⟨Q, by rw [hp]; exact h3⟩, by rw [hp]; exact polyOf_degree_lt _ _⟩

example : ∀ q ∈ [17#8, 13#8], GoodRing q [(0, 1#64), (2, 1#64)] 2 1#64 := by
  intro q hq
  simp only [List.mem_cons, List.not_mem_nil, or_false] at hq
  rcases hq with rfl | rfl
  all_goals
    refine ⟨by decide, by decide, by decide, by decide, by decide, by decide, by decide, by decide, ?_⟩
    intro x hx
    simp only [List.mem_cons, List.not_mem_nil, or_false] at hx
    rcases hx with rfl | rfl <;> (unfold Fits; decide)

end Heir.Poly
