import Verif.NTT.Emitted
import Mathlib.GroupTheory.OrderOfElement
import Mathlib.FieldTheory.Finite.Basic

/-! # Properties of the number theoretic transforms (C08, C09, C10, C11) -/

namespace Heir.NTT

open Finset Heir.NumTheory Heir.ModArith

/-! ## Helpers -/

/-- Stage recursion with pre-scaling evaluates at odd powers of the root. -/
theorem gs_evalAt {R : Type} [CommRing R] (psi : R) (k p : Nat) (A : Nat → R) (hp : p < 2 ^ k)
    (hr : psi ^ 2 ^ k = -1) :
    gsRun psi k 1 (fun p => A p * psi ^ p) p = evalAt (2 ^ k) A (psi ^ (2 * bitrev k p + 1)) := by
  have := gsRun_eq psi k 1 0 p (fun p => A p * psi ^ p) hp (Or.inr (by rwa [one_mul]))
  simp only [zero_mul, zero_add] at this
  rw [this, evalAt]
  apply sum_congr rfl
  intro i _
  rw [mul_assoc, ← pow_add, ← pow_mul]
  congr 2; ring

theorem em_evalAt {R : Type} [CommRing R] (psi : R) (k p : Nat) (A B : Nat → R) (hp : p < 2 ^ k)
    (hB : ∀ i, i < 2 ^ k → B (bitrev k i) = A i) (hr : psi ^ 2 ^ k = -1) :
    emCTRun psi k 1 B p = evalAt (2 ^ k) A (psi ^ (2 * p + 1)) := by
  have := emCTRun_eq psi k 1 0 p B hp (Or.inr (by rwa [one_mul]))
  simp only [zero_mul, zero_add] at this
  rw [this, evalAt]
  apply sum_congr rfl
  intro i hi
  rw [hB i (mem_range.1 hi), ← pow_mul]
  congr 2; ring

/-- A list as a coefficient function modulo `m`. -/
def coeffs (m : Nat) (c : List Nat) (i : Nat) : ZMod m := ((c[i]?.getD 0 : Nat) : ZMod m)

theorem rep_coeffs {m n : Nat} {c : List Nat} (hc : c.length = n) : Rep (okC m) n c (coeffs m c) :=
  ⟨hc, fun p hp => ⟨c[p]'(by omega), by simp [hc, hp], by simp [okC, coeffs, hc, hp]⟩⟩

theorem rep_coeffs_can {m n : Nat} {c : List Nat} (hc : c.length = n) (hcan : ∀ v ∈ c, v < m) :
    Rep (okN m) n c (coeffs m c) :=
  ⟨hc, fun p hp => ⟨c[p]'(by omega), by simp [hc, hp], hcan _ (List.getElem_mem _),
    by simp [coeffs, hc, hp]⟩⟩

/-- A canonical representation determines the list. -/
theorem rep_unique {m n : Nat} {c d : List Nat} {A : Nat → ZMod m} (hc : Rep (okN m) n c A)
    (hd : Rep (okN m) n d A) : c = d := by
  apply List.ext_getElem?
  intro i
  by_cases hi : i < n
  · obtain ⟨v, h1, h2, h3⟩ := hc.2 i hi
    obtain ⟨u, h4, h5, h6⟩ := hd.2 i hi
    rw [h1, h4]
    have := (ZMod.natCast_eq_natCast_iff' _ _ _).1 (h3.trans h6.symm)
    rw [Nat.mod_eq_of_lt h2, Nat.mod_eq_of_lt h5] at this
    rw [this]
  · rw [List.getElem?_eq_none (by rw [hc.1]; omega), List.getElem?_eq_none (by rw [hd.1]; omega)]

/-- A unit equation gives coprimality. -/
theorem coprime_of_pow {m a n : Nat} (hn : 0 < n) (h : (a : ZMod m) ^ n = -1) : Nat.Coprime a m := by
  rw [← ZMod.isUnit_iff_coprime]
  obtain ⟨n, rfl⟩ : ∃ k, n = k + 1 := ⟨n - 1, by omega⟩
  exact IsUnit.of_mul_eq_one (-(a : ZMod m) ^ n) (by rw [mul_neg, ← pow_succ', h, neg_neg])

/-- A root of `X^(2^k) + 1` and an odd modulus leave room for the degree. -/
theorem degree_lt {m : Nat} (hm : 2 ≤ m) {psi : ZMod m} {k : Nat}
    (hpsi : psi ^ 2 ^ k = -1) (hc : Nat.Coprime (2 ^ k) m) : 2 ^ k < m := by
  rcases Nat.eq_zero_or_pos k with rfl | hk
  · rw [pow_zero]; omega
  have hodd : m ≠ 2 := by
    rintro rfl
    have := (Nat.coprime_pow_left_iff hk 2 2).1 hc
    simp at this
  have := NeZero.mk (show m ≠ 0 by omega)
  have := Fact.mk (show 2 < m by omega)
  have hu : IsUnit psi :=
    IsUnit.of_mul_eq_one (-psi ^ (2 ^ k - 1)) (by
      rw [mul_neg, ← pow_succ', Nat.sub_add_cancel (Nat.two_pow_pos k), hpsi, neg_neg])
  obtain ⟨u, rfl⟩ := hu
  have hu1 : u ^ 2 ^ k ≠ 1 := by
    intro h
    have := congrArg Units.val h
    rw [Units.val_pow_eq_pow_val, hpsi] at this
    exact ZMod.neg_one_ne_one this
  have hu2 : u ^ 2 ^ (k + 1) = 1 := by
    ext
    rw [Units.val_pow_eq_pow_val, pow_succ, pow_mul, hpsi]; simp
  have := Fact.mk Nat.prime_two
  have ho := orderOf_eq_prime_pow hu1 hu2
  have hd := orderOf_dvd_card (x := u)
  rw [ho, ZMod.card_units_eq_totient] at hd
  have h1 := Nat.le_of_dvd (Nat.totient_pos.2 (by omega)) hd
  have h2 := Nat.totient_lt m (by omega)
  have h3 := Nat.pow_lt_pow_right (show 1 < 2 by norm_num) (Nat.lt_succ_self k)
  simp only [Nat.succ_eq_add_one] at h3
  omega

/-! ## C08 -/

/-- C08: the helper `reverseBits` is the bit reversal. -/
theorem C08_reverseBits (n k : Nat) (hk : k ≤ 32) : reverseBits n k = bitrev k n :=
  reverseBits_eq n k hk

/-- C08: after `nttInPlace`, slot `p` holds the polynomial evaluated at
`psi ^ (2 * bitrev p + 1)`; reduced modulo `q` for lengths at least two. -/
theorem C08_slot {k q psi : Nat} (hq : 0 < q) (hk : k < 32) (hpsi : (psi : ZMod q) ^ 2 ^ k = -1)
    {c : List Nat} (hc : c.length = 2 ^ k) :
    ∃ c', nttInPlace c q psi = some c' ∧ c'.length = 2 ^ k ∧ ∀ p, p < 2 ^ k →
      ∃ v, c'[p]? = some v ∧ (0 < k → v < q) ∧
        (v : ZMod q) = evalAt (2 ^ k) (coeffs q c) ((psi : ZMod q) ^ (2 * bitrev k p + 1)) := by
  rcases Nat.eq_zero_or_pos k with rfl | hk0
  · refine ⟨c, by simp [nttInPlace, hc], hc, fun p hp => ?_⟩
    have hp0 : p = 0 := by simpa using hp
    subst hp0
    refine ⟨c[0]'(by rw [hc]; simp), List.getElem?_eq_getElem _, fun h => absurd h (by omega), ?_⟩
    simp [evalAt, coeffs, hc]
  · obtain ⟨c', h1, h2⟩ := nttInPlace_ok (root := psi) hq hk0 hk (rep_coeffs (m := q) hc)
    refine ⟨c', h1, h2.1, fun p hp => ?_⟩
    obtain ⟨v, hv, hlt, hv'⟩ := h2.2 p hp
    exact ⟨v, hv, fun _ => hlt, by rw [hv', gs_evalAt _ _ _ _ hp hpsi]⟩

/-- C08 as stated: slot `bitrev k` holds the value at `psi^(2k+1)`. -/
theorem C08_ntt {k q psi : Nat} (hq : 0 < q) (hk : k < 32) (hpsi : (psi : ZMod q) ^ 2 ^ k = -1)
    {c : List Nat} (hc : c.length = 2 ^ k) :
    ∃ c', nttInPlace c q psi = some c' ∧ c'.length = 2 ^ k ∧ ∀ j, j < 2 ^ k →
      ∃ v, c'[bitrev k j]? = some v ∧ (0 < k → v < q) ∧
        (v : ZMod q) = ∑ i ∈ range (2 ^ k), (c[i]?.getD 0 : Nat) * ((psi : ZMod q) ^ (2 * j + 1)) ^ i := by
  obtain ⟨c', h1, h2, h3⟩ := C08_slot hq hk hpsi hc
  refine ⟨c', h1, h2, fun j hj => ?_⟩
  obtain ⟨v, hv, hlt, hv'⟩ := h3 (bitrev k j) (bitrev_lt k j)
  exact ⟨v, hv, hlt, by rw [hv', bitrev_bitrev k j hj]; rfl⟩

example : (3 : ZMod 17) ^ 2 ^ 3 = -1 := by decide
example : ((2 : Nat) : ZMod 17) ^ 2 ^ 2 = -1 ∧ [1, 2, 3, 4].length = 2 ^ 2 := by decide

/-- C08 boundary: a vector of `2^32` coefficients is returned untransformed (the length is
truncated to `uint32_t`), so the claim stops at lengths below `2^32`. -/
theorem C08_length_truncated {c : List Nat} (hc : c.length = 2 ^ 32) (q psi : Nat) :
    nttInPlace c q psi = some c := by
  have : c.length % 2 ^ 32 ≤ 1 := by rw [hc, Nat.mod_self]; exact Nat.zero_le _
  exact if_pos this

theorem truncated_witness (N e : Nat) (hN : 1 < N) :
    ∃ c : List Nat, c.length = N ∧ c[1]? = some 0 ∧
      ∑ i ∈ range N, (c[i]?.getD 0 : Nat) * (((1 : Nat) : ZMod 2) ^ e) ^ i = 1 := by
  obtain ⟨M, rfl⟩ : ∃ M, N = M + 2 := ⟨N - 2, by omega⟩
  refine ⟨1 :: List.replicate (M + 1) 0, by simp, by simp, ?_⟩
  rw [Finset.sum_eq_single 0]
  · simp
  · intro i _ hi
    obtain ⟨i, rfl⟩ : ∃ j, i = j + 1 := ⟨i - 1, by omega⟩
    rw [List.getElem?_cons_succ, List.getElem?_replicate]
    split <;> simp
  · intro h; exact absurd (mem_range.2 (by omega)) h

/-- C08 is false at length `2^32`: with `q = 2`, `psi = 1` (`psi^n = -1` holds) slot
`bitrev 2^31 = 1` of the transform of the constant polynomial 1 is 0 instead of 1. -/
theorem C08_violated_at_two_pow_32 : ∃ (c c' : List Nat) (n : Nat), n = 2 ^ 32 ∧ c.length = n ∧
    ((1 : Nat) : ZMod 2) ^ n = -1 ∧ nttInPlace c 2 1 = some c' ∧
      c'[1]? = some 0 ∧
      ∑ i ∈ range n, (c[i]?.getD 0 : Nat) * (((1 : Nat) : ZMod 2) ^ (2 * bitrev 32 1 + 1)) ^ i = 1 := by
  obtain ⟨N, hN⟩ : ∃ N : Nat, N = 2 ^ 32 := ⟨_, rfl⟩
  obtain ⟨c, h1, h2, h3⟩ := truncated_witness N (2 * bitrev 32 1 + 1) (by rw [hN]; norm_num)
  refine ⟨c, c, N, hN, h1, ?_, C08_length_truncated (h1.trans hN) 2 1, h2, h3⟩
  rw [Nat.cast_one, one_pow]; decide

/-! ## C09 -/

/-- C09: the inverse transform undoes the forward transform on residues. -/
theorem C09_intt_ntt {k q psi : Nat} (hq : 2 ≤ q) (hq64 : q < 2 ^ 64) (hk : k < 32) (hr : psi < q)
    (hpsi : (psi : ZMod q) ^ 2 ^ k = -1) (hn : Nat.Coprime (2 ^ k) q)
    {c : List Nat} (hc : c.length = 2 ^ k) (hcan : ∀ v ∈ c, v < q) :
    ∃ c', nttInPlace c q psi = some c' ∧ inttInPlace c' q psi = some c := by
  rcases Nat.eq_zero_or_pos k with rfl | hk0
  · exact ⟨c, by simp [nttInPlace, hc], by simp [inttInPlace, hc]⟩
  · obtain ⟨c', h1, h2⟩ := nttInPlace_ok (root := psi) (by omega) hk0 hk (rep_coeffs (m := q) hc)
    obtain ⟨d, phi, ninv, h3, h4, h5, h6⟩ := inttInPlace_ok hq hq64 hk0 hk hr
      (coprime_of_pow (Nat.two_pow_pos k) hpsi) (degree_lt hq hpsi hn) hn h2
    refine ⟨c', h1, ?_⟩
    rw [h3]
    congr 1
    refine rep_unique (h6.congr (B := coeffs q c) fun p _ => ?_) (rep_coeffs_can hc hcan)
    have h4' : (psi : ZMod q) * phi = 1 := by rw [mul_comm]; exact h4
    rw [ctRun_gsRun h4']
    have hp : (psi : ZMod q) ^ p * phi ^ p = 1 := by rw [← mul_pow, h4', one_pow]
    linear_combination (coeffs q c p * (psi : ZMod q) ^ p * phi ^ p) * h5 + coeffs q c p * hp

/-- C09: the forward transform undoes the inverse transform on residues. -/
theorem C09_ntt_intt {k q psi : Nat} (hq : 2 ≤ q) (hq64 : q < 2 ^ 64) (hk : k < 32) (hr : psi < q)
    (hpsi : (psi : ZMod q) ^ 2 ^ k = -1) (hn : Nat.Coprime (2 ^ k) q)
    {c : List Nat} (hc : c.length = 2 ^ k) (hcan : ∀ v ∈ c, v < q) :
    ∃ c', inttInPlace c q psi = some c' ∧ nttInPlace c' q psi = some c := by
  rcases Nat.eq_zero_or_pos k with rfl | hk0
  · exact ⟨c, by simp [inttInPlace, hc], by simp [nttInPlace, hc]⟩
  · obtain ⟨d, phi, ninv, h3, h4, h5, h6⟩ := inttInPlace_ok hq hq64 hk0 hk hr
      (coprime_of_pow (Nat.two_pow_pos k) hpsi) (degree_lt hq hpsi hn) hn (rep_coeffs_can hc hcan)
    obtain ⟨c', h1, h2⟩ := nttInPlace_ok (root := psi) (by omega) hk0 hk
      (h6.mono (ok' := okC q) (fun v x h => h.2))
    refine ⟨d, h3, ?_⟩
    rw [h1]
    congr 1
    refine rep_unique (h2.congr (B := coeffs q c) fun p _ => ?_) (rep_coeffs_can hc hcan)
    have h4' : (psi : ZMod q) * phi = 1 := by rw [mul_comm]; exact h4
    have e : (fun p => ctRun phi k 1 (coeffs q c) p * (phi ^ p * ninv) * (psi : ZMod q) ^ p)
        = fun p => ninv * ctRun phi k 1 (coeffs q c) p := by
      funext p
      have hp : (psi : ZMod q) ^ p * phi ^ p = 1 := by rw [← mul_pow, h4', one_pow]
      linear_combination ninv * ctRun phi k 1 (coeffs q c) p * hp
    rw [e, gsRun_smul, gsRun_ctRun h4']
    linear_combination coeffs q c p * h5

example : (2 : ZMod 17) ^ 2 ^ 2 = -1 ∧ Nat.Coprime (2 ^ 2) 17 := by decide

/-! ## C10 -/

/-- One limb of the coefficient-form product. -/
theorem limb_mul {k m : Nat} (hp : m.Prime) (hm : m < 2 ^ 64) (hk : k < 32) (hd : 2 * 2 ^ k ∣ m - 1)
    {a b : List Nat} (ha : a.length = 2 ^ k) (hb : b.length = 2 ^ k) :
    ∃ a' b' c r, toNttLimb m a = some (some a') ∧ toNttLimb m b = some (some b') ∧
      mulLimb m a' b' = some c ∧ toCoeffLimb m c = some (some r) ∧
      a'.length = 2 ^ k ∧ b'.length = 2 ^ k ∧ c.length = 2 ^ k ∧
      Rep (okN m) (2 ^ k) r (negacyclic (2 ^ k) (coeffs m a) (coeffs m b)) := by
  have h2 := hp.two_le
  have em : (BitVec.ofNat 64 m).toNat = m := by
    rw [BitVec.toNat_ofNat]; exact Nat.mod_eq_of_lt (by omega)
  obtain ⟨r, hr, hrm, _, hrn⟩ := C06_findPrimitive2nthRoot (q := BitVec.ofNat 64 m) (n := 2 ^ k)
    (by rw [em]; exact hp) (by omega) (Nat.two_pow_pos k) (by rw [em]; exact hd)
  rw [em] at hrm hrn
  have hrA : ∀ l : List Nat, l.length = 2 ^ k →
      findPrimitive2nthRoot (BitVec.ofNat 64 m) l.length = some (some r) := fun l hl => by rw [hl, hr]
  have hmul : ∀ {a' b' : List Nat} {A B : Nat → ZMod m}, Rep (okC m) (2 ^ k) a' A →
      Rep (okC m) (2 ^ k) b' B →
      ∃ c, mulLimb m a' b' = some c ∧ Rep (okN m) (2 ^ k) c (fun p => A p * B p) := by
    intro a' b' A B hA hB
    refine ⟨_, by rw [mulLimb, if_neg (by omega)], by simp [hA.1, hB.1], fun p hp => ?_⟩
    obtain ⟨x, hx, hx'⟩ := hA.2 p hp
    obtain ⟨y, hy, hy'⟩ := hB.2 p hp
    refine ⟨x * y % m, by simp [List.getElem?_zipWith, hx, hy], Nat.mod_lt _ (by omega), ?_⟩
    rw [okC] at hx' hy'
    show ((x * y % m : Nat) : ZMod m) = A p * B p
    rw [← hx', ← hy']; simp
  rcases Nat.eq_zero_or_pos k with rfl | hk0
  · obtain ⟨c, hc, hcr⟩ := hmul (rep_coeffs (m := m) ha) (rep_coeffs (m := m) hb)
    have hcl := hcr.1
    refine ⟨a, b, c, c, ?_, ?_, hc, ?_, ha, hb, hcl, ?_⟩
    · unfold toNttLimb; rw [hrA a ha]; simp [nttInPlace, ha]
    · unfold toNttLimb; rw [hrA b hb]; simp [nttInPlace, hb]
    · unfold toCoeffLimb; rw [hrA c hcl]; simp [inttInPlace, hcl]
    · refine hcr.congr fun p hp => ?_
      have : p = 0 := by simpa using hp
      subst this
      simp [negacyclic]
  · obtain ⟨a', ha1, ha2⟩ := nttInPlace_ok (root := r.toNat) (by omega) hk0 hk (rep_coeffs (m := m) ha)
    obtain ⟨b', hb1, hb2⟩ := nttInPlace_ok (root := r.toNat) (by omega) hk0 hk (rep_coeffs (m := m) hb)
    obtain ⟨c, hc, hcr⟩ := hmul (ha2.mono (ok' := okC m) (fun v x h => h.2))
      (hb2.mono (ok' := okC m) (fun v x h => h.2))
    have hcr' := hcr.congr (B := gsRun (r.toNat : ZMod m) k 1
      (fun p => negacyclic (2 ^ k) (coeffs m a) (coeffs m b) p * (r.toNat : ZMod m) ^ p)) (by
        intro p hp
        rw [gs_evalAt _ _ _ _ hp hrn, gs_evalAt _ _ _ _ hp hrn, gs_evalAt _ _ _ _ hp hrn,
          evalAt_negacyclic]
        rw [← pow_mul, mul_comm, pow_mul, hrn, pow_succ, pow_mul]; simp)
    have hodd : Nat.Coprime (2 ^ k) m := by
      apply Nat.Coprime.pow_left
      rw [Nat.coprime_two_left]
      obtain ⟨t, ht⟩ := hd
      rw [Nat.odd_iff]
      have : m - 1 = 2 * (2 ^ k * t) := by rw [ht]; ring
      omega
    obtain ⟨d, phi, ninv, h3, h4, h5, h6⟩ := inttInPlace_ok h2 hm hk0 hk hrm
      (coprime_of_pow (Nat.two_pow_pos k) hrn) (degree_lt h2 hrn hodd) hodd hcr'
    refine ⟨a', b', c, d, ?_, ?_, hc, ?_, ha2.1, hb2.1, hcr.1, ?_⟩
    · unfold toNttLimb; rw [hrA a ha]; simp [ha1]
    · unfold toNttLimb; rw [hrA b hb]; simp [hb1]
    · unfold toCoeffLimb; rw [hrA c hcr.1]; simp [h3]
    · refine h6.congr fun p _ => ?_
      have h4' : (r.toNat : ZMod m) * phi = 1 := by rw [mul_comm]; exact h4
      rw [ctRun_gsRun h4']
      have hp : (r.toNat : ZMod m) ^ p * phi ^ p = 1 := by rw [← mul_pow, h4', one_pow]
      beta_reduce
      generalize negacyclic (2 ^ k) (coeffs m a) (coeffs m b) p = N
      linear_combination (N * (r.toNat : ZMod m) ^ p * phi ^ p) * h5 + N * hp

/-- The limb loops, for all limbs. -/
theorem limbs_mul {k : Nat} (hk : k < 32) : ∀ (ms : List Nat) (as bs : List (List Nat)),
    (∀ m ∈ ms, m.Prime ∧ m < 2 ^ 64 ∧ 2 * 2 ^ k ∣ m - 1) →
    as.length = ms.length → bs.length = ms.length →
    (∀ l ∈ as, l.length = 2 ^ k) → (∀ l ∈ bs, l.length = 2 ^ k) →
    ∃ (as' bs' cs rs : List (List Nat)),
      mapLimbsOpt (fun ml : Nat × List Nat => toNttLimb ml.1 ml.2) (List.zip ms as) = some (some as') ∧
      mapLimbsOpt (fun ml : Nat × List Nat => toNttLimb ml.1 ml.2) (List.zip ms bs) = some (some bs') ∧
      mapLimbs (fun mab : Nat × (List Nat × List Nat) => mulLimb mab.1 mab.2.1 mab.2.2)
        (List.zip ms (List.zip as' bs')) = some cs ∧
      mapLimbsOpt (fun ml : Nat × List Nat => toCoeffLimb ml.1 ml.2) (List.zip ms cs) = some (some rs) ∧
      rs.length = ms.length ∧
      ∀ (i m : Nat) (a b : List Nat), ms[i]? = some m → as[i]? = some a → bs[i]? = some b →
        ∃ r, rs[i]? = some r ∧ Rep (okN m) (2 ^ k) r (negacyclic (2 ^ k) (coeffs m a) (coeffs m b)) := by
  intro ms
  induction ms with
  | nil =>
    intro as bs _ _ _ _ _
    exact ⟨[], [], [], [], by simp [mapLimbsOpt], by simp [mapLimbsOpt], by simp [mapLimbs],
      by simp [mapLimbsOpt], rfl, by intro i m a b h; simp at h⟩
  | cons m ms ih =>
    intro as bs hms hla hlb hal hbl
    obtain ⟨a, as, rfl⟩ : ∃ a as', as = a :: as' := by
      cases as with
      | nil => simp at hla
      | cons a as => exact ⟨a, as, rfl⟩
    obtain ⟨b, bs, rfl⟩ : ∃ b bs', bs = b :: bs' := by
      cases bs with
      | nil => simp at hlb
      | cons b bs => exact ⟨b, bs, rfl⟩
    obtain ⟨hp, h64, hd⟩ := hms m (by simp)
    obtain ⟨a', b', c, r, h1, h2, h3, h4, _, _, _, h5⟩ := limb_mul hp h64 hk hd
      (hal a (by simp)) (hbl b (by simp))
    obtain ⟨as', bs', cs, rs, g1, g2, g3, g4, g5, g6⟩ := ih as bs (fun m hm => hms m (by simp [hm]))
      (by simpa using hla) (by simpa using hlb) (fun l hl => hal l (by simp [hl]))
      (fun l hl => hbl l (by simp [hl]))
    refine ⟨a' :: as', b' :: bs', c :: cs, r :: rs, ?_, ?_, ?_, ?_, by simp [g5], ?_⟩
    · simp [mapLimbsOpt, h1, g1]
    · simp [mapLimbsOpt, h2, g2]
    · simp [mapLimbs, h3, g3]
    · simp [mapLimbsOpt, h4, g4]
    · intro i m0 a0 b0 hm0 ha0 hb0
      cases i with
      | zero =>
        simp only [List.getElem?_cons_zero, Option.some.injEq] at hm0 ha0 hb0
        subst hm0 ha0 hb0
        exact ⟨r, by simp, h5⟩
      | succ i => simpa using g6 i m0 a0 b0 (by simpa using hm0) (by simpa using ha0) (by simpa using hb0)

/-- C10: coefficient-form RNS multiplication is, in every limb, the product modulo `X^n + 1` and
the limb modulus, with canonical coefficients. -/
theorem C10_mul_negacyclic {k : Nat} (hk : k < 32) (p q : RNSPoly) (hp : p.WF (2 ^ k)) (hq : q.WF (2 ^ k))
    (hmod : p.moduli = q.moduli) (hpf : p.form = .coeff) (hqf : q.form = .coeff)
    (hms : ∀ m ∈ p.moduli, m.Prime ∧ m < 2 ^ 64 ∧ 2 * 2 ^ k ∣ m - 1) :
    ∃ r : RNSPoly, p.mul (2 ^ k) q = some (some r) ∧ r.moduli = p.moduli ∧ r.form = .coeff ∧
      r.limbs.length = p.moduli.length ∧
      ∀ (i m : Nat) (a b : List Nat), p.moduli[i]? = some m → p.limbs[i]? = some a →
        q.limbs[i]? = some b → ∃ l : List Nat, r.limbs[i]? = some l ∧ l.length = 2 ^ k ∧
          ∀ j, j < 2 ^ k → ∃ v, l[j]? = some v ∧ v < m ∧
            (v : ZMod m) = negacyclic (2 ^ k) (fun i => ((a[i]?.getD 0 : Nat) : ZMod m))
              (fun i => ((b[i]?.getD 0 : Nat) : ZMod m)) j := by
  obtain ⟨pl, pm, pf⟩ := p
  obtain ⟨ql, qm, qf⟩ := q
  simp only at hmod hpf hqf hms
  subst hmod hpf hqf
  obtain ⟨as', bs', cs, rs, g1, g2, g3, g4, g5, g6⟩ := limbs_mul hk pm pl ql hms hp.2.1 hq.2.1 hp.2.2 hq.2.2
  have hlen : pl.map List.length = ql.map List.length := by
    apply List.ext_getElem (by simp [hp.2.1, hq.2.1])
    intro i h1 h2
    simp only [List.getElem_map]
    rw [hp.2.2 _ (List.getElem_mem _), hq.2.2 _ (List.getElem_mem _)]
  have hpow : ¬ (0 < 2 ^ k ∧ 2 ^ k &&& (2 ^ k - 1) ≠ 0) := by
    rintro ⟨h, h'⟩
    exact h' ((Nat.and_sub_one_eq_zero_iff_isPowerOfTwo (by omega)).2 ⟨k, rfl⟩)
  refine ⟨⟨rs, pm, .coeff⟩, ?_, rfl, rfl, g5, ?_⟩
  · simp only [RNSPoly.mul]
    rw [if_pos ⟨trivial, hlen, trivial⟩]
    simp only [RNSPoly.toNtt, RNSPoly.toCoefficient, RNSPoly.mulEval]
    rw [if_neg hpow]
    simp [g1, g2, g3, g4]
  · intro i m a b hm ha hb
    obtain ⟨r, h1, h2⟩ := g6 i m a b hm ha hb
    refine ⟨r, h1, h2.1, fun j hj => ?_⟩
    obtain ⟨v, hv, hlt, hv'⟩ := h2.2 j hj
    exact ⟨v, hv, hlt, hv'⟩

example : (⟨[[1, 2], [3, 4]], [5, 13], .coeff⟩ : RNSPoly).WF (2 ^ 1) ∧
    ∀ m ∈ [5, 13], Nat.Prime m ∧ m < 2 ^ 64 ∧ 2 * 2 ^ 1 ∣ m - 1 := by
  refine ⟨⟨by simp, rfl, by simp⟩, ?_⟩
  intro m hm
  simp only [List.mem_cons, List.not_mem_nil, or_false] at hm
  rcases hm with rfl | rfl <;> norm_num

/-! ## C11 -/

variable {w : Nat}

/-- A tensor of storage words as a coefficient function; words are read as signed integers
(what `mod_arith.reduce` reads). -/
def wordCoeffs (q : BitVec w) (c : List (BitVec w)) (i : Nat) : ZMod q.toNat :=
  (((c[i]?.getD 0#w).toInt : Int) : ZMod q.toNat)

theorem rep_words {q : BitVec w} {n : Nat} {c : List (BitVec w)} (hc : c.length = n) :
    Rep (okS q) n c (wordCoeffs q c) :=
  ⟨hc, fun p hp => ⟨c[p]'(by omega), by simp [hc, hp], by simp [okS, wordCoeffs, hc, hp]⟩⟩

/-- C11: entry `j` of the emitted transform is the value at `psi^(2j+1)`, canonical, for every
power-of-two degree, accepted modulus and input tensor. -/
theorem C11_emitted_ntt {k : Nat} {q psi : BitVec w} (hq : typeVerify q = true) (h0 : 0 < q.toNat)
    (hpsi : (psi.toNat : ZMod q.toNat) ^ 2 ^ k = -1) {c : List (BitVec w)} (hc : c.length = 2 ^ k) :
    ∃ c', emittedNTT k q psi c = some c' ∧ c'.length = 2 ^ k ∧ ∀ j, j < 2 ^ k →
      ∃ v, c'[j]? = some v ∧ v.toNat < q.toNat ∧ (v.toNat : ZMod q.toNat)
        = ∑ i ∈ range (2 ^ k), (((c[i]?.getD 0#w).toInt : Int) : ZMod q.toNat)
            * ((psi.toNat : ZMod q.toNat) ^ (2 * j + 1)) ^ i := by
  obtain ⟨c', h1, h2⟩ := emittedNTT_ok (root := psi) hq h0 (rep_words (q := q) hc) (fun p _ => rfl)
  refine ⟨c', h1, h2.1, fun j hj => ?_⟩
  obtain ⟨v, hv, hlt, hv'⟩ := h2.2 j hj
  refine ⟨v, hv, hlt, ?_⟩
  rw [hv', em_evalAt _ _ _ (wordCoeffs q c) _ hj (fun i hi => by rw [bitrev_bitrev k i hi]) hpsi]
  rfl

theorem repB_val {q : BitVec w} {n : Nat} {d : List (BitVec w)} {A : Nat → ZMod q.toNat}
    (hd : Rep (okB q) n d A) {a : Nat → Int} (ha : ∀ i, i < n → A i = ((a i : Int) : ZMod q.toNat)) :
    ∀ i, i < n → ∃ v, d[i]? = some v ∧ (v.toNat : Int) = a i % q.toNat := by
  intro i hi
  obtain ⟨v, hv, hlt, hv'⟩ := hd.2 i hi
  refine ⟨v, hv, ?_⟩
  have : (((v.toNat : Int) : ZMod q.toNat)) = ((a i : Int) : ZMod q.toNat) := by
    rw [← ha i hi, ← hv']; simp
  have h := (ZMod.intCast_eq_intCast_iff' _ _ _).1 this
  rw [Int.emod_eq_of_lt (by omega) (by exact_mod_cast hlt)] at h
  exact h

/-- C11: the emitted inverse transform with the inverse root maps the emitted transform of `a`
back to the canonical residues of `a`. -/
theorem C11_emitted_roundtrip {k : Nat} {q psi phi : BitVec w} (hq : typeVerify q = true)
    (h2 : 2 ≤ q.toNat) (hpsi : (psi.toNat : ZMod q.toNat) ^ 2 ^ k = -1)
    (hinv : (psi.toNat : ZMod q.toNat) * phi.toNat = 1) (hn : Nat.Coprime (2 ^ k) q.toNat)
    {c : List (BitVec w)} (hc : c.length = 2 ^ k) :
    ∃ c' d, emittedNTT k q psi c = some c' ∧ emittedINTT k q phi c' = some d ∧ d.length = 2 ^ k ∧
      ∀ i, i < 2 ^ k → ∃ v, d[i]? = some v ∧ (v.toNat : Int) = (c[i]?.getD 0#w).toInt % q.toNat := by
  obtain ⟨c', h1, h2'⟩ := emittedNTT_ok (root := psi) hq (by omega) (rep_words (q := q) hc) (fun p _ => rfl)
  obtain ⟨d, ninv, h3, h4, h5⟩ := emittedINTT_ok (root := phi) hq (degree_lt h2 hpsi hn) hn
    (h2'.mono fun v x h => okB_okS hq h)
  refine ⟨c', d, h1, h3, h5.1, repB_val h5 fun i hi => ?_⟩
  rw [emGSRun_emCTRun hinv]
  beta_reduce
  rw [bitrev_bitrev k i hi]
  show 2 ^ k * wordCoeffs q c i * ninv = wordCoeffs q c i
  linear_combination wordCoeffs q c i * h4

/-- C11: conversely the emitted transform undoes the emitted inverse transform. -/
theorem C11_emitted_roundtrip' {k : Nat} {q psi phi : BitVec w} (hq : typeVerify q = true)
    (h2 : 2 ≤ q.toNat) (hpsi : (psi.toNat : ZMod q.toNat) ^ 2 ^ k = -1)
    (hinv : (psi.toNat : ZMod q.toNat) * phi.toNat = 1) (hn : Nat.Coprime (2 ^ k) q.toNat)
    {c : List (BitVec w)} (hc : c.length = 2 ^ k) :
    ∃ c' d, emittedINTT k q phi c = some c' ∧ emittedNTT k q psi c' = some d ∧ d.length = 2 ^ k ∧
      ∀ i, i < 2 ^ k → ∃ v, d[i]? = some v ∧ (v.toNat : Int) = (c[i]?.getD 0#w).toInt % q.toNat := by
  obtain ⟨c', ninv, h3, h4, h5⟩ := emittedINTT_ok (root := phi) hq (degree_lt h2 hpsi hn) hn
    (rep_words (q := q) hc)
  obtain ⟨d, h1, h2'⟩ := emittedNTT_ok (root := psi) hq (by omega)
    (B := fun p => ninv * emGSRun (phi.toNat : ZMod q.toNat) k 1 (wordCoeffs q c) p)
    (h5.mono fun v x h => okB_okS hq h) (fun p hp => by rw [bitrev_bitrev k p hp, mul_comm])
  refine ⟨c', d, h3, h1, h2'.1, repB_val h2' fun i _ => ?_⟩
  rw [emCTRun_smul, emCTRun_emGSRun hinv]
  show ninv * (2 ^ k * wordCoeffs q c i) = wordCoeffs q c i
  linear_combination wordCoeffs q c i * h4

example : typeVerify (17#8) = true ∧ ((3#8).toNat : ZMod 17) ^ 2 ^ 3 = -1 ∧
    ((3#8).toNat : ZMod 17) * (6#8).toNat = 1 ∧ Nat.Coprime (2 ^ 3) 17 := by decide

end Heir.NTT
