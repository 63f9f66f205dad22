import Verif.Poly.Spec
import Verif.RNS.Props
import Mathlib.Algebra.Polynomial.Degree.Operations
import Mathlib.Algebra.Polynomial.Degree.Lemmas
import Mathlib.Tactic.LinearCombination

/-! # Lemmas for polynomial lowering -/

namespace Heir.Poly

open Heir.Arith Heir.Loop Heir.NumTheory Heir.ModArith Heir.NTT
open Polynomial Finset

variable {w : Nat} {α R : Type} [CommRing R]

/-- The coefficient operations implement a commutative ring on representatives `ok`. -/
structure Refines (K : Coeff α) (ok : α → R → Prop) : Prop where
  zero : ok K.zero 0
  add : ∀ {a b x y}, ok a x → ok b y → ∃ r, K.add a b = some r ∧ ok r (x + y)
  sub : ∀ {a b x y}, ok a x → ok b y → ∃ r, K.sub a b = some r ∧ ok r (x - y)
  mul : ∀ {a b x y}, ok a x → ok b y → ∃ r, K.mul a b = some r ∧ ok r (x * y)
  splat : ∀ {a x}, ok a x → ∃ r, K.splat a = some r ∧ ok r x
  isZero : ∀ {a x}, ok a x → ∃ z, K.isZero a = some z ∧ (z = true ↔ x = 0)

/-! ## Polynomials from coefficient functions -/

theorem polyOf_coeff (n : Nat) (A : Nat → R) (k : Nat) : (polyOf n A).coeff k = if k < n then A k else 0 := by
  simp only [polyOf, finset_sum_coeff, coeff_C_mul, coeff_X_pow]
  split
  · next h => rw [Finset.sum_eq_single k] <;> simp_all [eq_comm]
  · next h =>
    apply Finset.sum_eq_zero
    intro i hi
    rw [if_neg (by rw [mem_range] at hi; omega), mul_zero]

theorem polyOf_degree_lt (n : Nat) (A : Nat → R) : (polyOf n A).degree < n := by
  rw [degree_lt_iff_coeff_zero]
  intro m hm
  rw [polyOf_coeff, if_neg (by omega)]

theorem polyOf_congr {n : Nat} {A B : Nat → R} (h : ∀ p, p < n → A p = B p) : polyOf n A = polyOf n B := by
  apply Finset.sum_congr rfl
  intro i hi
  rw [h i (mem_range.1 hi)]

theorem polyOf_sub (n : Nat) (A B : Nat → R) : polyOf n (fun p => A p - B p) = polyOf n A - polyOf n B := by
  ext k
  simp only [coeff_sub, polyOf_coeff]
  split <;> simp

theorem polyOf_zero {n : Nat} {A : Nat → R} (h : ∀ p, p < n → A p = 0) : polyOf n A = 0 := by
  ext k
  rw [polyOf_coeff]
  split
  · next hk => simp [h k hk]
  · simp

theorem polyOf_trunc {n m : Nat} {A : Nat → R} (hnm : n ≤ m) (h : ∀ p, n ≤ p → p < m → A p = 0) :
    polyOf m A = polyOf n A := by
  ext k
  simp only [polyOf_coeff]
  split
  · next hk =>
    split
    · rfl
    · next h2 => exact h k (by omega) hk
  · next hk => rw [if_neg (by omega)]

/-- Coefficients of the product before reduction. -/
def convCoeff (n : Nat) (A B : Nat → R) (k : Nat) : R :=
  ∑ i ∈ range n, ∑ j ∈ range n, if i + j = k then A i * B j else 0

theorem polyOf_conv (n : Nat) (A B : Nat → R) :
    polyOf (2 * n - 1) (convCoeff n A B) = polyOf n A * polyOf n B := by
  have h1 : polyOf n A * polyOf n B = ∑ i ∈ range n, ∑ j ∈ range n, C (A i * B j) * X ^ (i + j) := by
    rw [polyOf, polyOf, Finset.sum_mul_sum]
    refine Finset.sum_congr rfl fun i _ => Finset.sum_congr rfl fun j _ => ?_
    rw [C_mul, pow_add]; ring
  rw [h1]
  ext k
  rw [polyOf_coeff]
  simp only [finset_sum_coeff, coeff_C_mul, coeff_X_pow, convCoeff]
  split
  · refine Finset.sum_congr rfl fun i _ => Finset.sum_congr rfl fun j _ => ?_
    by_cases h : i + j = k
    · rw [if_pos h, if_pos h.symm, mul_one]
    · rw [if_neg h, if_neg (Ne.symm h), mul_zero]
  · next hk =>
    symm
    refine Finset.sum_eq_zero fun i hi => Finset.sum_eq_zero fun j hj => ?_
    rw [mem_range] at hi hj
    rw [if_neg (by omega), mul_zero]

/-! ## Loops -/

variable {K : Coeff α} {ok : α → R → Prop}

theorem rep_replicate (hK : Refines K ok) (n : Nat) : Rep ok n (List.replicate n K.zero) (fun _ => 0) :=
  ⟨by simp, fun p hp => ⟨K.zero, by simp [hp], hK.zero⟩⟩

theorem polyMul_ok (hK : Refines K ok) {n : Nat} {a b : List α} {A B : Nat → R} (ha : Rep ok n a A)
    (hb : Rep ok n b B) : ∃ t, polyMul K n a b = some t ∧ Rep ok (2 * n - 1) t (convCoeff n A B) := by
  obtain ⟨t, h1, h2⟩ := forN_inv (n := n)
    (body := fun i t => forN n (fun j t => do
      let x ← Loop.get a i
      let y ← Loop.get b j
      let acc ← Loop.get t (i + j)
      let p ← K.mul x y
      let s ← K.add p acc
      put t (i + j) s) t) (s := List.replicate (2 * n - 1) K.zero)
    (fun i t => Rep ok (2 * n - 1) t
      (fun k => ∑ i' ∈ range i, ∑ j ∈ range n, if i' + j = k then A i' * B j else 0))
    (by simpa using rep_replicate hK _)
    (by
      intro i hi t ht
      obtain ⟨t', h3, h4⟩ := forN_inv (n := n)
        (body := fun j t => do
          let x ← Loop.get a i
          let y ← Loop.get b j
          let acc ← Loop.get t (i + j)
          let p ← K.mul x y
          let s ← K.add p acc
          put t (i + j) s) (s := t)
        (fun j t => Rep ok (2 * n - 1) t
          (fun k => (∑ i' ∈ range i, ∑ j ∈ range n, if i' + j = k then A i' * B j else 0)
            + ∑ j' ∈ range j, if i + j' = k then A i * B j' else 0))
        (by simpa using ht)
        (by
          intro j hj t ht
          obtain ⟨x, hx, hx'⟩ := ha.get hi
          obtain ⟨y, hy, hy'⟩ := hb.get hj
          obtain ⟨c, hc, hc'⟩ := ht.get (i := i + j) (by omega)
          obtain ⟨p, hp, hp'⟩ := hK.mul hx' hy'
          obtain ⟨s, hs, hs'⟩ := hK.add hp' hc'
          obtain ⟨t', ht', ht''⟩ := ht.put (i := i + j) (by omega) hs'
          refine ⟨t', by simp only [hx, hy, hc, hp, hs, ht', Option.bind_eq_bind, Option.bind_some], ?_⟩
          refine ht''.congr fun k _ => ?_
          rw [Finset.sum_range_succ]
          by_cases hk : k = i + j
          · rw [if_pos hk, if_pos hk.symm, hk]; ring
          · rw [if_neg hk, if_neg (Ne.symm hk), add_zero])
      refine ⟨t', h3, h4.congr fun k _ => ?_⟩
      rw [Finset.sum_range_succ])
  exact ⟨t, h1, h2⟩

/-- The leading-term search finds the last nonzero coefficient. -/
theorem leadingLoop_ok (hK : Refines K ok) {m : Nat} {t : List α} {A : Nat → R} (ht : Rep ok m t A) :
    ∀ i, i ≤ m →
    (∀ d, d < i → A d ≠ 0 → (∀ p, d < p → p < i → A p = 0) → leadingLoop K t i = some d) ∧
    ((∀ p, p < i → A p = 0) → leadingLoop K t i = none) := by
  intro i
  induction i with
  | zero => intro _; exact ⟨fun d hd => absurd hd (by omega), fun _ => rfl⟩
  | succ i ih =>
    intro hi
    obtain ⟨c, hc, hc'⟩ := ht.get (i := i) (by omega)
    obtain ⟨z, hz, hz'⟩ := hK.isZero hc'
    have hstep : leadingLoop K t (i + 1) = if z then leadingLoop K t i else some i := by
      simp only [leadingLoop, hc, hz, Option.bind_eq_bind, Option.bind_some]
    constructor
    · intro d hd hd0 hmax
      rw [hstep]
      by_cases hdi : d = i
      · subst hdi
        rw [if_neg (fun h => hd0 (hz'.1 h))]
      · rw [if_pos (hz'.2 (hmax i (by omega) (by omega)))]
        exact (ih (by omega)).1 d (by omega) hd0 fun p h1 h2 => hmax p h1 (by omega)
    · intro hall
      rw [hstep, if_pos (hz'.2 (hall i (by omega)))]
      exact (ih (by omega)).2 fun p hp => hall p (by omega)

/-- Either all coefficients vanish or there is a last nonzero one. -/
theorem last_nonzero (A : Nat → R) (m : Nat) :
    (∀ p, p < m → A p = 0) ∨ ∃ d, d < m ∧ A d ≠ 0 ∧ ∀ p, d < p → p < m → A p = 0 := by
  induction m with
  | zero => left; intro p hp; omega
  | succ m ih =>
    by_cases h : A m = 0
    · rcases ih with ih | ⟨d, h1, h2, h3⟩
      · left
        intro p hp
        by_cases hpm : p = m
        · rw [hpm]; exact h
        · exact ih p (by omega)
      · right
        refine ⟨d, by omega, h2, fun p hp1 hp2 => ?_⟩
        by_cases hpm : p = m
        · rw [hpm]; exact h
        · exact h3 p hp1 (by omega)
    · right
      exact ⟨m, by omega, h, fun p h1 h2 => absurd h1 (by omega)⟩

theorem leadingTerm_ok (hK : Refines K ok) {m : Nat} {t : List α} {A : Nat → R} (ht : Rep ok m t A)
    {d : Nat} (hd : d < m) (hd0 : A d ≠ 0) (hmax : ∀ p, d < p → p < m → A p = 0) :
    ∃ c, leadingTerm K t = some (d, c) ∧ ok c (A d) := by
  obtain ⟨c, hc, hc'⟩ := ht.get hd
  have h1 := (leadingLoop_ok hK ht m (Nat.le_refl _)).1 d hd hd0 hmax
  rw [← ht.1] at h1
  refine ⟨c, ?_, hc'⟩
  simp only [leadingTerm, h1, hc, Option.bind_eq_bind, Option.bind_some]

theorem leadingTerm_zero (hK : Refines K ok) {m : Nat} {t : List α} {A : Nat → R} (ht : Rep ok m t A)
    (h : ∀ p, p < m → A p = 0) : leadingTerm K t = none := by
  have h1 := (leadingLoop_ok hK ht m (Nat.le_refl _)).2 h
  rw [← ht.1] at h1
  simp [leadingTerm, h1]

theorem mapLimbs_mul_ok (hK : Refines K ok) {m : Nat} {t : List α} {A : Nat → R} (ht : Rep ok m t A)
    {s : α} {x : R} (hs : ok s x) :
    ∃ t', mulScalar K t s = some t' ∧ Rep ok m t' (fun p => A p * x) := by
  obtain ⟨s', h1, h2⟩ := hK.splat hs
  obtain ⟨t', h3, h4⟩ := mapLimbs_rep (F := fun y => y * x) (ok := ok) (ok' := ok)
    (f := fun y => K.mul y s') (fun a y ha => hK.mul ha h2) ht
  exact ⟨t', by simp only [mulScalar, h1, Option.bind_eq_bind, Option.bind_some, h3], h4⟩

theorem cyclicShift_ok {m : Nat} {t : List α} {A : Nat → R} (ht : Rep ok m t A) {k : Nat} (hk : k ≤ m) :
    ∃ t', cyclicShift t k = some t' ∧ Rep ok m t' (fun p => if k ≤ p then A (p - k) else A (m - k + p)) := by
  refine ⟨_, by rw [cyclicShift, if_pos (by rw [ht.1]; exact hk)], ?_, ?_⟩
  · simp [ht.1]
  · intro p hp
    beta_reduce
    have hdl : (t.drop (t.length - k)).length = k := by rw [List.length_drop, ht.1]; omega
    by_cases hkp : k ≤ p
    · rw [List.getElem?_append_right (by rw [hdl]; exact hkp), hdl, if_pos hkp,
        List.getElem?_take, if_pos (by rw [ht.1]; omega)]
      exact ht.2 (p - k) (by omega)
    · rw [List.getElem?_append_left (by rw [hdl]; omega), if_neg hkp, List.getElem?_drop, ht.1]
      exact ht.2 (m - k + p) (by omega)

theorem zipLimbs_rep {β : Type} {f : β → α → α → Option α} {F : R → R → R} {ok ok' : α → R → Prop}
    (hf : ∀ (q : β) {a b x y}, ok a x → ok b y → ∃ r, f q a b = some r ∧ ok' r (F x y)) :
    ∀ {n : Nat} {l : List β} {a b : List α} {A B : Nat → R}, l.length = n → Rep ok n a A → Rep ok n b B →
    ∃ r, zipLimbs f l a b = some r ∧ Rep ok' n r (fun p => F (A p) (B p)) := by
  intro n l
  induction l generalizing n with
  | nil =>
    intro a b A B hl ha hb
    simp only [List.length_nil] at hl
    subst hl
    have h1 := List.length_eq_zero_iff.1 ha.1
    have h2 := List.length_eq_zero_iff.1 hb.1
    subst h1 h2
    exact ⟨[], rfl, rfl, fun p hp => by omega⟩
  | cons q l ih =>
    intro a b A B hl ha hb
    obtain ⟨n, rfl⟩ : ∃ k, n = k + 1 := ⟨l.length, by simpa using hl.symm⟩
    obtain ⟨x, a, rfl⟩ := List.exists_cons_of_length_eq_add_one ha.1
    obtain ⟨y, b, rfl⟩ := List.exists_cons_of_length_eq_add_one hb.1
    obtain ⟨x', hx, hx'⟩ := ha.2 0 (by omega)
    obtain ⟨y', hy, hy'⟩ := hb.2 0 (by omega)
    simp only [List.getElem?_cons_zero, Option.some.injEq] at hx hy
    subst hx hy
    obtain ⟨r, hr, hr'⟩ := hf q hx' hy'
    obtain ⟨rs, hrs, hrs'⟩ := ih (n := n) (a := a) (b := b) (A := fun p => A (p + 1)) (B := fun p => B (p + 1))
      (by simpa using hl) ⟨by simpa using ha.1, fun p hp => by simpa using ha.2 (p + 1) (by omega)⟩
      ⟨by simpa using hb.1, fun p hp => by simpa using hb.2 (p + 1) (by omega)⟩
    refine ⟨r :: rs, by simp [zipLimbs, hr, hrs], by simp [hrs'.1], ?_⟩
    intro p hp
    cases p with
    | zero => exact ⟨r, by simp, hr'⟩
    | succ p =>
      obtain ⟨v, hv, hv'⟩ := hrs'.2 p (by omega)
      exact ⟨v, by simpa using hv, hv'⟩

theorem polySub_ok (hK : Refines K ok) {m : Nat} {a b : List α} {A B : Nat → R} (ha : Rep ok m a A)
    (hb : Rep ok m b B) : ∃ t, polySub K a b = some t ∧ Rep ok m t (fun p => A p - B p) :=
  zipLimbs_rep (f := fun (_ : α) x y => K.sub x y) (F := fun x y => x - y) (ok := ok) (ok' := ok)
    (fun _ _ _ _ _ h1 h2 => hK.sub h1 h2) ha.1 ha hb

/-! ## Long division -/

/-- The shifted divisor as a polynomial; it does not wrap around. -/
theorem shift_poly {m n k : Nat} {E : Nat → R} (hk : n + k < m) (hE : ∀ p, n < p → p < m → E p = 0) :
    polyOf m (fun p => if k ≤ p then E (p - k) else E (m - k + p)) = X ^ k * polyOf m E := by
  ext j
  rw [polyOf_coeff, mul_comm, coeff_mul_X_pow']
  by_cases hkj : k ≤ j
  · rw [if_pos hkj, if_pos hkj, polyOf_coeff]
    by_cases hj : j < m
    · rw [if_pos hj, if_pos (by omega)]
    · rw [if_neg hj]
      split
      · rw [hE (j - k) (by omega) (by omega)]
      · rfl
  · rw [if_neg hkj, if_neg hkj]
    rw [hE (m - k + j) (by omega) (by omega)]
    simp

/-- One division step. -/
theorem modBody_ok (hK : Refines K ok) {m n d : Nat} (hd : d < m) (hnd : n ≤ d) {D rem : List α}
    {DF A : Nat → R} (hD : Rep ok m D DF) (hDz : ∀ p, n < p → p < m → DF p = 0)
    {inv : α} {u : R} (hinv : ok inv u) (hu : DF n * u = 1)
    (hr : Rep ok m rem A) (hd0 : A d ≠ 0) (hmax : ∀ p, d < p → p < m → A p = 0) :
    ∃ rem' A', modBody K n D inv rem = some rem' ∧ Rep ok m rem' A' ∧
      (∀ p, d ≤ p → p < m → A' p = 0) ∧
      polyOf m A' = polyOf m A - polyOf m DF * (C (A d * u) * X ^ (d - n)) := by
  obtain ⟨c, hc, hc'⟩ := leadingTerm_ok hK hr hd hd0 hmax
  obtain ⟨lc, hlc, hlc'⟩ := hK.mul hc' hinv
  obtain ⟨sc, hsc, hsc'⟩ := mapLimbs_mul_ok hK hD hlc'
  obtain ⟨inc, hinc, hinc'⟩ := cyclicShift_ok hsc' (k := d - n) (by omega)
  obtain ⟨rem', hrem, hrem'⟩ := polySub_ok hK hr hinc'
  refine ⟨rem', _, ?_, hrem', ?_, ?_⟩
  · simp only [modBody, hc, hlc, hsc, hinc, hrem, Option.bind_eq_bind, Option.bind_some]
  · intro p hdp hpm
    rw [if_pos (by omega)]
    by_cases hpd : p = d
    · subst hpd
      rw [show p - (p - n) = n by omega]
      linear_combination (- A p) * hu
    · rw [hmax p (by omega) hpm, hDz (p - (d - n)) (by omega) (by omega)]; ring
  · rw [polyOf_sub, shift_poly (n := n) (E := fun p => DF p * (A d * u)) (by omega)
      (fun p h1 h2 => by rw [hDz p h1 h2, zero_mul])]
    have : polyOf m (fun p => DF p * (A d * u)) = polyOf m DF * C (A d * u) := by
      ext j
      rw [coeff_mul_C, polyOf_coeff, polyOf_coeff]
      split <;> simp
    rw [this]; ring

/-- The loop: it ends with a nonzero remainder, or it reads out of bounds because the remainder
vanished. -/
theorem modLoop_ok (hK : Refines K ok) {m n : Nat} {D : List α}
    {DF : Nat → R} (hD : Rep ok m D DF) (hDz : ∀ p, n < p → p < m → DF p = 0)
    {inv : α} {u : R} (hinv : ok inv u) (hu : DF n * u = 1) :
    ∀ (fuel b : Nat) (rem : List α) (A : Nat → R), b < fuel → Rep ok m rem A → b ≤ m →
    (∀ p, b ≤ p → p < m → A p = 0) →
    (∃ rem' A' Q, modLoop K n D inv fuel rem = .done rem' ∧ Rep ok m rem' A' ∧
      (∀ p, n ≤ p → p < m → A' p = 0) ∧ (∃ p, p < m ∧ A' p ≠ 0) ∧
      polyOf m A = polyOf m DF * Q + polyOf m A') ∨
    (modLoop K n D inv fuel rem = .ub ∧ ∃ Q, polyOf m A = polyOf m DF * Q) := by
  intro fuel
  induction fuel with
  | zero => intro b rem A hb; omega
  | succ fuel ih =>
    intro b rem A hb hr hbm hz
    rcases last_nonzero A m with h0 | ⟨d, hd, hd0, hmax⟩
    · right
      refine ⟨by simp [modLoop, leadingTerm_zero hK hr h0], 0, ?_⟩
      rw [polyOf_zero h0, mul_zero]
    · obtain ⟨c, hc, _⟩ := leadingTerm_ok hK hr hd hd0 hmax
      have hdb : d < b := by
        by_contra h
        exact hd0 (hz d (by omega) hd)
      by_cases hnd : n ≤ d
      · obtain ⟨rem', A', h1, h2, h3, h4⟩ := modBody_ok hK hd hnd hD hDz hinv hu hr hd0 hmax
        have hstep : modLoop K n D inv (fuel + 1) rem = modLoop K n D inv fuel rem' := by
          simp [modLoop, hc, hnd, h1]
        rcases ih d rem' A' (by omega) h2 (by omega) h3 with ⟨r, B, Q, e1, e2, e3, e4, e5⟩ | ⟨e1, Q, e2⟩
        · left
          refine ⟨r, B, Q + C (A d * u) * X ^ (d - n), by rw [hstep]; exact e1, e2, e3, e4, ?_⟩
          rw [h4] at e5
          linear_combination e5
        · right
          refine ⟨by rw [hstep]; exact e1, Q + C (A d * u) * X ^ (d - n), ?_⟩
          rw [h4] at e2
          linear_combination e2
      · left
        refine ⟨rem, A, 0, by simp [modLoop, hc, hnd], hr, ?_, ⟨d, hd, hd0⟩, by ring⟩
        intro p hp hpm
        exact hmax p (by omega) hpm

/-- A nonzero polynomial of degree below `n` is not a multiple of a polynomial of degree `n` whose
leading coefficient is invertible. -/
theorem not_dvd_of_degree_lt {D r : R[X]} {n : Nat} {u : R} (hn : D.natDegree ≤ n) (hu : D.coeff n * u = 1)
    (hr : r.degree < n) (hdvd : D ∣ r) : r = 0 := by
  obtain ⟨Q, rfl⟩ := hdvd
  by_contra hne
  have hQ : Q ≠ 0 := by rintro rfl; simp at hne
  have hc : (D * Q).coeff (n + Q.natDegree) = D.coeff n * Q.leadingCoeff :=
    coeff_mul_add_eq_of_natDegree_le hn le_rfl
  have hz : (D * Q).coeff (n + Q.natDegree) = 0 := by
    apply coeff_eq_zero_of_degree_lt
    exact lt_of_lt_of_le hr (by exact_mod_cast Nat.le_add_right _ _)
  rw [hz] at hc
  apply leadingCoeff_ne_zero.2 hQ
  linear_combination (-u) * hc - Q.leadingCoeff * hu

/-- Product and reduction. -/
theorem polyMulMod_ok (hK : Refines K ok) {n : Nat} (hn : 2 ≤ n) {D : List α}
    {DF : Nat → R} (hD : Rep ok (2 * n - 1) D DF) (hDz : ∀ p, n < p → p < 2 * n - 1 → DF p = 0)
    {inv : α} {u : R} (hinv : ok inv u) (hu : DF n * u = 1) {a b : List α} {A B : Nat → R}
    (ha : Rep ok n a A) (hb : Rep ok n b B) {fuel : Nat} (hf : 2 * n ≤ fuel) :
    (¬ polyOf (n + 1) DF ∣ polyOf n A * polyOf n B → ∃ t T, polyMulMod K n D inv fuel a b = .done t ∧
      Rep ok n t T ∧ ∃ Q, polyOf n A * polyOf n B = polyOf (n + 1) DF * Q + polyOf n T) ∧
    (polyOf (n + 1) DF ∣ polyOf n A * polyOf n B → polyMulMod K n D inv fuel a b = .ub) := by
  obtain ⟨t, h1, h2⟩ := polyMul_ok hK ha hb
  have hDF : polyOf (2 * n - 1) DF = polyOf (n + 1) DF :=
    polyOf_trunc (by omega) fun p h1 h2 => hDz p (by omega) h2
  have hconv := polyOf_conv n A B
  rcases modLoop_ok hK hD hDz hinv hu fuel (2 * n - 1) t _ (by omega) h2 (by omega)
    (fun p h1 h2 => absurd h1 (by omega)) with ⟨r, B', Q, e1, e2, e3, e4, e5⟩ | ⟨e1, Q, e2⟩
  · rw [hDF, hconv, polyOf_trunc (by omega) e3] at e5
    have hrun : polyMulMod K n D inv fuel a b = .done (r.take n) := by
      simp only [polyMulMod, h1, polyMod, e1]
      rw [if_pos (by rw [e2.1]; omega)]
    constructor
    · intro _
      refine ⟨r.take n, B', hrun, ⟨by rw [List.length_take, e2.1]; omega, fun p hp => ?_⟩, Q, e5⟩
      rw [List.getElem?_take, if_pos hp]
      exact e2.2 p (by omega)
    · intro hdvd
      exfalso
      obtain ⟨p, hp, hp0⟩ := e4
      have hpn : p < n := by
        by_contra h
        exact hp0 (e3 p (by omega) hp)
      have hd : polyOf (n + 1) DF ∣ polyOf n B' := by
        have := (Dvd.intro Q rfl : polyOf (n + 1) DF ∣ polyOf (n + 1) DF * Q)
        rw [e5] at hdvd
        exact (dvd_add_right this).1 hdvd
      have := not_dvd_of_degree_lt (n := n) (u := u)
        (by
          rw [natDegree_le_iff_coeff_eq_zero]
          intro N hN
          rw [polyOf_coeff, if_neg (by omega)])
        (by rw [polyOf_coeff, if_pos (by omega)]; exact hu) (polyOf_degree_lt n B') hd
      apply hp0
      have h3 := congrArg (fun P => P.coeff p) this
      simpa [polyOf_coeff, hpn] using h3
  · rw [hDF, hconv] at e2
    constructor
    · intro h; exact absurd ⟨Q, e2⟩ h
    · intro _
      simp only [polyMulMod, h1, polyMod, e1]

end Heir.Poly
