import Verif.PolyClass.Cheb

/-! # Properties of the polynomial classes -/

namespace Heir.PolyClass

open Heir.Loop Polynomial

variable {R : Type} [CommRing R]

/-! ## C24 -/

/-- `operator==` on canonical polynomials decides equality of polynomials. -/
theorem C24_equality {p q : Terms R} (hp : Canonical p) (hq : Canonical q) : p = q ↔ toPoly p = toPoly q :=
  ⟨fun h => by rw [h], canonical_unique hp hq⟩

/-- `getDegree` of a non-zero canonical polynomial is its degree. -/
theorem C24_degree {p : Terms R} (hp : Canonical p) (h0 : p ≠ []) :
    getDegree p = some (toPoly p).natDegree := by
  obtain ⟨l, hl⟩ := exists_last h0
  rw [getDegree, hl, (natDegree_eq hp hl).1]; rfl

/-- Scaling multiplies the polynomial and keeps the order of the exponents; it keeps the canonical
form if the scalar is not a zero divisor.  Partial: `C24_violated_scale_zero`. -/
theorem C24_scale_partial {p : Terms R} (hp : Canonical p) (s : R) :
    toPoly (scale p s) = C s * toPoly p ∧ Increasing (scale p s) ∧
      ((∀ x : R, x * s = 0 → x = 0) → Canonical (scale p s)) :=
  ⟨toPoly_scale p s, increasing_scale hp.1 s, fun h => ⟨increasing_scale hp.1 s, noZero_scale hp.2 h⟩⟩

/-- Scaling a non-zero polynomial by zero never gives the canonical zero polynomial. -/
theorem C24_violated_scale_zero {p : Terms R} (h0 : p ≠ []) :
    toPoly (scale p 0) = 0 ∧ scale p 0 ≠ [] ∧ ¬ Canonical (scale p 0) := by
  have h1 : toPoly (scale p 0) = 0 := by rw [toPoly_scale, C_0, zero_mul]
  have h2 : scale p 0 ≠ [] := by simpa [scale] using h0
  exact ⟨h1, h2, fun hc => h2 ((toPoly_eq_zero_iff hc).1 h1)⟩

theorem C24_monomialMul {p : Terms R} (hp : Canonical p) (k : Nat) :
    toPoly (monomialMul p k) = X ^ k * toPoly p ∧ Canonical (monomialMul p k) :=
  ⟨toPoly_monomialMul p k, increasing_monomialMul hp.1 k, noZero_monomialMul hp.2 k⟩

theorem C24_denseVector {p : Terms R} (hp : Increasing p) :
    ∃ t, denseVector p = some t ∧ (∀ k, t.getD k 0 = (toPoly p).coeff k) ∧
      (p = [] → t = []) ∧ (∀ l, p.getLast? = some l → t.length = l.1 + 1) := by
  by_cases h0 : p = []
  · subst h0; exact ⟨[], rfl, by simp, fun _ => rfl, by simp⟩
  · obtain ⟨l, hl⟩ := exists_last h0
    have key : ∀ (p : Terms R) (t : List R), Increasing p → (∀ x ∈ p, x.1 < t.length) →
        ∃ t', p.foldlM (fun t (x : Nat × R) => put t x.1 x.2) t = some t' ∧ t'.length = t.length ∧
          ∀ k, t'.getD k 0 = if k ∈ p.map Prod.fst then (toPoly p).coeff k else t.getD k 0 := by
      intro p
      induction p with
      | nil => intro t _ _; exact ⟨t, rfl, rfl, by simp⟩
      | cons x p ih =>
        intro t hp hlt
        have hx : x.1 < t.length := hlt x (by simp)
        obtain ⟨t', h1, h2, h3⟩ := ih (t.set x.1 x.2) hp.tail (fun y hy => by
          rw [List.length_set]; exact hlt y (by simp [hy]))
        refine ⟨t', ?_, by rw [h2, List.length_set], fun k => ?_⟩
        · rw [List.foldlM_cons, put, if_pos hx]; exact h1
        · rw [h3, getD_set _ _ _ _ hx, toPoly_cons, coeff_add, coeff_monomial, List.map_cons]
          by_cases hk : k ∈ p.map Prod.fst
          · obtain ⟨y, hy, rfl⟩ := List.mem_map.1 hk
            have := hp.head y hy
            rw [if_pos hk, if_pos (by rw [List.mem_cons]; exact .inr hk), if_neg (by omega), zero_add]
          · rw [if_neg hk]
            by_cases hxk : x.1 = k
            · rw [if_pos hxk, if_pos (by simp [hxk]), if_pos hxk,
                coeff_absent fun y hy he => hk (List.mem_map.2 ⟨y, hy, he⟩), add_zero]
            · rw [if_neg hxk, if_neg (by rw [List.mem_cons, not_or]; exact ⟨fun h => hxk h.symm, hk⟩)]
    obtain ⟨t, h1, h2, h3⟩ := key p (List.replicate (l.1 + 1) 0) hp (fun x hx => by
      have := last_max hp hl x hx
      rw [List.length_replicate]; omega)
    refine ⟨t, ?_, fun k => ?_, fun h => absurd h h0, fun l' hl' => ?_⟩
    · rw [denseVector, if_neg (by simpa using h0), getDegree, hl]; exact h1
    · rw [h3]
      split
      · rfl
      · next hk =>
        rw [coeff_absent fun y hy he => hk (List.mem_map.2 ⟨y, hy, he⟩), List.getD_eq_getElem?_getD,
          List.getElem?_replicate]
        split <;> rfl
    · rw [hl] at hl'; cases hl'; rw [h2, List.length_replicate]

section
variable [DecidableEq R]

/-- `fromMonomials` succeeds exactly when the exponents are distinct, and then returns the same
monomials in increasing order. -/
theorem C24_fromMonomials (ms : Terms R) :
    (fromMonomials ms = none ↔ ¬ (ms.map Prod.fst).Nodup) ∧
      ∀ s, fromMonomials ms = some s → s.Perm ms ∧ Increasing s ∧ toPoly s = toPoly ms := by
  have hperm : (ms.insertionSort fun x y => x.1 ≤ y.1).Perm ms := List.perm_insertionSort _ _
  have hle := insertionSort_le ms
  unfold fromMonomials
  simp only
  constructor
  · split
    · next hc =>
      have hinc := strict_of_chain hle hc
      have : (ms.map Prod.fst).Nodup := (hperm.map Prod.fst).nodup_iff.1 (hinc.imp fun h => h.ne)
      simp [this]
    · next hc =>
      simp only [true_iff]
      intro hnd
      have hnd' : ((ms.insertionSort fun x y => x.1 ≤ y.1).map Prod.fst).Nodup := (hperm.map Prod.fst).nodup_iff.2 hnd
      exact hc (List.Pairwise.isChain (List.pairwise_map.1 hnd'))
  · intro s hs
    split at hs
    · next hc =>
      cases hs
      exact ⟨hperm, strict_of_chain hle hc, toPoly_perm hperm⟩
    · cases hs

theorem C24_fromCoefficients (cs : List R) :
    ∃ p, fromCoefficients cs = some p ∧ Canonical p ∧ ∀ k, (toPoly p).coeff k = cs.getD k 0 :=
  fromCoefficients_ok cs

theorem C24_canonicalize {p : Terms R} (hp : Increasing p) :
    toPoly (canonicalize p) = toPoly p ∧ Canonical (canonicalize p) :=
  ⟨toPoly_canonicalize p, canonicalize_canonical hp⟩

/-- Addition is right whenever it does not trip the assertion, which happens exactly on clashing
exponents.  Partial because of the clashing inputs. -/
theorem C24_add_partial {p q : Terms R} (hp : Canonical p) (hq : Canonical q)
    (hc : ¬ Clash (p.map Prod.fst) (q.map Prod.fst)) :
    ∃ r, add p q = some r ∧ Canonical r ∧ toPoly r = toPoly p + toPoly q := by
  cases h : add p q with
  | none => exact absurd (((addAux_none_iff false p q hp.1 hq.1).1 rfl).1 h) hc
  | some r =>
    obtain ⟨h1, h2⟩ := addAux_canonical _ _ _ _ h hp.1 hq.1
    exact ⟨r, rfl, ⟨h1, h2 hp.2 hq.2⟩, addAux_sound _ _ _ _ h⟩

/-- Every clashing pair of polynomials trips the assertion of `MonomialBase::add` (and in a build
without assertions merges two different exponents). -/
theorem C24_violated_add_clash {p q : Terms R} (hp : Increasing p) (hq : Increasing q) :
    add p q = none ↔ Clash (p.map Prod.fst) (q.map Prod.fst) :=
  (addAux_none_iff false p q hp hq).1 rfl

theorem C24_sub_partial {p q : Terms R} (hp : Canonical p) (hq : Canonical q)
    (hc : ¬ Clash (p.map Prod.fst) (q.map Prod.fst)) :
    ∃ r, sub p q = some r ∧ Canonical r ∧ toPoly r = toPoly p - toPoly q := by
  have hq' : Canonical (scale q (-1)) := ⟨increasing_scale hq.1 _, noZero_scale hq.2 fun x hx => by simpa using hx⟩
  obtain ⟨r, h1, h2, h3⟩ := C24_add_partial hp hq' (by rw [exps_scale]; exact hc)
  refine ⟨r, h1, h2, ?_⟩
  rw [h3, toPoly_scale, C_neg, C_1]; ring

/-- `x^5 + (x + x^7)`. -/
theorem C24_violated_add_witness :
    Canonical [(5, (1 : ℤ))] ∧ Canonical [(1, (1 : ℤ)), (7, 1)] ∧ add [(5, (1 : ℤ))] [(1, 1), (7, 1)] = none := by
  refine ⟨⟨by simp [Increasing], by simp [NoZero]⟩, ⟨by simp [Increasing], by simp [NoZero]⟩, ?_⟩
  simp [add, addAux]

example : ¬ Clash [0, 3] [1, 3, 5] ∧ Clash [5] [1, 7] := by
  constructor
  · rintro ⟨a, ha, b, hb, c, hc, h1, h2, h3, h4⟩
    simp only [List.mem_cons, List.not_mem_nil, or_false] at ha hb hc
    have := h4 3 (by simp)
    simp only [List.mem_cons, List.not_mem_nil, or_false, not_or] at h3
    omega
  · exact ⟨5, by simp, 1, by simp, 7, by simp, by simp, by simp, by simp, by simp⟩

/-- The product of two non-zero polynomials.  Partial: `C24_violated_naiveMul_zero`. -/
theorem C24_naiveMul_partial {p q : Terms R} (hp : Increasing p) (hq : Increasing q) (hp0 : p ≠ []) (hq0 : q ≠ []) :
    ∃ r, naiveMul p q = some r ∧ Canonical r ∧ toPoly r = toPoly p * toPoly q := by
  obtain ⟨r, h1, h2, h3⟩ := naiveMul_ok hp hq hp0 hq0
  exact ⟨r, h1, h3, h2⟩

/-- Multiplying by the zero polynomial reads the last term of an empty vector. -/
theorem C24_violated_naiveMul_zero (p : Terms R) : naiveMul p [] = none ∧ naiveMul [] p = none :=
  ⟨naiveMul_nil _ _ (.inr rfl), naiveMul_nil _ _ (.inl rfl)⟩

/-- Composition is right whenever it is defined. -/
theorem C24_compose_sound {p q r : Terms R} (hp : Increasing p) (hq : Increasing q) (h : compose p q = some r) :
    toPoly r = (toPoly p).comp (toPoly q) ∧ Canonical r := by
  unfold compose at h
  obtain ⟨l, hl, h1⟩ := Option.bind_eq_some_iff.1 h
  obtain ⟨r', h2, h3⟩ := Option.bind_eq_some_iff.1 h1
  cases h3
  obtain ⟨g1, g2⟩ := composeLoop_sound hp hq _ [(0, l.2)] _ (List.pairwise_singleton _ _) h2
  refine ⟨?_, canonicalize_canonical g2⟩
  rw [toPoly_canonicalize, g1, comp_eq hp hl]; simp

/-- Composition is defined if the inner polynomial has degree at least one and a leading
coefficient that is not a zero divisor.  Partial: `C24_violated_compose_constant`. -/
theorem C24_compose_partial {p q : Terms R} (hp : Canonical p) (hq : Canonical q) (hp0 : p ≠ []) (hg : Growing q) :
    ∃ r, compose p q = some r ∧ Canonical r ∧ toPoly r = (toPoly p).comp (toPoly q) := by
  obtain ⟨l, hl⟩ := exists_last hp0
  obtain ⟨r, h1, -⟩ := composeLoop_defined hp hq hg l.1 [(0, l.2)]
    ⟨List.pairwise_singleton _ _, fun x hx => by
      simp only [List.mem_singleton] at hx; subst hx; exact hp.2 l (List.mem_of_getLast? hl)⟩ (by simp)
  have hc : compose p q = some (canonicalize r) := by simp [compose, hl, h1]
  obtain ⟨g1, g2⟩ := C24_compose_sound hp.1 hq.1 hc
  exact ⟨_, hc, g2, g1⟩

/-- `x^2 - x + 5` composed with the constant `1`: an intermediate result is the zero polynomial. -/
theorem C24_violated_compose_constant :
    Canonical [(0, (5 : ℤ)), (1, -1), (2, 1)] ∧ compose [(0, (5 : ℤ)), (1, -1), (2, 1)] [(0, 1)] = none := by
  refine ⟨⟨by simp [Increasing], by simp [NoZero]⟩, ?_⟩
  simp [compose, composeLoop, naiveMul, getDegree, mulLoop, Loop.get, put, coeffAt, canonicalize, denseFrom, add, addAux]

example : compose [(0, (1 : ℤ)), (3, 4)] [(0, -1), (2, 3)] = some [(0, -3), (2, 36), (4, -108), (6, 108)] := by
  simp [compose, composeLoop, naiveMul, getDegree, mulLoop, Loop.get, put, coeffAt, canonicalize, denseFrom, add, addAux]

example : Growing [(0, (-1 : ℤ)), (2, 3)] := ⟨(2, 3), rfl, by decide, fun x hx => by simpa using hx⟩

end

/-! ## C25 -/

section order
variable [LinearOrder R] [IsStrictOrderedRing R]

/-- `getChebyshevPolynomials(n)` lists `T_0, …, T_{n-1}` in canonical form (ordered coefficient
ring, as for real numbers). -/
theorem C25_chebyshev (n : Nat) :
    ∃ ts : List (Terms R), getChebyshev n = some ts ∧ ts.length = n ∧
      ∀ (i : Nat) (t : Terms R), ts[i]? = some t → Canonical t ∧ toPoly t = Chebyshev.T R (i : ℤ) := by
  obtain ⟨t0, a1, a2, a3⟩ := seed0 (R := R)
  obtain ⟨t1, b1, b2, b3⟩ := seed1 (R := R)
  obtain ⟨ts, g1, g2, g3⟩ := chebLoop_ok (n - 2) 0 t0 t1 a2 b2 a3 b3
  rw [getChebyshev, a1, b1]
  by_cases hn : n < 1
  · exact ⟨[], by simp [hn], by simp; omega, by simp⟩
  · by_cases hn2 : n < 2
    · refine ⟨[t0], by simp [hn, hn2], by simp; omega, fun i t hi => ?_⟩
      rcases i with _ | i
      · simp only [List.getElem?_cons_zero, Option.some.injEq] at hi; subst hi; exact ⟨a2, a3⟩
      · simp at hi
    · refine ⟨t0 :: t1 :: ts, by simp [hn, hn2, g1], by simp [g2]; omega, fun i t hi => ?_⟩
      rcases i with _ | _ | i
      · simp only [List.getElem?_cons_zero, Option.some.injEq] at hi; subst hi; exact ⟨a2, a3⟩
      · simp only [zero_add, List.getElem?_cons_succ, List.getElem?_cons_zero, Option.some.injEq] at hi
        subst hi; exact ⟨b2, b3⟩
      · simp only [List.getElem?_cons_succ] at hi
        obtain ⟨a, b⟩ := g3 i t hi
        exact ⟨a, by rw [b]; congr 2; omega⟩

theorem sumLoop_defined (cs : List R) (ts : List (Terms R)) (r : Terms R) (k : Nat) (hr : Increasing r)
    (hlen : cs.length ≤ ts.length)
    (hts : ∀ (i : Nat) (t : Terms R), ts[i]? = some t → Canonical t ∧ toPoly t = Chebyshev.T R ((k + i : Nat) : ℤ))
    (hex : ∀ e, e ∈ r.map Prod.fst ↔ e < k)
    (hnz : ∀ i < cs.length, ∀ e ≤ k + i, (toPoly r + ∑ j ∈ Finset.range (i + 1),
      C (cs.getD j 0) * Chebyshev.T R ((k + j : Nat) : ℤ)).coeff e ≠ 0) :
    ∃ r', sumLoop cs ts r = some r' := by
  induction cs generalizing ts r k with
  | nil => exact ⟨r, rfl⟩
  | cons c cs ih =>
    cases ts with
    | nil => simp at hlen
    | cons t ts =>
      obtain ⟨t1, t2⟩ := hts 0 t rfl
      have hbound : ∀ x ∈ t, x.1 ≤ k := fun x hx => by
        have := (mem_exps_iff t1 x.1).1 (List.mem_map_of_mem hx)
        rw [t2, cheb_coeff_iff] at this
        omega
      cases h : add r (scale t c) with
      | none =>
        exfalso
        obtain ⟨a, ha, b, hb, d, hd, h1, h2, h3, h4⟩ :=
          ((addAux_none_iff false _ _ hr (increasing_scale t1.1 c)).1 rfl).1 h
        rw [hex] at ha h3
        omega
      | some r1 =>
        have i1 := (addAux_canonical _ _ _ _ h hr (increasing_scale t1.1 c)).1
        have e1 : toPoly r1 = toPoly r + C c * Chebyshev.T R ((k + 0 : Nat) : ℤ) := by
          rw [addAux_sound _ _ _ _ h, toPoly_scale, t2]
        have hnz0 := hnz 0 (by simp)
        simp only [zero_add, Finset.sum_range_one, List.getD_cons_zero] at hnz0
        rw [← e1] at hnz0
        obtain ⟨r', g⟩ := ih ts r1 (k + 1) i1 (by simpa using hlen)
          (fun i u hi => by
            obtain ⟨a, b⟩ := hts (i + 1) u (by simpa using hi)
            exact ⟨a, by rw [b]; congr 2; omega⟩)
          (fun e => by
            constructor
            · intro he
              obtain ⟨x, hx, rfl⟩ := List.mem_map.1 he
              rcases addAux_mem _ _ _ _ h x hx with ⟨y, hy, hy'⟩ | ⟨y, hy, hy'⟩
              · have := (hex y.1).1 (List.mem_map_of_mem hy); omega
              · obtain ⟨z, hz, rfl⟩ := List.mem_map.1 hy
                have := hbound z hz; simp only at hy'; omega
            · intro he
              by_contra hn
              exact hnz0 e (by omega) (coeff_absent fun x hx hxe => hn (List.mem_map.2 ⟨x, hx, hxe⟩)))
          (fun i hi e he => by
            have := hnz (i + 1) (by simpa using hi) e (by omega)
            rw [Finset.sum_range_succ', List.getD_cons_zero] at this
            simp only [List.getD_cons_succ] at this
            have hk : ∀ j, k + 1 + j = k + (j + 1) := fun j => by omega
            simp only [hk]
            rw [e1]
            convert this using 2
            ring)
        exact ⟨r', by rw [sumLoop, h]; exact g⟩

/-- `toStandardBasis` is the sum of the Chebyshev series, if no coefficient of a partial sum
vanishes.  Partial: `C25_violated_toStandardBasis`. -/
theorem C25_toStandardBasis_partial (c : List R)
    (hnz : ∀ i < c.length, ∀ e ≤ i, (chebSeries (c.take (i + 1))).coeff e ≠ 0) :
    ∃ r, toStandardBasis c = some r ∧ Increasing r ∧ toPoly r = chebSeries c := by
  obtain ⟨ts, h1, h2, h3⟩ := C25_chebyshev (R := R) c.length
  obtain ⟨r, hr⟩ := sumLoop_defined c ts [] 0 List.Pairwise.nil (by omega) (by simpa using h3) (by simp)
    (fun i hi e he => by
      have := hnz i hi e (by omega)
      rw [chebSeries, List.length_take, Nat.min_eq_left (by omega)] at this
      rw [toPoly_nil, zero_add]
      convert this using 2
      apply Finset.sum_congr rfl
      intro j hj
      rw [Finset.mem_range] at hj
      rw [zero_add, List.getD_eq_getElem?_getD, List.getD_eq_getElem?_getD, List.getElem?_take_of_lt hj])
  obtain ⟨g1, g2⟩ := sumLoop_sound c ts [] r 0 List.Pairwise.nil
    (fun i t hi => ⟨(h3 i t hi).1.1, by simpa using (h3 i t hi).2⟩) hr
  refine ⟨r, by simp [toStandardBasis, h1, hr], g1, ?_⟩
  rw [g2, toPoly_nil, zero_add, chebSeries]
  simp

end order

section
variable [DecidableEq R]

/-- Whatever the ring and the coefficients: if `toStandardBasis` does not trip the assertion, the
result is the sum of the Chebyshev series. -/
theorem C25_toStandardBasis_sound (c : List R) (r : Terms R) (h : toStandardBasis c = some r) :
    Increasing r ∧ toPoly r = chebSeries c := by
  unfold toStandardBasis at h
  obtain ⟨ts, h1, h2⟩ := Option.bind_eq_some_iff.1 h
  obtain ⟨h3, h4⟩ := getChebyshev_sound _ _ h1
  obtain ⟨g1, g2⟩ := sumLoop_sound c ts [] r 0 List.Pairwise.nil (fun i t hi => by simpa using h4 i t hi) h2
  refine ⟨g1, ?_⟩
  rw [g2, toPoly_nil, zero_add, chebSeries]
  simp

end

/-- `T_0 + T_1 + T_2 + T_3 + T_4`: the constant term cancels and the addition of `T_4` trips the
assertion. -/
theorem C25_violated_toStandardBasis : toStandardBasis [(1 : ℤ), 1, 1, 1, 1] = none := by
  simp [toStandardBasis, getChebyshev, fromCoefficients, fromMonomials, denseFrom, chebLoop, sub, scale, monomialMul,
    add, addAux, sumLoop]

example : toStandardBasis [(3 : ℤ), 1, 1, 1, 1] = some [(0, 3), (1, -2), (2, -6), (3, 4), (4, 8)] := by
  simp [toStandardBasis, getChebyshev, fromCoefficients, fromMonomials, denseFrom, chebLoop, sub, scale, monomialMul,
    add, addAux, sumLoop]

/-- Composition with `a x + b` in the Chebyshev basis.  Partial: not for three coefficients
(`C25_violated_degree_two`). -/
theorem C25_compose_partial (half a b : R) (c : List R) (hc : c ≠ []) (h3 : c.length ≠ 3) (hh : 2 * half = 1) :
    ∃ r, chebCompose half a b c = some r ∧ r.length = c.length ∧
      chebSeries r = (chebSeries c).comp (C a * X + C b) := by
  obtain ⟨r, h1, h2, h4⟩ := chebCompose_value half a b c hc hh 0 (by
    intro n hn
    refine ⟨by simp, by simp, le_refl _, by simp, ?_, by omega, by rintro rfl; simp [chebSeries], ?_⟩
    · rw [chebSeries, hn, Finset.sum_range_succ]
      simp [chebSeries]
    · rintro rfl
      simp [chebSeries])
  refine ⟨r, h1, h2, ?_⟩
  rw [h4]; simp

/-- Three coefficients: the result is off by half of the last one, for every input. -/
theorem C25_violated_degree_two (half a b c0 c1 c2 : R) (hh : 2 * half = 1) :
    ∃ r, chebCompose half a b [c0, c1, c2] = some r ∧
      chebSeries r = (chebSeries [c0, c1, c2]).comp (C a * X + C b) + C (half * c2) := by
  obtain ⟨r, h1, -, h4⟩ := chebCompose_value half a b [c0, c1, c2] (by simp) hh (C c2) (by
    intro n hn
    have : n = 2 := by simpa using hn.symm
    subst this
    refine ⟨by simp, by simp, le_refl _, by simp, ?_, fun _ => by simp [chebSeries], by simp, by simp⟩
    rw [chebSeries, hn, Finset.sum_range_succ]
    simp [chebSeries])
  refine ⟨r, h1, ?_⟩
  rw [h4]; simp

/-- The zero polynomial (an empty vector) is read out of bounds. -/
theorem C25_violated_empty (half a b : R) : chebCompose half a b [] = none := rfl

example : chebCompose (1/2 : ℚ) 3 1 [1, 2, 3] = some [69/2, 42, 27] := by
  norm_num [chebCompose, clenshawLoop, clenshawStep, clenshawEntry, Loop.get, List.range, List.range.loop]

example : chebCompose (1/2 : ℚ) 3 1 [1, 2, 3, 4] ≠ none := by
  simp [chebCompose, clenshawLoop, Loop.get]

end Heir.PolyClass
