import Verif.PolyClass.Lemmas

/-! # Multiplication, composition, constructors -/

namespace Heir.PolyClass

open Heir.Loop Polynomial

variable {R : Type} [CommRing R]

theorem coeff_denseFrom (t : List R) (k n : Nat) :
    (toPoly (denseFrom k t)).coeff n = if k ≤ n then t.getD (n - k) 0 else 0 := by
  induction t generalizing k with
  | nil => simp [denseFrom]
  | cons c t ih =>
    rw [denseFrom, toPoly_cons, coeff_add, coeff_monomial, ih]
    rcases lt_trichotomy k n with h | h | h
    · rw [if_neg (by simp; omega), if_pos (by omega), if_pos (by omega), zero_add]
      obtain ⟨m, hm⟩ : ∃ m, n - k = m + 1 := ⟨n - k - 1, by omega⟩
      rw [hm, List.getD_cons_succ, show n - (k + 1) = m by omega]
    · subst h
      rw [if_pos rfl, if_neg (by omega), if_pos le_rfl, add_zero, Nat.sub_self, List.getD_cons_zero]
    · rw [if_neg (by simp; omega), if_neg (by omega), if_neg (by omega), add_zero]

theorem denseFrom_ge (t : List R) (k : Nat) : ∀ x ∈ denseFrom k t, k ≤ x.1 := by
  induction t generalizing k with
  | nil => simp [denseFrom]
  | cons c t ih =>
    intro x hx
    rw [denseFrom, List.mem_cons] at hx
    rcases hx with rfl | hx
    · exact le_refl _
    · have := ih (k + 1) x hx; omega

theorem denseFrom_increasing (t : List R) (k : Nat) : Increasing (denseFrom k t) := by
  induction t generalizing k with
  | nil => exact List.Pairwise.nil
  | cons c t ih => exact increasing_cons (ih _) fun y hy => denseFrom_ge t (k + 1) y hy

theorem getD_set (t : List R) (i j : Nat) (v : R) (hi : i < t.length) :
    (t.set i v).getD j 0 = if i = j then v else t.getD j 0 := by
  rw [List.getD_eq_getElem?_getD, List.getD_eq_getElem?_getD, List.getElem?_set]
  split
  · next h => rfl
  · rfl

theorem accumulate_ok {t : List R} {i : Nat} (hi : i < t.length) (v : R) :
    ∃ c t', get t i = some c ∧ put t i (c + v) = some t' ∧ t'.length = t.length ∧
      toPoly (denseFrom 0 t') = toPoly (denseFrom 0 t) + monomial i v := by
  refine ⟨t[i], t.set i (t[i] + v), List.getElem?_eq_getElem hi, by rw [put, if_pos hi], by simp, ?_⟩
  ext k
  rw [coeff_add, coeff_denseFrom, coeff_denseFrom, if_pos (Nat.zero_le _), if_pos (Nat.zero_le _), Nat.sub_zero,
    getD_set _ _ _ _ hi, coeff_monomial]
  split
  · next h =>
    subst h
    rw [List.getD_eq_getElem?_getD, List.getElem?_eq_getElem hi]; rfl
  · rw [add_zero]

theorem mulRow_ok (x : Nat × R) (q : Terms R) (t : List R) (h : ∀ y ∈ q, x.1 + y.1 < t.length) :
    ∃ t', q.foldlM (fun t (y : Nat × R) => do
      let c ← get t (x.1 + y.1)
      put t (x.1 + y.1) (c + x.2 * y.2)) t = some t' ∧ t'.length = t.length ∧
      toPoly (denseFrom 0 t') = toPoly (denseFrom 0 t) + monomial x.1 x.2 * toPoly q := by
  induction q generalizing t with
  | nil => exact ⟨t, rfl, rfl, by simp⟩
  | cons y q ih =>
    obtain ⟨c, t1, h1, h2, h3, h4⟩ := accumulate_ok (h y (by simp)) (x.2 * y.2)
    obtain ⟨t2, g1, g2, g3⟩ := ih t1 (fun z hz => by rw [h3]; exact h z (by simp [hz]))
    refine ⟨t2, ?_, by rw [g2, h3], ?_⟩
    · rw [List.foldlM_cons, h1]
      show (put t (x.1 + y.1) (c + x.2 * y.2)).bind _ = _
      rw [h2]; exact g1
    · rw [g3, h4, toPoly_cons, mul_add, monomial_mul_monomial]; ring

theorem mulLoop_ok (p q : Terms R) (t : List R) (h : ∀ x ∈ p, ∀ y ∈ q, x.1 + y.1 < t.length) :
    ∃ t', mulLoop p q t = some t' ∧ t'.length = t.length ∧
      toPoly (denseFrom 0 t') = toPoly (denseFrom 0 t) + toPoly p * toPoly q := by
  induction p generalizing t with
  | nil => exact ⟨t, rfl, rfl, by simp⟩
  | cons x p ih =>
    obtain ⟨t1, h1, h2, h3⟩ := mulRow_ok x q t (h x (by simp))
    obtain ⟨t2, g1, g2, g3⟩ := ih t1 (fun z hz y hy => by rw [h2]; exact h z (by simp [hz]) y hy)
    refine ⟨t2, ?_, by rw [g2, h2], ?_⟩
    · unfold mulLoop at g1 ⊢
      rw [List.foldlM_cons, h1]; exact g1
    · rw [g3, h3, toPoly_cons]; ring

theorem toPoly_zeros (n : Nat) : toPoly (denseFrom 0 (List.replicate n (0 : R))) = 0 := by
  ext k
  rw [coeff_denseFrom, if_pos (Nat.zero_le _), coeff_zero, List.getD_eq_getElem?_getD, List.getElem?_replicate]
  split <;> simp

theorem exists_last {p : Terms R} (h : p ≠ []) : ∃ l, p.getLast? = some l :=
  ⟨_, List.getLast?_eq_some_getLast h⟩

section
variable [DecidableEq R]

theorem naiveMul_ok {p q : Terms R} (hp : Increasing p) (hq : Increasing q) (hp0 : p ≠ []) (hq0 : q ≠ []) :
    ∃ r, naiveMul p q = some r ∧ toPoly r = toPoly p * toPoly q ∧ Canonical r := by
  obtain ⟨lp, hlp⟩ := exists_last hp0
  obtain ⟨lq, hlq⟩ := exists_last hq0
  obtain ⟨t, h1, h2, h3⟩ := mulLoop_ok p q (List.replicate (lp.1 + lq.1 + 1) 0) (fun x hx y hy => by
    have := last_max hp hlp x hx
    have := last_max hq hlq y hy
    rw [List.length_replicate]; omega)
  refine ⟨canonicalize (denseFrom 0 t), ?_, ?_, canonicalize_canonical (denseFrom_increasing _ _)⟩
  · simp [naiveMul, getDegree, hlp, hlq, h1]
  · rw [toPoly_canonicalize, h3, toPoly_zeros, zero_add]

theorem naiveMul_nil (p q : Terms R) (h : p = [] ∨ q = []) : naiveMul p q = none := by
  rcases h with rfl | rfl
  · rfl
  · unfold naiveMul
    cases getDegree p <;> rfl

theorem add_const_ok {p : Terms R} (hp : Increasing p) (c : R) :
    ∃ r, add p [(0, c)] = some r ∧ toPoly r = toPoly p + C c ∧ Increasing r ∧ (NoZero p → c ≠ 0 → NoZero r) := by
  have hq : Increasing [((0 : Nat), c)] := List.pairwise_singleton _ _
  cases h : add p [(0, c)] with
  | none =>
    obtain ⟨x, hx, b, hb, d, hd, h1, h2, -⟩ := ((addAux_none_iff false p _ hp hq).1 rfl).1 h
    simp only [List.map_cons, List.map_nil, List.mem_singleton] at hb hd
    omega
  | some r =>
    obtain ⟨g1, g2⟩ := addAux_canonical _ _ _ _ h hp hq
    refine ⟨r, rfl, ?_, g1, fun n1 n2 => g2 n1 (fun x hx => by simp only [List.mem_singleton] at hx; subst hx; exact n2)⟩
    rw [addAux_sound _ _ _ _ h]; simp

theorem coeffAt_some {p : Terms R} (hp : Increasing p) {i : Nat} {c : R} (h : coeffAt p i = some c) :
    (toPoly p).coeff i = c ∧ (i, c) ∈ p := by
  unfold coeffAt at h
  obtain ⟨x, hx, rfl⟩ := Option.map_eq_some_iff.1 h
  have h1 := List.mem_of_find?_eq_some hx
  have h2 := List.find?_some hx
  simp only [decide_eq_true_eq] at h2
  subst h2
  exact ⟨coeff_mem hp h1, h1⟩

theorem coeffAt_none {p : Terms R} {i : Nat} (h : coeffAt p i = none) : (toPoly p).coeff i = 0 := by
  unfold coeffAt at h
  rw [Option.map_eq_none_iff, List.find?_eq_none] at h
  exact coeff_absent fun x hx => by simpa using h x hx

theorem naiveMul_some {p q r : Terms R} (hp : Increasing p) (hq : Increasing q) (h : naiveMul p q = some r) :
    toPoly r = toPoly p * toPoly q ∧ Canonical r := by
  by_cases h0 : p = [] ∨ q = []
  · rw [naiveMul_nil _ _ h0] at h; cases h
  · rw [not_or] at h0
    obtain ⟨r', h1, h2⟩ := naiveMul_ok hp hq h0.1 h0.2
    rw [h] at h1; cases h1; exact h2

theorem composeLoop_sound {p q : Terms R} (hp : Increasing p) (hq : Increasing q) (i : Nat) (r r' : Terms R)
    (hr : Increasing r) (h : composeLoop p q i r = some r') :
    toPoly r' = toPoly r * toPoly q ^ i + ∑ k ∈ Finset.range i, C ((toPoly p).coeff k) * toPoly q ^ k ∧
      Increasing r' := by
  induction i generalizing r with
  | zero => simp only [composeLoop, Option.some.injEq] at h; subst h; simp [hr]
  | succ i ih =>
    rw [composeLoop] at h
    obtain ⟨r1, h1, h2⟩ := Option.bind_eq_some_iff.1 h
    obtain ⟨m1, m2⟩ := naiveMul_some hr hq h1
    rw [Finset.sum_range_succ]
    cases hc : coeffAt p i with
    | some c =>
      rw [hc] at h2
      obtain ⟨r2, h3, h4⟩ := Option.bind_eq_some_iff.1 h2
      obtain ⟨r2', a1, a2, a3, -⟩ := add_const_ok m2.1 c
      rw [h3] at a1; cases a1
      obtain ⟨i1, i2⟩ := ih r2 a3 h4
      refine ⟨?_, i2⟩
      rw [i1, a2, m1, (coeffAt_some hp hc).1, pow_succ]; ring
    | none =>
      rw [hc] at h2
      obtain ⟨i1, i2⟩ := ih r1 m2.1 h2
      refine ⟨?_, i2⟩
      rw [i1, m1, coeffAt_none hc, pow_succ]; simp; ring

theorem comp_eq {p : Terms R} (hp : Increasing p) {l : Nat × R} (hl : p.getLast? = some l) (Q : R[X]) :
    (toPoly p).comp Q = C l.2 * Q ^ l.1 + ∑ k ∈ Finset.range l.1, C ((toPoly p).coeff k) * Q ^ k := by
  rw [comp, eval₂_eq_sum_range' C (n := l.1 + 1) (Nat.lt_succ_of_le (natDegree_le hp hl)),
    Finset.sum_range_succ, coeff_mem hp (List.mem_of_getLast? hl), add_comm]

/-- Leading coefficient that is not a zero divisor, degree at least one. -/
def Growing (q : Terms R) : Prop :=
  ∃ l, q.getLast? = some l ∧ 1 ≤ l.1 ∧ ∀ x : R, x * l.2 = 0 → x = 0

theorem growing_mul {r q m : Terms R} (hr : Canonical r) (hr0 : r ≠ []) (hq : Canonical q) (hg : Growing q)
    (hm : toPoly m = toPoly r * toPoly q) : ∃ d, 1 ≤ d ∧ (toPoly m).coeff d ≠ 0 := by
  obtain ⟨l, hl, hd, hreg⟩ := hg
  obtain ⟨s, hs⟩ := exists_last hr0
  obtain ⟨e1, e2⟩ := natDegree_eq hr hs
  obtain ⟨e3, e4⟩ := natDegree_eq hq hl
  refine ⟨s.1 + l.1, by omega, ?_⟩
  rw [hm, ← e1, ← e3, coeff_mul_degree_add_degree, e2, e4]
  intro h0
  exact hr.2 s (List.mem_of_getLast? hs) (hreg _ h0)

theorem nonempty_of_coeff {m : Terms R} {d : Nat} (h : (toPoly m).coeff d ≠ 0) : m ≠ [] := by
  rintro rfl; simp at h

theorem composeLoop_defined {p q : Terms R} (hp : Canonical p) (hq : Canonical q) (hg : Growing q) (i : Nat)
    (r : Terms R) (hr : Canonical r) (hr0 : r ≠ []) : ∃ r', composeLoop p q i r = some r' ∧ Canonical r' := by
  induction i generalizing r with
  | zero => exact ⟨r, rfl, hr⟩
  | succ i ih =>
    have hq0 : q ≠ [] := by
      obtain ⟨l, hl, -⟩ := hg
      rintro rfl; simp at hl
    obtain ⟨m, h1, h2, h3⟩ := naiveMul_ok hr.1 hq.1 hr0 hq0
    obtain ⟨d, hd, hne⟩ := growing_mul hr hr0 hq hg h2
    cases hc : coeffAt p i with
    | some c =>
      obtain ⟨r2, a1, a2, a3, a4⟩ := add_const_ok h3.1 c
      have hc0 : c ≠ 0 := hp.2 _ (coeffAt_some hp.1 hc).2
      have hr2 : r2 ≠ [] := nonempty_of_coeff (d := d) (by
        rw [a2, coeff_add, coeff_C, if_neg (by omega), add_zero]; exact hne)
      obtain ⟨r', g1, g2⟩ := ih r2 ⟨a3, a4 h3.2 hc0⟩ hr2
      refine ⟨r', ?_, g2⟩
      rw [composeLoop, h1]
      show (match coeffAt p i with | some c => _ | none => _) = _
      rw [hc]
      show (add m [(0, c)]).bind _ = _
      rw [a1]; exact g1
    | none =>
      obtain ⟨r', g1, g2⟩ := ih m h3 (nonempty_of_coeff hne)
      refine ⟨r', ?_, g2⟩
      rw [composeLoop, h1]
      show (match coeffAt p i with | some c => _ | none => _) = _
      rw [hc]; exact g1

/-! ## Constructors -/

theorem insertionSort_le (ms : Terms R) :
    (ms.insertionSort fun x y => x.1 ≤ y.1).Pairwise fun x y => x.1 ≤ y.1 :=
  haveI : Std.Total (fun x y : Nat × R => x.1 ≤ y.1) := ⟨fun x y => Nat.le_total _ _⟩
  haveI : IsTrans (Nat × R) (fun x y : Nat × R => x.1 ≤ y.1) := ⟨fun _ _ _ h1 h2 => Nat.le_trans h1 h2⟩
  List.pairwise_insertionSort _ _

theorem strict_of_chain {s : Terms R} (hs : s.Pairwise fun x y => x.1 ≤ y.1)
    (hc : List.IsChain (fun x y : Nat × R => x.1 ≠ y.1) s) : Increasing s := by
  induction s with
  | nil => exact List.Pairwise.nil
  | cons x s ih =>
    have h1 := ih (List.pairwise_cons.1 hs).2 hc.tail
    refine increasing_cons h1 fun y hy => ?_
    cases s with
    | nil => simp at hy
    | cons z s =>
      have hxz : x.1 < z.1 := lt_of_le_of_ne ((List.pairwise_cons.1 hs).1 z (by simp)) (List.isChain_cons_cons.1 hc).1
      rcases List.mem_cons.1 hy with rfl | hy
      · exact hxz
      · have := h1.head y hy; omega

theorem chain_of_strict {s : Terms R} (hs : Increasing s) :
    List.IsChain (fun x y : Nat × R => x.1 ≠ y.1) s :=
  List.Pairwise.isChain ((List.pairwise_map.1 hs).imp fun h => h.ne)

theorem toPoly_perm {p q : Terms R} (h : p.Perm q) : toPoly p = toPoly q := (h.map _).sum_eq

end
end Heir.PolyClass
