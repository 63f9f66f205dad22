import Verif.PolyEval.Model
import Verif.PolyClass.Cheb

/-! # Horner and Paterson-Stockmeyer in the monomial basis -/

namespace Heir.PolyEval

open Heir.Loop Heir.PolyClass Polynomial

variable {R : Type} [CommRing R] [DecidableEq R]

/-- Coefficient of a term vector, whether listed or not. -/
theorem coeffAt_coeff {p : Terms R} (hp : Increasing p) (i : Nat) :
    (coeffAt p i).getD 0 = (toPoly p).coeff i := by
  cases h : coeffAt p i with
  | none => exact (coeffAt_none h).symm
  | some c => exact (coeffAt_some hp h).1.symm

theorem hornerLoop_eval (a : R) (x : Node R) {p : Terms R} (hp : Increasing p) (n : Nat) (r : Node R) :
    eval a (hornerLoop x p n r) =
      eval a r * eval a x ^ n + ∑ i ∈ Finset.range n, (toPoly p).coeff i * eval a x ^ i := by
  induction n generalizing r with
  | zero => simp [hornerLoop]
  | succ n ih =>
    have hc := coeffAt_coeff hp n
    rw [hornerLoop, Finset.sum_range_succ]
    split
    · next c h =>
      rw [h, Option.getD_some] at hc
      rw [ih, ← hc]; simp only [eval]; ring
    · next h =>
      rw [h, Option.getD_none] at hc
      rw [ih, ← hc]; simp only [eval]; ring

theorem eval_lt {p : Terms R} (hp : Increasing p) {l : Nat × R} (hl : p.getLast? = some l) (v : R) {N : Nat}
    (hN : l.1 < N) : (toPoly p).eval v = ∑ i ∈ Finset.range N, (toPoly p).coeff i * v ^ i :=
  eval_eq_sum_range' (lt_of_le_of_lt (natDegree_le hp hl) hN) v

theorem getElem?_concat_lt {α : Type} (l : List α) (a : α) {i : Nat} (h : i < l.length) :
    (l ++ [a])[i]? = l[i]? := List.getElem?_append_left h

/-- The power list holds `x^0, …, x^k`. -/
theorem computePowers_ok (a : R) (x : Node R) (k : Nat) :
    ∃ r, computePowers x k = some r ∧ r.length = k + 1 ∧
      ∀ i, i ≤ k → ∃ v, get r i = some v ∧ eval a v = eval a x ^ i := by
  rcases Nat.eq_zero_or_pos k with h | h
  · subst h
    refine ⟨[.const 1], rfl, rfl, fun i hi => ⟨.const 1, ?_, ?_⟩⟩
    · rw [Nat.le_zero.1 hi]; rfl
    · rw [Nat.le_zero.1 hi]; simp [eval]
  · have := forN_inv (n := k - 1) (body := fun t r => (do
      let i := t + 2
      let a ← get r (i / 2)
      let b ← get r (if i % 2 = 0 then i / 2 else i / 2 + 1)
      some (r ++ [.mul a b]))) (s := [.const 1, x])
      (fun t r => r.length = t + 2 ∧ ∀ i, i ≤ t + 1 → ∃ v, get r i = some v ∧ eval a v = eval a x ^ i)
      ⟨rfl, fun i hi => by
        rcases (by omega : i = 0 ∨ i = 1) with rfl | rfl
        · exact ⟨_, rfl, by simp [eval]⟩
        · exact ⟨_, rfl, by simp⟩⟩
      (fun t ht r hr => by
        obtain ⟨hlen, hv⟩ := hr
        obtain ⟨u, hu, hu'⟩ := hv ((t + 2) / 2) (by omega)
        have hb : ∃ w, get r (if (t + 2) % 2 = 0 then (t + 2) / 2 else (t + 2) / 2 + 1) = some w ∧
            eval a u * eval a w = eval a x ^ (t + 2) := by
          split
          · refine ⟨u, hu, ?_⟩
            rw [hu', ← pow_add]; congr 1; omega
          · obtain ⟨w, hw, hw'⟩ := hv ((t + 2) / 2 + 1) (by omega)
            refine ⟨w, hw, ?_⟩
            rw [hu', hw', ← pow_add]; congr 1; omega
        obtain ⟨w, hw, hw'⟩ := hb
        refine ⟨r ++ [.mul u w], by simp only [hu, hw, Option.bind_eq_bind, Option.bind_some], by simp [hlen], ?_⟩
        intro i hi
        rcases Nat.lt_or_ge i (t + 2) with h | h
        · obtain ⟨v, hv1, hv2⟩ := hv i (by omega)
          exact ⟨v, by rw [Loop.get, getElem?_concat_lt _ _ (by omega)]; exact hv1, hv2⟩
        · obtain rfl : i = t + 2 := by omega
          refine ⟨.mul u w, ?_, hw'⟩
          rw [Loop.get, ← hlen]; simp)
    obtain ⟨r, hr, hlen, hv⟩ := this
    refine ⟨r, ?_, by omega, fun i hi => hv i (by omega)⟩
    rw [computePowers, if_pos (show k ≥ 1 from h)]; exact hr

/-- Value of an optional node, a null pointer counts as zero. -/
def evalOpt (a : R) : Option (Node R) → R
  | none => 0
  | some v => eval a v

theorem chunkLoop_ok (a : R) (x : Node R) {p : Terms R} (hp : Increasing p) {pw : List (Node R)} {k : Nat}
    (hpw : ∀ i, i ≤ k → ∃ v, get pw i = some v ∧ eval a v = eval a x ^ i) (low n t : Nat) (acc : Option (Node R))
    (hn : n + t ≤ k) :
    ∃ v, chunkLoop p pw low n t acc = some v ∧
      evalOpt a v = evalOpt a acc + ∑ i ∈ Finset.range n, (toPoly p).coeff (low + t + i) * eval a x ^ (t + i) := by
  induction n generalizing t acc with
  | zero => exact ⟨acc, rfl, by simp⟩
  | succ n ih =>
    have hc := coeffAt_coeff hp (low + t)
    have hsum : ∑ i ∈ Finset.range (n + 1), (toPoly p).coeff (low + t + i) * eval a x ^ (t + i) =
        (toPoly p).coeff (low + t) * eval a x ^ t +
          ∑ i ∈ Finset.range n, (toPoly p).coeff (low + (t + 1) + i) * eval a x ^ (t + 1 + i) := by
      rw [Finset.sum_range_succ', add_comm]
      refine congrArg₂ _ rfl (Finset.sum_congr rfl fun i _ => ?_)
      rw [show low + t + (i + 1) = low + (t + 1) + i by omega, show t + (i + 1) = t + 1 + i by omega]
    rw [chunkLoop]
    cases h : coeffAt p (low + t) with
    | none =>
      rw [h, Option.getD_none] at hc
      obtain ⟨v, hv, hv'⟩ := ih (t + 1) acc (by omega)
      exact ⟨v, hv, by rw [hv', hsum, ← hc]; ring⟩
    | some c =>
      rw [h, Option.getD_some] at hc
      have hterm : ∃ w, chunkTerm pw c t = some w ∧
          eval a w = c * eval a x ^ t := by
        rw [chunkTerm]
        split
        · next h0 => subst h0; exact ⟨_, rfl, by simp [eval]⟩
        · obtain ⟨y, hy, hy'⟩ := hpw t (by omega)
          exact ⟨.mul (.const c) y, by rw [hy]; rfl, by simp [eval, hy']⟩
      obtain ⟨w, hw, hw'⟩ := hterm
      obtain ⟨v, hv, hv'⟩ := ih (t + 1) (accAdd acc w) (by omega)
      refine ⟨v, by simp only [hw, Option.bind_eq_bind, Option.bind_some]; exact hv, ?_⟩
      rw [hv', hsum, ← hc, ← hw']
      cases acc <;> simp [accAdd, evalOpt, eval]; ring

theorem chunk_ok (a : R) (x : Node R) {p : Terms R} (hp : Increasing p) {l : Nat × R} (hl : p.getLast? = some l)
    {pw : List (Node R)} {k : Nat} (hk : 1 ≤ k)
    (hpw : ∀ i, i ≤ k → ∃ v, get pw i = some v ∧ eval a v = eval a x ^ i) (i : Nat) :
    ∃ v, chunk p pw k l.1 i = some v ∧
      eval a v = ∑ t ∈ Finset.range k, (toPoly p).coeff (i * k + t) * eval a x ^ t := by
  have hm : (i + 1) * k = i * k + k := by ring
  obtain ⟨v, hv, hv'⟩ := chunkLoop_ok a x hp hpw (i * k) (min ((i + 1) * k - 1) l.1 + 1 - i * k) 0 none (by omega)
  refine ⟨v.getD (.const 0), by simp only [chunk, hv, Option.bind_eq_bind, Option.bind_some], ?_⟩
  have he : eval a (v.getD (.const 0)) = evalOpt a v := by cases v <;> simp [evalOpt, eval]
  rw [he, hv']
  simp only [evalOpt, zero_add, add_zero]
  refine Finset.sum_subset (fun t ht => ?_) (fun t ht ht' => ?_)
  · rw [Finset.mem_range] at *; omega
  · rw [Finset.mem_range] at *
    rw [coeff_eq_zero_of_natDegree_lt, zero_mul]
    have := natDegree_le hp hl
    omega

theorem chunks_ok (a : R) (x : Node R) {p : Terms R} (hp : Increasing p) {l : Nat × R} (hl : p.getLast? = some l)
    {pw : List (Node R)} {k : Nat} (hk : 1 ≤ k)
    (hpw : ∀ i, i ≤ k → ∃ v, get pw i = some v ∧ eval a v = eval a x ^ i) (m : Nat) :
    ∃ cs, chunks p pw k l.1 m = some cs ∧ cs.length = m ∧ ∀ i, i < m → ∃ v, get cs i = some v ∧
      eval a v = ∑ t ∈ Finset.range k, (toPoly p).coeff (i * k + t) * eval a x ^ t := by
  refine forN_inv (fun m cs => cs.length = m ∧ ∀ i, i < m → ∃ v, get cs i = some v ∧
      eval a v = ∑ t ∈ Finset.range k, (toPoly p).coeff (i * k + t) * eval a x ^ t) ⟨List.length_nil, by simp⟩ ?_
  intro j _ cs hcs
  obtain ⟨hlen, hv⟩ := hcs
  obtain ⟨v, hv1, hv2⟩ := chunk_ok a x hp hl hk hpw j
  refine ⟨cs ++ [v], by simp only [hv1, Option.bind_eq_bind, Option.bind_some], by simp [hlen], ?_⟩
  intro i hi
  rcases Nat.lt_or_ge i j with h | h
  · obtain ⟨u, hu, hu'⟩ := hv i h
    exact ⟨u, by rw [Loop.get, getElem?_concat_lt _ _ (by omega)]; exact hu, hu'⟩
  · obtain rfl : i = j := by omega
    exact ⟨v, by rw [Loop.get, ← hlen]; simp, hv2⟩

theorem combineChunks_ok (a : R) (y : Node R) {cs : List (Node R)} {k : Nat} {f : Nat → R} {u : R}
    (hy : eval a y = u ^ k) (n m : Nat) (r : Node R)
    (hcs : ∀ i, i < n → ∃ v, get cs i = some v ∧ eval a v = ∑ t ∈ Finset.range k, f (i * k + t) * u ^ t)
    (hr : eval a r = ∑ t ∈ Finset.range (m * k), f (n * k + t) * u ^ t) :
    ∃ v, combineChunks y cs n r = some v ∧ eval a v = ∑ t ∈ Finset.range ((m + n) * k), f t * u ^ t := by
  induction n generalizing m r with
  | zero => exact ⟨r, rfl, by simpa using hr⟩
  | succ n ih =>
    obtain ⟨c, hc, hc'⟩ := hcs n (by omega)
    obtain ⟨v, hv, hv'⟩ := ih (m + 1) (.add (.mul r y) c) (fun i hi => hcs i (by omega)) (by
      simp only [eval]
      rw [hr, hy, hc', show (m + 1) * k = k + m * k by ring, Finset.sum_range_add, add_comm]
      refine congrArg₂ _ rfl ?_
      rw [Finset.sum_mul]
      refine Finset.sum_congr rfl fun t _ => ?_
      rw [show n * k + (k + t) = (n + 1) * k + t by ring]; ring)
    refine ⟨v, by simp only [combineChunks, hc, Option.bind_eq_bind, Option.bind_some]; exact hv, ?_⟩
    rw [hv', show m + 1 + n = m + (n + 1) by omega]

/-- For any positive chunk size. -/
theorem psWith_ok (a : R) (x : Node R) {p : Terms R} (hp : Increasing p) {k : Nat} (hk : 1 ≤ k) :
    ∃ v, psWith x p k = some v ∧ eval a v = (toPoly p).eval (eval a x) := by
  rw [psWith]
  cases hl : p.getLast? with
  | none =>
    refine ⟨.const 0, rfl, ?_⟩
    rw [List.getLast?_eq_none_iff.1 hl]; simp [eval]
  | some l =>
    obtain ⟨pw, h1, _, hpw⟩ := computePowers_ok a x k
    obtain ⟨m, hm⟩ : ∃ m, (l.1 + k) / k = m + 1 := ⟨(l.1 + k) / k - 1, by
      have := Nat.div_pos (show k ≤ l.1 + k by omega) (by omega); omega⟩
    obtain ⟨cs, h2, hlen, hcs⟩ := chunks_ok a x hp hl hk hpw (m + 1)
    obtain ⟨r, hr, hr'⟩ := hcs m (by omega)
    obtain ⟨y, hy, hy'⟩ := hpw k le_rfl
    obtain ⟨v, hv, hv'⟩ := combineChunks_ok a y (f := fun i => (toPoly p).coeff i) (u := eval a x) hy' m 1 r
      (fun i hi => hcs i (by omega)) (by rw [hr', one_mul])
    refine ⟨v, ?_, ?_⟩
    · have hlast : cs.getLast? = some r := by rw [List.getLast?_eq_getElem?, hlen]; exact hr
      simp only [h1, hm, h2, hlast, hy, Option.bind_eq_bind, Option.bind_some]
      exact hv
    · rw [hv']
      refine (eval_lt hp hl _ ?_).symm
      have h4 := Nat.lt_div_mul_add (a := l.1 + k) (b := k) (by omega)
      rw [hm] at h4
      rw [show 1 + m = m + 1 by omega]; omega

end Heir.PolyEval
