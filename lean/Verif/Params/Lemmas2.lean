import Verif.Params.Lemmas
import Mathlib.Tactic.Linarith
import Mathlib.Tactic.Ring
import Mathlib.Algebra.Order.Floor.Ring

/-! # Lists of moduli -/

namespace Heir.Params

theorem sizes_length (l : List ℚ) : (sizes l).length = l.length := by simp [sizes]

theorem le_foldl_max (ss : List ℚ) (s : ℚ) :
    s ≤ ss.foldl (fun a b => if a < b then b else a) s ∧
    ∀ x ∈ ss, x ≤ ss.foldl (fun a b => if a < b then b else a) s := by
  induction ss generalizing s with
  | nil => simp
  | cons a ss ih =>
    obtain ⟨h1, h2⟩ := ih (if s < a then a else s)
    simp only [List.foldl_cons, List.mem_cons, forall_eq_or_imp]
    have h3 : s ≤ if s < a then a else s := by split <;> [exact le_of_lt ‹_›; exact le_rfl]
    have h4 : a ≤ if s < a then a else s := by split <;> [exact le_rfl; exact not_lt.1 ‹_›]
    exact ⟨h3.trans h1, h4.trans h1, h2⟩

theorem le_maxSize {l : List ℚ} {x : ℚ} (h : x ∈ l) : x ≤ maxSize l := by
  cases l with
  | nil => cases h
  | cons s ss =>
    rcases List.mem_cons.1 h with rfl | h
    · exact (le_foldl_max ss _).1
    · exact (le_foldl_max ss s).2 x h

theorem floor_mono {a b : ℚ} (h : a ≤ b) : ⌊a⌋.toNat ≤ ⌊b⌋.toNat :=
  Int.toNat_le_toNat (Int.floor_le_floor h)

theorem nodup_start (t : Nat) : (if t ≠ 0 then [t] else []).Nodup := by split <;> simp

theorem genRlwe_spec {l : List ℚ} {t N : Nat} (hN : N ≠ 0) {q p : List Nat}
    (h : genRlwe l t N = some (q, p)) :
    q.length = l.length ∧ p.length = ceilDiv l.length (computeDnum (l.length - 1)) ∧
    (q ++ p).Nodup ∧ (t ≠ 0 → t ∉ q ++ p) ∧ (∀ r ∈ q ++ p, Cand (2 * N) r ∧ r < 2 ^ 64) ∧
    List.Forall₂ (fun (x : ℚ) r => 2 ^ ⌊x⌋.toNat < r ∧ 2 ^ 20 < r) l q ∧
    ∀ x ∈ q, ∀ y ∈ p, x < y := by
  simp only [genRlwe, Option.bind_eq_some_iff, Option.map_eq_some_iff, Prod.mk.injEq] at h
  obtain ⟨q', h1, p', h2, rfl, rfl⟩ := h
  rw [sizes_length] at h2
  obtain ⟨a1, a2, a3, a4⟩ := findPrimes_spec hN h1
  obtain ⟨b1, b2, b3, b4⟩ := findPrimes_spec hN h2
  have hnd := b2 (a2 (nodup_start t))
  rw [List.append_assoc] at hnd
  refine ⟨by simpa [sizes] using a1, by simpa using b1, (List.nodup_append.1 hnd).2.1, ?_, ?_, ?_, ?_⟩
  · intro ht hm
    rw [if_pos ht] at hnd
    simp only [List.singleton_append, List.nodup_cons] at hnd
    exact hnd.1 hm
  · intro r hr
    rcases List.mem_append.1 hr with hr | hr
    · obtain ⟨_, _, _, _, _, h⟩ := a4 r hr
      exact ⟨h.1, h.2.2.1⟩
    · obtain ⟨_, _, _, _, _, h⟩ := b4 r hr
      exact ⟨h.1, h.2.2.1⟩
  · simp only [sizes, List.map_map, List.forall₂_map_left_iff] at a3
    refine a3.imp fun x r hxr => ?_
    have hxr := hxr.2
    simp only [Function.comp] at hxr
    have h20 : (20 : Nat) = ⌊(20 : ℚ)⌋.toNat := by
      rw [show (20 : ℚ) = ((20 : Int) : ℚ) by norm_num, Int.floor_intCast]; rfl
    constructor
    · refine lt_of_le_of_lt (Nat.pow_le_pow_right (by norm_num) (floor_mono ?_)) hxr
      split <;> [exact le_of_lt ‹_›; exact le_rfl]
    · refine lt_of_le_of_lt (Nat.pow_le_pow_right (by norm_num) ?_) hxr
      rw [h20]
      refine floor_mono ?_
      split <;> [exact le_rfl; exact not_lt.1 ‹_›]
  · intro x hx y hy
    obtain ⟨n1, hn1, E1, c1, c2, c3⟩ := a4 x hx
    obtain ⟨n2, hn2, E2, d1, d2, d3⟩ := b4 y hy
    refine later_gt c3 d3 ?_ (fun z hz => d1 (c2 hz)) (d1 (List.mem_append_right _ hx))
    rw [List.mem_replicate] at hn2
    rw [hn2.2]
    obtain ⟨s, hs, rfl⟩ := List.mem_map.1 hn1
    exact floor_mono (le_maxSize hs)

theorem prod_le {ds p : List Nat} (hlen : ds.length ≤ p.length) (h : ∀ d ∈ ds, ∀ r ∈ p, d < r)
    (hp : ∀ r ∈ p, 0 < r) : ds.prod ≤ p.prod := by
  induction ds generalizing p with
  | nil => rw [List.prod_nil]; exact Nat.succ_le_of_lt (List.prod_pos hp)
  | cons d ds ih =>
    cases p with
    | nil => simp at hlen
    | cons r p =>
      simp only [List.length_cons, Nat.add_le_add_iff_right] at hlen
      rw [List.prod_cons, List.prod_cons]
      exact Nat.mul_le_mul (h d (by simp) r (by simp)).le
        (ih hlen (fun d hd r hr => h d (by simp [hd]) r (by simp [hr])) fun r hr => hp r (by simp [hr]))

theorem prod_lt {ds p : List Nat} (hlen : ds.length ≤ p.length) (h : ∀ d ∈ ds, ∀ r ∈ p, d < r)
    (hp : ∀ r ∈ p, 1 < r) (hne : p ≠ []) : ds.prod < p.prod := by
  have hp' : ∀ r ∈ p, 0 < r := fun r hr => (Nat.zero_lt_one.trans (hp r hr))
  cases p with
  | nil => exact absurd rfl hne
  | cons r p =>
    have hpos : 0 < p.prod := List.prod_pos fun r hr => hp' r (by simp [hr])
    cases ds with
    | nil =>
      simp only [List.prod_nil, List.prod_cons]
      have := hp r (by simp)
      nlinarith
    | cons d ds =>
      simp only [List.length_cons, Nat.add_le_add_iff_right] at hlen
      rw [List.prod_cons, List.prod_cons]
      have h1 := prod_le hlen (fun d hd r hr => h d (by simp [hd]) r (by simp [hr]))
        fun r hr => hp' r (by simp [hr])
      have h2 := h d (by simp) r (by simp)
      nlinarith

theorem prod_lt_pow {l : List Nat} {k : Nat} (hne : l ≠ []) (h : ∀ r ∈ l, r < 2 ^ k) :
    l.prod < 2 ^ (k * l.length) := by
  induction l with
  | nil => exact absurd rfl hne
  | cons a l ih =>
    rw [List.prod_cons, List.length_cons, Nat.mul_add, Nat.mul_one, pow_add, Nat.mul_comm]
    have ha := h a (by simp)
    by_cases hl : l = []
    · subst hl; simpa using ha
    · have := ih hl fun r hr => h r (by simp [hr])
      exact Nat.mul_lt_mul'' this ha

theorem pow_lt_prod {l : List Nat} {k : Nat} (hne : l ≠ []) (h : ∀ r ∈ l, 2 ^ k < r) :
    2 ^ (k * l.length) < l.prod := by
  induction l with
  | nil => exact absurd rfl hne
  | cons a l ih =>
    rw [List.prod_cons, List.length_cons, Nat.mul_add, Nat.mul_one, pow_add, Nat.mul_comm]
    have ha := h a (by simp)
    by_cases hl : l = []
    · subst hl; simpa using ha
    · have := ih hl fun r hr => h r (by simp [hr])
      exact Nat.mul_lt_mul'' ha this

theorem ceilDiv_le {a b : Nat} (hb : 0 < b) : a ≤ b * ceilDiv a b := by
  rw [ceilDiv]
  have := Nat.div_add_mod (a + b - 1) b
  have := Nat.mod_lt (a + b - 1) hb
  omega

theorem dnum_pos (l : Nat) : 0 < computeDnum l := by
  unfold computeDnum; split <;> [omega; (split <;> omega)]

/-! ### CKKS -/

theorem fixedSteps_spec {m : Nat} (hm : 1 < m) {k cnt a b : Nat} {done out : List Nat}
    (h : fixedSteps m k cnt a b done = some out) (hb : ∀ x ∈ done, a ≤ x ∧ x ≤ b)
    (hn : done.Nodup) (hc : ∀ x ∈ done, Cand m x) (hab : a ≤ b) :
    out.length = done.length + k ∧ out.Nodup ∧ ∀ x ∈ out, Cand m x := by
  induction k generalizing cnt a b done with
  | zero =>
    simp only [fixedSteps, Option.some.injEq] at h
    subst h
    exact ⟨by simp, hn, hc⟩
  | succ k ih =>
    rw [fixedSteps] at h
    split at h
    · rw [Option.bind_eq_some_iff] at h
      obtain ⟨p, h1, h2⟩ := h
      obtain ⟨c1, c2⟩ := prevPrime_spec hm h1
      have hp : p ∉ done := fun hp => by have := (hb p hp).1; omega
      obtain ⟨g1, g2, g3⟩ := ih h2
        (by
          intro x hx
          rcases List.mem_cons.1 hx with rfl | hx
          · omega
          · have := hb x hx; omega)
        (List.nodup_cons.2 ⟨hp, hn⟩)
        (by
          intro x hx
          rcases List.mem_cons.1 hx with rfl | hx
          · exact c1
          · exact hc x hx) (by omega)
      exact ⟨by rw [g1]; simp; omega, g2, g3⟩
    · rw [Option.bind_eq_some_iff] at h
      obtain ⟨p, h1, h2⟩ := h
      obtain ⟨c1, c2, _⟩ := nextPrime_spec (by omega) h1
      have hp : p ∉ done := fun hp => by have := (hb p hp).2; omega
      obtain ⟨g1, g2, g3⟩ := ih h2
        (by
          intro x hx
          rcases List.mem_cons.1 hx with rfl | hx
          · omega
          · have := hb x hx; omega)
        (List.nodup_cons.2 ⟨hp, hn⟩)
        (by
          intro x hx
          rcases List.mem_cons.1 hx with rfl | hx
          · exact c1
          · exact hc x hx) (by omega)
      exact ⟨by rw [g1]; simp; omega, g2, g3⟩

theorem skipDown_spec {m : Nat} (hm : 1 < m) {E : List Nat} {k x p : Nat}
    (h : skipDown m E k x = some p) : Cand m p ∧ p ∉ E := by
  induction k generalizing x with
  | zero => cases h
  | succ k ih =>
    simp only [skipDown, Option.bind_eq_some_iff] at h
    obtain ⟨r, h1, h2⟩ := h
    split at h2
    · exact ih h2
    · simp only [Option.some.injEq] at h2
      subst h2
      exact ⟨(prevPrime_spec hm h1).1, ‹_›⟩

theorem reducedSteps_spec {m : Nat} (hm : 1 < m) {k cnt : Nat} {sf : ℚ} {done out : List Nat}
    (h : reducedSteps m k cnt sf done = some out) (hn : done.Nodup) (hc : ∀ x ∈ done, Cand m x) :
    out.length = done.length + k ∧ out.Nodup ∧ ∀ x ∈ out, Cand m x := by
  induction k generalizing cnt sf done with
  | zero =>
    simp only [reducedSteps, Option.some.injEq] at h
    subst h
    exact ⟨by simp, hn, hc⟩
  | succ k ih =>
    simp only [reducedSteps, Option.bind_eq_some_iff] at h
    obtain ⟨p, h1, h2⟩ := h
    have hp : Cand m p ∧ p ∉ done := by
      split at h1
      · exact skipDown_spec hm h1
      · rw [Option.bind_eq_some_iff] at h1
        obtain ⟨f, h3, h4⟩ := h1
        obtain ⟨c1, c2, c3, _⟩ := nextPrime_spec (by omega) h3
        obtain ⟨d1, _, _, d4, _⟩ := skip_spec (by omega) c1 c3 h4
        exact ⟨d1, d4⟩
    obtain ⟨g1, g2, g3⟩ := ih h2 (List.nodup_cons.2 ⟨hp.2, hn⟩)
      (by
        intro x hx
        rcases List.mem_cons.1 hx with rfl | hx
        · exact hp.1
        · exact hc x hx)
    exact ⟨by rw [g1]; simp; omega, g2, g3⟩

theorem foldl_max_ge (l : List Nat) (a : Nat) : a ≤ l.foldl max a ∧ ∀ x ∈ l, x ≤ l.foldl max a := by
  induction l generalizing a with
  | nil => simp
  | cons b l ih =>
    obtain ⟨h1, h2⟩ := ih (max a b)
    simp only [List.foldl_cons, List.mem_cons, forall_eq_or_imp]
    exact ⟨by omega, by omega, h2⟩

theorem firstModulus_spec {m : Nat} (hm : 1 < m) {a b top p : Nat} {done : List Nat}
    (h : firstModulus m a b top done = some p) (ht : ∀ x ∈ done, x ≤ top) : Cand m p ∧ p ∉ done := by
  have hnext : nextPrime top m = some p → Cand m p ∧ p ∉ done := by
    intro h
    obtain ⟨c1, c2, _⟩ := nextPrime_spec (by omega) h
    exact ⟨c1, fun hp => by have := ht p hp; omega⟩
  rw [firstModulus] at h
  split at h
  · exact hnext h
  · rw [Option.bind_eq_some_iff] at h
    obtain ⟨r, h1, h2⟩ := h
    split at h2
    · exact hnext h2
    · simp only [Option.some.injEq] at h2
      subst h2
      rw [lastPrime] at h1
      split at h1
      · rw [Option.filter_eq_some_iff] at h1
        exact ⟨(prevPrime_spec hm h1.1).1, ‹_›⟩
      · cases h1

theorem moduli_spec {red : Bool} {a b l N : Nat} (hN : N ≠ 0) {q : List Nat}
    (h : moduli red a b l N = some q) :
    q.length = l + 1 ∧ q.Nodup ∧ ∀ x ∈ q, Cand (2 * N) x := by
  have hm : 1 < 2 * N := by omega
  simp only [moduli, Option.bind_eq_some_iff, Option.map_eq_some_iff] at h
  obtain ⟨f, h1, done, h2, p, h3, rfl⟩ := h
  have hf : Cand (2 * N) f := by
    rw [firstPrime] at h1
    split at h1
    · exact (nextPrime_spec (by omega) h1).1
    · cases h1
  have hd : done.length = l ∧ done.Nodup ∧ ∀ x ∈ done, Cand (2 * N) x := by
    split at h2
    · simp only [Option.some.injEq] at h2
      subst h2
      simp_all
    · split at h2
      · obtain ⟨g1, g2, g3⟩ := reducedSteps_spec hm h2 (by simp) (by simpa using hf)
        exact ⟨by simp at g1; omega, g2, g3⟩
      · obtain ⟨g1, g2, g3⟩ := fixedSteps_spec hm h2 (by simp) (by simp) (by simpa using hf) le_rfl
        exact ⟨by simp at g1; omega, g2, g3⟩
  obtain ⟨c1, c2⟩ := firstModulus_spec hm h3 (foldl_max_ge done f).2
  refine ⟨by simp [hd.1], List.nodup_cons.2 ⟨c2, hd.2.1⟩, ?_⟩
  intro x hx
  rcases List.mem_cons.1 hx with rfl | hx
  · exact c1
  · exact hd.2.2 x hx

theorem genCkks_spec {red : Bool} {a b l N : Nat} (hN : N ≠ 0) {q p : List Nat}
    (h : genCkks red a b l N = some (q, p)) :
    q.length = l + 1 ∧ p.length = numSpecial a b l ∧ (q ++ p).Nodup ∧
    (∀ r ∈ q ++ p, Cand (2 * N) r) ∧ (∀ r ∈ p, 2 ^ 60 < r ∧ r < 2 ^ 64) := by
  simp only [genCkks, Option.bind_eq_some_iff, Option.map_eq_some_iff, Prod.mk.injEq] at h
  obtain ⟨q', h1, p', h2, rfl, rfl⟩ := h
  obtain ⟨a1, a2, a3⟩ := moduli_spec hN h1
  obtain ⟨b1, b2, b3, b4⟩ := findPrimes_spec hN h2
  refine ⟨a1, by simpa using b1, b2 a2, ?_, ?_⟩
  · intro r hr
    rcases List.mem_append.1 hr with hr | hr
    · exact a3 r hr
    · obtain ⟨_, _, _, _, _, h⟩ := b4 r hr
      exact h.1
  · intro r hr
    obtain ⟨n, hn, _, _, _, h⟩ := b4 r hr
    rw [List.mem_replicate] at hn
    exact ⟨hn.2 ▸ h.2.1, h.2.2.1⟩

end Heir.Params
