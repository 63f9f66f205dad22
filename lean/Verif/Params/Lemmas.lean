import Verif.Params.Model
import Verif.Params.Spec

/-! # The searches for primes -/

namespace Heir.Params

/-- A prime of the form `k * m + 1`. -/
def Cand (m r : Nat) : Prop := r.Prime ∧ r ≡ 1 [MOD m]

theorem above_spec {m : Nat} (hm : m ≠ 0) (x : Nat) :
    Cand m (above m x) ∧ x < above m x ∧ ∀ r, Cand m r → x < r → above m x ≤ r := by
  have h : above m x = Nat.find (Nat.exists_prime_gt_modEq_one x hm) := by rw [above, dif_pos hm]
  have hs := Nat.find_spec (Nat.exists_prime_gt_modEq_one x hm)
  rw [h]
  exact ⟨⟨hs.1, hs.2.2⟩, hs.2.1, fun r hr hx => Nat.find_min' _ ⟨hr.1, hx, hr.2⟩⟩

theorem nextPrime_spec {m x p : Nat} (hm : m ≠ 0) (h : nextPrime x m = some p) :
    Cand m p ∧ x < p ∧ p < 2 ^ 64 ∧ ∀ r, Cand m r → x < r → p ≤ r := by
  rw [nextPrime] at h
  split at h
  case isTrue hl =>
    obtain ⟨h1, h2, h3⟩ := above_spec hm x
    simp only [Option.some.injEq] at h
    subst h
    exact ⟨h1, h2, hl, h3⟩
  case isFalse => cases h

theorem nextPrime_none {m x : Nat} (hm : m ≠ 0) (h : nextPrime x m = none) {r : Nat} (hr : Cand m r)
    (hx : x < r) : 2 ^ 64 ≤ r := by
  rw [nextPrime] at h
  split at h
  case isTrue => cases h
  case isFalse hl =>
    have := (above_spec hm x).2.2 r hr hx
    omega

theorem prevPrime_spec {m x p : Nat} (hm : 1 < m) (h : prevPrime x m = some p) :
    Cand m p ∧ p < x := by
  have := List.mem_of_getLast? h
  simp only [List.mem_filter, List.mem_range, Bool.and_eq_true, decide_eq_true_eq] at this
  refine ⟨⟨this.2.1, ?_⟩, this.1⟩
  rw [Nat.ModEq, this.2.2, Nat.mod_eq_of_lt hm]

/-- The first new prime above `2 ^ n`. -/
def LeastNew (m n : Nat) (E : List Nat) (p : Nat) : Prop :=
  Cand m p ∧ 2 ^ n < p ∧ p < 2 ^ 64 ∧ p ∉ E ∧ ∀ r, Cand m r → 2 ^ n < r → r ∉ E → p ≤ r

theorem skip_spec {m : Nat} (hm : m ≠ 0) {E : List Nat} {k p r : Nat} (hp : Cand m p)
    (hl : p < 2 ^ 64) (h : skip m E k p = some r) :
    Cand m r ∧ p ≤ r ∧ r < 2 ^ 64 ∧ r ∉ E ∧ ∀ s, Cand m s → p ≤ s → s ∉ E → r ≤ s := by
  induction k generalizing p with
  | zero => cases h
  | succ k ih =>
    rw [skip] at h
    split at h
    case isTrue hE =>
      rw [Option.bind_eq_some_iff] at h
      obtain ⟨p', h1, h2⟩ := h
      obtain ⟨a1, a2, a3, a4⟩ := nextPrime_spec hm h1
      obtain ⟨b1, b2, b3, b4, b5⟩ := ih a1 a3 h2
      refine ⟨b1, by omega, b3, b4, fun s hs hps hsE => ?_⟩
      have : p ≠ s := fun e => hsE (e ▸ hE)
      exact b5 s hs (a4 s hs (by omega)) hsE
    case isFalse hE =>
      simp only [Option.some.injEq] at h
      subst h
      exact ⟨hp, le_rfl, hl, hE, fun s _ h _ => h⟩

theorem skip_none {m : Nat} (hm : m ≠ 0) {E : List Nat} {k p : Nat} (hp : Cand m p)
    (hk : (E.toFinset.filter (p ≤ ·)).card < k) (h : skip m E k p = none) {s : Nat} (hs : Cand m s)
    (hps : p ≤ s) (hl : s < 2 ^ 64) : s ∈ E := by
  induction k generalizing p with
  | zero => omega
  | succ k ih =>
    rw [skip] at h
    split at h
    case isTrue hE =>
      rcases Nat.eq_or_lt_of_le hps with rfl | hps
      · exact hE
      cases hn : nextPrime p m with
      | none => exact absurd (nextPrime_none hm hn hs hps) (by omega)
      | some p' =>
        rw [hn, Option.bind_some] at h
        obtain ⟨a1, a2, a3, a4⟩ := nextPrime_spec hm hn
        refine ih a1 ?_ h (a4 s hs hps)
        refine lt_of_lt_of_le (Finset.card_lt_card (t := E.toFinset.filter (p ≤ ·)) ?_) (by omega)
        rw [Finset.ssubset_iff_of_subset]
        · exact ⟨p, by simp [hE], by simp; intro _; omega⟩
        · intro x hx
          simp only [Finset.mem_filter] at hx ⊢
          exact ⟨hx.1, by omega⟩
    case isFalse => cases h

theorem card_filter_lt (E : List Nat) (p : Nat) :
    (E.toFinset.filter (p ≤ ·)).card < E.length + 1 :=
  Nat.lt_succ_of_le ((Finset.card_filter_le _ _).trans E.toFinset_card_le)

theorem tryBits_spec {m : Nat} (hm : m ≠ 0) {E : List Nat} {n p : Nat}
    (h : tryBits m E n = some p) : n ≤ 60 ∧ LeastNew m n E p := by
  rw [tryBits, Option.bind_eq_some_iff] at h
  obtain ⟨f, h1, h2⟩ := h
  rw [firstPrime] at h1
  split at h1
  case isTrue hn =>
    obtain ⟨a1, a2, a3, a4⟩ := nextPrime_spec hm h1
    obtain ⟨b1, b2, b3, b4, b5⟩ := skip_spec hm a1 a3 h2
    exact ⟨hn, b1, by omega, b3, b4, fun r hr hx hE => b5 r hr (a4 r hr hx) hE⟩
  case isFalse => cases h1

theorem tryBits_none {m : Nat} (hm : m ≠ 0) {E : List Nat} {n : Nat} (hn : n ≤ 60)
    (h : tryBits m E n = none) {s : Nat} (hs : Cand m s) (hx : 2 ^ n < s) (hl : s < 2 ^ 64) :
    s ∈ E := by
  rw [tryBits, firstPrime, if_pos hn] at h
  cases hf : nextPrime (2 ^ n) m with
  | none => exact absurd (nextPrime_none hm hf hs hx) (by omega)
  | some f =>
    rw [hf, Option.bind_some] at h
    obtain ⟨a1, a2, a3, a4⟩ := nextPrime_spec hm hf
    exact skip_none hm a1 (card_filter_lt E f) h hs (a4 s hs hx) hl

theorem findLoop_spec {m : Nat} (hm : m ≠ 0) {E : List Nat} {k n p : Nat}
    (h : findLoop m E k n = some p) : n ≤ 60 ∧ LeastNew m n E p := by
  induction k generalizing n with
  | zero => cases h
  | succ k ih =>
    rw [findLoop] at h
    cases ht : tryBits m E n with
    | some p' =>
      rw [ht] at h
      simp only [Option.some.injEq] at h
      exact h ▸ tryBits_spec hm ht
    | none =>
      rw [ht] at h
      obtain ⟨h1, h2, h3, h4, h5, h6⟩ := ih h
      have : 2 ^ n ≤ 2 ^ (n + 1) := Nat.pow_le_pow_right (by norm_num) (by omega)
      exact absurd (tryBits_none hm (by omega) ht h2 (by omega) h4) h5

theorem findPrime_spec {n N : Nat} (hN : N ≠ 0) {E : List Nat} {p : Nat}
    (h : findPrime n N E = some p) : n ≤ 60 ∧ LeastNew (2 * N) n E p :=
  findLoop_spec (by omega) h

/-- A prime is found if there is one. -/
theorem findPrime_some {n N : Nat} (hN : N ≠ 0) {E : List Nat} {s : Nat} (hn : n ≤ 60)
    (hs : Cand (2 * N) s) (hx : 2 ^ n < s) (hl : s < 2 ^ 64) (hE : s ∉ E) :
    ∃ p, findPrime n N E = some p := by
  rw [findPrime, show 80 - n = (79 - n) + 1 by omega, findLoop]
  cases ht : tryBits (2 * N) E n with
  | some p => exact ⟨p, rfl⟩
  | none => exact absurd (tryBits_none (by omega) hn ht hs hx hl) hE

theorem findPrimes_spec {N : Nat} (hN : N ≠ 0) {ns E ps : List Nat}
    (h : findPrimes N ns E = some ps) :
    ps.length = ns.length ∧ (E.Nodup → (E ++ ps).Nodup) ∧
    (List.Forall₂ (fun n p => n ≤ 60 ∧ 2 ^ n < p) ns ps) ∧
    ∀ p ∈ ps, ∃ n ∈ ns, ∃ E', E ⊆ E' ∧ E' ⊆ E ++ ps ∧ LeastNew (2 * N) n E' p := by
  induction ns generalizing E ps with
  | nil =>
    simp only [findPrimes, Option.some.injEq] at h
    subst h
    simp
  | cons n ns ih =>
    simp only [findPrimes, Option.bind_eq_some_iff, Option.map_eq_some_iff] at h
    obtain ⟨p, h1, ps', h2, rfl⟩ := h
    obtain ⟨hn, hp⟩ := findPrime_spec hN h1
    obtain ⟨a1, a2, a3, a4⟩ := ih h2
    refine ⟨by simp [a1], ?_, List.Forall₂.cons ⟨hn, hp.2.1⟩ a3, ?_⟩
    · intro hE
      have := a2 (by
        rw [List.nodup_append]
        refine ⟨hE, by simp, ?_⟩
        intro a ha b hb e
        simp only [List.mem_singleton] at hb
        exact hp.2.2.2.1 (hb ▸ e ▸ ha))
      rwa [List.append_assoc] at this
    · intro r hr
      rcases List.mem_cons.1 hr with rfl | hr
      · exact ⟨n, by simp, E, fun _ h => h, fun x hx => List.mem_append_left _ hx, hp⟩
      · obtain ⟨n', hn', E', h3, h4, h5⟩ := a4 r hr
        refine ⟨n', by simp [hn'], E', fun x hx => h3 (List.mem_append_left _ hx), ?_, h5⟩
        intro x hx
        have := h4 hx
        simpa [List.append_assoc] using this

theorem later_gt {m n1 n2 : Nat} {E1 E2 : List Nat} {q p : Nat} (h1 : LeastNew m n1 E1 q)
    (h2 : LeastNew m n2 E2 p) (hn : n1 ≤ n2) (hE : E1 ⊆ E2) (hq : q ∈ E2) : q < p := by
  have h : 2 ^ n1 ≤ 2 ^ n2 := Nat.pow_le_pow_right (by norm_num) hn
  have := h1.2.2.2.2 p h2.1 (by have := h2.2.1; omega) (fun h => h2.2.2.2.1 (hE h))
  have : q ≠ p := fun e => h2.2.2.2.1 (e ▸ hq)
  omega

theorem ntt_of_cand {N p : Nat} (h : Cand (2 * N) p) : NttPrime N p :=
  ⟨h.1, (Nat.modEq_iff_dvd' h.1.one_lt.le).1 h.2.symm⟩

/-! ### The ring dimension -/

theorem computeRingDim_iff {l min N : Nat} : computeRingDim l min = some N ↔
    ∃ M, maxLogQ N = some M ∧ min ≤ N ∧ l ≤ M ∧
      ∀ N' M', maxLogQ N' = some M' → min ≤ N' → l ≤ M' → N ≤ N' := by
  have hm : ∀ N M, maxLogQ N = some M ↔ (N, M) ∈ table := by
    intro N M
    constructor
    · intro h
      unfold maxLogQ at h
      split at h <;> simp only [Option.some.injEq, reduceCtorEq] at h <;> subst h <;> decide
    · intro h
      simp only [table, List.mem_cons, Prod.mk.injEq, List.not_mem_nil, or_false] at h
      rcases h with ⟨rfl, rfl⟩ | ⟨rfl, rfl⟩ | ⟨rfl, rfl⟩ | ⟨rfl, rfl⟩ | ⟨rfl, rfl⟩ | ⟨rfl, rfl⟩ |
        ⟨rfl, rfl⟩ | ⟨rfl, rfl⟩ <;> rfl
  have hsort : table.Pairwise fun a b => a.1 < b.1 := by decide
  rw [computeRingDim, Option.map_eq_some_iff]
  have huniq : ∀ N M M', maxLogQ N = some M → maxLogQ N = some M' → M = M' := fun _ _ _ h h' => by
    rw [h] at h'; simpa using h'
  constructor
  · rintro ⟨⟨N1, M⟩, h, rfl⟩
    rw [List.find?_eq_some_iff_append] at h
    obtain ⟨h1, as, bs, h2, h3⟩ := h
    simp only [Bool.and_eq_true, decide_eq_true_eq] at h1
    refine ⟨M, (hm _ _).2 (by rw [h2]; simp), h1.1, h1.2, fun N' M' h' hl hu => ?_⟩
    rw [hm, h2] at h'
    rcases List.mem_append.1 h' with h' | h'
    · have := h3 _ h'
      simp only [Bool.not_eq_eq_eq_not, Bool.not_true, Bool.and_eq_false_iff, decide_eq_false_iff_not] at this
      rcases this with h | h
      · exact absurd hl h
      · exact absurd hu h
    · rw [h2, List.pairwise_append] at hsort
      rcases List.mem_cons.1 h' with h' | h'
      · simp only [Prod.mk.injEq] at h'; omega
      · exact (List.rel_of_pairwise_cons hsort.2.1 h').le
  · rintro ⟨M, h1, h2, h3, h4⟩
    cases hf : table.find? fun e => decide (min ≤ e.1) && decide (l ≤ e.2) with
    | none =>
      rw [List.find?_eq_none] at hf
      have := hf (N, M) ((hm _ _).1 h1)
      simp [h2, h3] at this
    | some e =>
      refine ⟨e, rfl, ?_⟩
      have hf' := hf
      rw [List.find?_eq_some_iff_append] at hf
      obtain ⟨g1, as, bs, g2, g3⟩ := hf
      simp only [Bool.and_eq_true, decide_eq_true_eq] at g1
      have hle := h4 e.1 e.2 ((hm _ _).2 (by rw [g2]; simp)) g1.1 g1.2
      have h1' := (hm _ _).1 h1
      rw [g2] at h1'
      rcases List.mem_append.1 h1' with h' | h'
      · have := g3 _ h'
        simp [h2, h3] at this
      · rw [g2, List.pairwise_append] at hsort
        rcases List.mem_cons.1 h' with h' | h'
        · rw [← h']
        · have := List.rel_of_pairwise_cons hsort.2.1 h'
          omega

theorem ringDim_ne {l min N : Nat} (h : computeRingDim l min = some N) : N ≠ 0 := by
  obtain ⟨M, h, _⟩ := computeRingDim_iff.1 h
  rintro rfl
  simp [maxLogQ] at h

theorem settle_spec {gen : Nat → Option (List Nat × List Nat)} {min k N0 N : Nat}
    {r : List Nat × List Nat} (h : settle gen min k N0 = some (N, r)) :
    gen N = some r ∧ computeRingDim (Nat.log 2 (r.1.prod * r.2.prod)) min = some N := by
  induction k generalizing N0 with
  | zero => cases h
  | succ k ih =>
    simp only [settle, Option.bind_eq_some_iff] at h
    obtain ⟨r', h1, N', h2, h3⟩ := h
    split at h3
    case isTrue he =>
      simp only [Option.some.injEq, Prod.mk.injEq] at h3
      obtain ⟨rfl, rfl⟩ := h3
      exact ⟨h1, he ▸ h2⟩
    case isFalse => exact ih h3

theorem getConcrete_spec {logqi : List ℚ} {min t k : Nat} {s : Scheme}
    (h : getConcrete logqi min t k = some s) :
    logqi ≠ [] ∧ genRlwe logqi t s.ringDim = some (s.q, s.p) ∧
    computeRingDim (Nat.log 2 (s.q.prod * s.p.prod)) min = some s.ringDim ∧
    s.level = logqi.length - 1 ∧ s.dnum = computeDnum (logqi.length - 1) := by
  rw [getConcrete] at h
  split at h
  case isTrue => cases h
  case isFalse hne =>
    simp only [Option.bind_eq_some_iff, Option.map_eq_some_iff] at h
    obtain ⟨n, _, r, h2, rfl⟩ := h
    obtain ⟨h3, h4⟩ := settle_spec (r := r.2) (by exact h2)
    exact ⟨hne, h3, h4, by simp [sizes], by simp [sizes]⟩

theorem getCkks_spec {red : Bool} {a b l min k : Nat} {s : Scheme}
    (h : getCkks red a b l min k = some s) :
    genCkks red a b l s.ringDim = some (s.q, s.p) ∧
    computeRingDim (Nat.log 2 (s.q.prod * s.p.prod)) (2 * min) = some s.ringDim ∧
    s.level = l + 1 ∧ s.dnum = computeDnum l := by
  simp only [getCkks, Option.bind_eq_some_iff, Option.map_eq_some_iff] at h
  obtain ⟨n, _, r, h2, rfl⟩ := h
  obtain ⟨h3, h4⟩ := settle_spec (r := r.2) (by exact h2)
  exact ⟨h3, h4, rfl, rfl⟩

end Heir.Params
