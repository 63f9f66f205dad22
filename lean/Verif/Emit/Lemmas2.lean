import Verif.Emit.Lemmas

/-! # Visiting a node keeps the invariants -/

namespace Heir.Emit

open Heir.Dag

variable {V O : Type} {S : Sem V O} {D : Heap O} {roots : List Nat} {P : Nat → Prop}

theorem free_of_cached {s : ESt} (hs : Stat S D roots P s) {n : Nat}
    (hc : ∀ c ∈ scopeChildren (D n), ∃ ns, s.cache c = some ns)
    (hb : ∀ l, D n = .loop l → ∃ ns, s.cache l.body = some ns)
    (hv : D n = .var → (s.vars n).isSome) {x : Nat} (hf : FreeVar D n x) : (s.vars x).isSome := by
  cases hf with
  | var h => exact hv h
  | child h hf =>
    obtain ⟨ns, h⟩ := hc _ h
    exact hs.free _ ns x h hf
  | body h hf _ =>
    obtain ⟨ns, h⟩ := hb _ h
    exact hs.free _ ns x h hf

theorem below_child {n c : Nat} (hb : Below D roots n) (hc : c ∈ scopeChildren (D n)) :
    Below D roots c := hb.trans (.child .refl hc)

theorem below_body {n : Nat} {l : LoopNode} (hb : Below D roots n) (hl : D n = .loop l) :
    Below D roots l.body := hb.trans (.body .refl hl)

/-- The length of a loop's results. -/
theorem den_loop_length (hD : Ordered D) {env : Env V} {n : Nat} {l : LoopNode} {r : List V}
    (hn : D n = .loop l) (h : den S D env n = some r) : r.length = l.inits.length := by
  rw [den_eq S hD, denV, hn] at h
  simp only [Option.bind_eq_some_iff] at h
  obtain ⟨vals, hv, is, _, h⟩ := h
  rw [← allSome_length hv]
  refine denLoop_length ?_ h
  intro i vals r h
  split at h
  case isTrue =>
    simp only [Option.bind_eq_some_iff] at h
    obtain ⟨r', _, h⟩ := h
    split at h
    case isTrue hl => simp only [Option.some.injEq] at h; subst h; exact hl
    case isFalse => cases h
  case isFalse => cases h

theorem den_yield_length (hD : Ordered D) {env : Env V} {n : Nat} {cs : List Nat} {r : List V}
    (hn : D n = .yield cs) (h : den S D env n = some r) : r.length = cs.length := by
  rw [den_eq S hD, denV, hn] at h
  exact allSome_length h

theorem yieldSize_some {K : Kind O} {k : Nat} (h : yieldSize K = some k) :
    ∃ cs, K = .yield cs ∧ cs.length = k := by
  cases K <;> simp_all [yieldSize]

theorem sameYields_iff {t e : Kind O} (h : sameYields t e = true) :
    ∃ ct ce, t = .yield ct ∧ e = .yield ce ∧ ct.length = ce.length := by
  simp only [sameYields, Bool.and_eq_true, beq_iff_eq] at h
  obtain ⟨k, hk⟩ := Option.isSome_iff_exists.1 h.1
  obtain ⟨ct, h1, h2⟩ := yieldSize_some hk
  obtain ⟨ce, h3, h4⟩ := yieldSize_some (h.2 ▸ hk)
  exact ⟨ct, ce, h1, h3, by omega⟩

/-- What a visit gives. -/
def Good (S : Sem V O) (D : Heap O) (roots : List Nat) (k : Nat) (rec : ESt → Nat → Res O) : Prop :=
  ∀ (n : Nat) (P : Nat → Prop) s r, n < k → Below D roots n → Stat S D roots P s →
    (∀ m, P m → n < m) → rec s n = some r →
    Step S D roots P s r.2.2 ∧ r.2.2.cache n = some r.1

theorem visit_step (hD : Ordered D) (hC : Closed D roots) {k : Nat} {rec : ESt → Nat → Res O}
    (ih : Good S D roots k rec) {n : Nat} {s : ESt} {r : List Nat × Code O × ESt} (hnk : n < k + 1)
    (hb : Below D roots n) (hs : Stat S D roots P s) (hP : ∀ m, P m → n < m)
    (hcn : s.cache n = none) (h : visit D rec s n = some r) :
    Step S D roots P s { r.2.2 with cache := fun m => if m = n then some r.1 else r.2.2.cache m } := by
  have hlt : ∀ c ∈ clearChildren (D n), c < n := hD n
  have hsc : ∀ c ∈ scopeChildren (D n), c < n := fun c hc => hlt c (scope_sub_clear hc)
  have hrec : ∀ c ∈ scopeChildren (D n), ∀ s r, Stat S D roots P s → rec s c = some r →
      Step S D roots P s r.2.2 ∧ r.2.2.cache c = some r.1 := fun c hc s r hs hr =>
    ih c P s r (by have := hsc c hc; omega) (below_child hb hc) hs
      (fun m hm => (hsc c hc).trans (hP m hm)) hr
  rw [visit] at h
  cases hn : D n with
  | pure o cs =>
    rw [hn] at h hrec
    simp only [Option.map_eq_some_iff] at h
    obtain ⟨q, hq, rfl⟩ := h
    obtain ⟨h1, hp⟩ := visitList_step hrec hs hq
    refine Step.finish (k := 1) (ns := fresh q.2.2.next 1) h1 (fun m hm => Or.inl hm) hb hcn ?_ ?_ ?_ ?_ ?_
    · intro x hx; exact (mem_fresh.1 hx).2
    · intro x hx
      refine free_of_cached h1.stat ?_ ?_ ?_ hx
      · rw [hn]; exact fun c hc => hp.mem hc
      · rw [hn]; intro l hl; cases hl
      · rw [hn]; intro hl; cases hl
    · intro env r hr
      rw [den_eq S hD, denV, hn] at hr
      simp only [Option.bind_eq_some_iff, Option.map_eq_some_iff] at hr
      obtain ⟨_, _, _, _, rfl⟩ := hr
      simp
    · rw [hn]; intro cs hcs; cases hcs
    · intro ρ env hu _ _
      exact holds_fresh hu h1.next
  | var =>
    rw [hn] at h
    simp only [Option.map_eq_some_iff] at h
    obtain ⟨a, ha, rfl⟩ := h
    refine Step.finish (k := 0) (ns := [a]) (Step.refl hs) (fun m hm => Or.inl hm) hb hcn ?_ ?_ ?_ ?_ ?_
    · intro x hx
      simp only [List.mem_singleton] at hx; subst hx
      exact hs.vars n x ha
    · intro x hx
      refine free_of_cached hs ?_ ?_ ?_ hx
      · rw [hn]; intro c hc; simp [scopeChildren] at hc
      · rw [hn]; intro l hl; cases hl
      · intro _; rw [ha]; rfl
    · intro env r hr
      rw [den_eq S hD, denV, hn] at hr
      simp only [Option.map_eq_some_iff] at hr
      obtain ⟨_, _, rfl⟩ := hr
      rfl
    · rw [hn]; intro cs hcs; cases hcs
    · intro ρ env _ _ hl
      exact holds_var hD hn ha hl
  | ifElse c t e =>
    rw [hn] at h hrec
    simp only [Option.bind_eq_some_iff] at h
    obtain ⟨q, hq, v, hv, h⟩ := h
    split at h
    case isFalse => cases h
    case isTrue hy =>
      simp only [visitIf, Option.bind_eq_some_iff, Option.map_eq_some_iff] at h
      obtain ⟨qt, hqt, qe, hqe, rfl⟩ := h
      obtain ⟨h1, hc1⟩ := hrec c (by simp [scopeChildren]) s q hs hq
      obtain ⟨h2, hc2⟩ := hrec t (by simp [scopeChildren]) _ qt h1.stat hqt
      obtain ⟨h3, hc3⟩ := hrec e (by simp [scopeChildren]) _ qe h2.stat hqe
      have h13 := (h1.trans h2).trans h3
      obtain ⟨ct, ce, ht, he, hce⟩ := sameYields_iff hy
      refine Step.finish (k := qt.1.length) (ns := fresh qe.2.2.next qt.1.length) h13
        (fun m hm => Or.inl hm) hb hcn ?_ ?_ ?_ ?_ ?_
      · intro x hx; exact (mem_fresh.1 hx).2
      · intro x hx
        refine free_of_cached h13.stat ?_ ?_ ?_ hx
        · rw [hn]
          intro d hd
          simp only [scopeChildren, List.mem_cons, List.not_mem_nil, or_false] at hd
          rcases hd with rfl | rfl | rfl
          · exact ⟨_, h3.cache _ _ (h2.cache _ _ hc1)⟩
          · exact ⟨_, h3.cache _ _ hc2⟩
          · exact ⟨_, hc3⟩
        · rw [hn]; intro l hl; cases hl
        · rw [hn]; intro hl; cases hl
      · intro env r hr
        rw [den_eq S hD, denV, hn] at hr
        simp only [Option.bind_eq_some_iff] at hr
        obtain ⟨_, _, b, _, hr⟩ := hr
        rw [fresh_length, h2.stat.ylen t _ ct hc2 ht]
        cases b
        · rw [den_yield_length hD he (by simpa using hr), hce]
        · exact den_yield_length hD ht (by simpa using hr)
      · rw [hn]; intro cs hcs; cases hcs
      · intro ρ env hu _ _
        exact holds_fresh hu h13.next
  | loop l =>
    rw [hn] at h hrec
    simp only [Option.bind_eq_some_iff] at h
    obtain ⟨q, hq, h⟩ := h
    split at h
    case isFalse => cases h
    case isTrue hy =>
      simp only [visitLoop, Option.map_eq_some_iff] at h
      obtain ⟨qb, hqb, rfl⟩ := h
      obtain ⟨h1, hp⟩ := visitList_step hrec hs hq
      have hbn : l.body < n := hlt _ (by rw [hn]; exact body_mem_clear l)
      have h2 := Step.enter hC q.1.length h1.stat hb hn
      obtain ⟨h3, hc3⟩ := ih l.body _ _ qb (by omega) (below_body hb hn) h2.stat (by
        rintro m (hm | rfl)
        · exact hbn.trans (hP m hm)
        · exact hbn) hqb
      have h13 := (h1.trans h2).trans h3
      refine Step.finish (k := q.1.length) (ns := fresh qb.2.2.next q.1.length) h13
        (fun m hm => hm) hb hcn ?_ ?_ ?_ ?_ ?_
      · intro x hx; exact (mem_fresh.1 hx).2
      · intro x hx
        refine free_of_cached h13.stat ?_ ?_ ?_ hx
        · rw [hn]
          intro c hc
          obtain ⟨ns, hns⟩ := hp.mem hc
          exact ⟨ns, h3.cache _ _ (h2.cache _ _ hns)⟩
        · rw [hn]; intro l' hl; cases hl; exact ⟨_, hc3⟩
        · rw [hn]; intro hl; cases hl
      · intro env r hr
        rw [fresh_length, den_loop_length hD hn hr]; exact hp.length
      · rw [hn]; intro cs hcs; cases hcs
      · intro ρ env hu _ _
        exact holds_fresh hu h13.next
  | yield cs =>
    rw [hn] at h hrec
    obtain ⟨h1, hp⟩ := visitList_step hrec hs h
    refine Step.finish (k := 0) (ns := r.1) h1 (fun m hm => Or.inl hm) hb hcn ?_ ?_ ?_ ?_ ?_
    · intro x hx
      exact hp.names (fun ns x h => by rw [single_get h]; rfl) h1.stat hx
    · intro x hx
      refine free_of_cached h1.stat ?_ ?_ ?_ hx
      · rw [hn]; exact fun c hc => hp.mem hc
      · rw [hn]; intro l hl; cases hl
      · rw [hn]; intro hl; cases hl
    · intro env d hd
      rw [den_yield_length hD hn hd]; exact hp.length
    · rw [hn]; intro cs' hcs; cases hcs; exact hp.length.symm
    · intro ρ env _ ha _
      exact holds_yield hD hn hp ha
  | resultAt c i =>
    rw [hn] at h hrec
    simp only [Option.bind_eq_some_iff, Option.map_eq_some_iff] at h
    obtain ⟨q, hq, x, hx, rfl⟩ := h
    obtain ⟨h1, hc⟩ := hrec c (by simp [scopeChildren]) s q hs hq
    refine Step.finish (k := 0) (ns := [x]) h1 (fun m hm => Or.inl hm) hb hcn ?_ ?_ ?_ ?_ ?_
    · intro y hy
      simp only [List.mem_singleton] at hy; subst hy
      exact h1.stat.names c _ hc y (List.mem_of_getElem? hx)
    · intro x hx
      refine free_of_cached h1.stat ?_ ?_ ?_ hx
      · rw [hn]; intro d hd
        simp only [scopeChildren, List.mem_singleton] at hd; subst hd; exact ⟨_, hc⟩
      · rw [hn]; intro l hl; cases hl
      · rw [hn]; intro hl; cases hl
    · intro env r hr
      rw [den_eq S hD, denV, hn] at hr
      simp only [Option.bind_eq_some_iff, Option.map_eq_some_iff] at hr
      obtain ⟨_, _, _, _, rfl⟩ := hr
      rfl
    · rw [hn]; intro cs hcs; cases hcs
    · intro ρ env _ ha _
      exact holds_resultAt hD hn hc hx ha

theorem process_step (S : Sem V O) (hD : Ordered D) (hC : Closed D roots) (k : Nat) :
    Good S D roots k (process D k) := by
  induction k with
  | zero => intro n P s r hn; omega
  | succ k ih =>
    intro n P s r hnk hb hs hP h
    rw [process] at h
    cases hc : s.cache n with
    | some vs =>
      rw [hc] at h
      simp only [Option.some.injEq] at h
      subst h
      exact ⟨Step.refl hs, hc⟩
    | none =>
      rw [hc] at h
      simp only [Option.map_eq_some_iff] at h
      obtain ⟨q, hq, rfl⟩ := h
      exact ⟨visit_step hD hC ih hnk hb hs hP hc hq, by simp⟩

end Heir.Emit
