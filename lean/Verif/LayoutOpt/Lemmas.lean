import Verif.LayoutOpt.Spec
import Mathlib.Algebra.Order.BigOperators.Group.Finset
import Mathlib.Tactic.Ring

/-!
# Lemmas about the rotation counts
-/

namespace Heir.LayoutOpt

variable {D : Dag} {σ : Nat → Bool}

theorem Reach.le (hD : Acyclic D) {n m : Nat} (h : Reach D n m) : m ≤ n := by
  induction h with
  | refl => exact le_rfl
  | step hk _ ih => exact ih.trans (hD _ _ hk).le

theorem mem_needed (hD : Acyclic D) {n m : Nat} : m ∈ needed D n ↔ Reach D n m := by
  classical
  simp only [needed, Finset.mem_filter, Finset.mem_range]
  exact ⟨fun h => h.2, fun h => ⟨Nat.lt_succ_of_le (h.le hD), h⟩⟩

theorem mem_neededAll (hD : Acyclic D) {ns : List Nat} {m : Nat} :
    m ∈ neededAll D ns ↔ ∃ n ∈ ns, Reach D n m := by
  simp [neededAll, mem_needed hD]

theorem needed_eq (hD : Acyclic D) (n : Nat) :
    needed D n = insert n (neededAll D (children (D n))) := by
  ext m
  rw [Finset.mem_insert, mem_needed hD, mem_neededAll hD]
  constructor
  · intro h
    cases h with
    | refl => exact Or.inl rfl
    | step hk hr => exact Or.inr ⟨_, hk, hr⟩
  · rintro (rfl | ⟨k, hk, hr⟩)
    · exact .refl _
    · exact .step hk hr

theorem neededAll_cons (n : Nat) (ns : List Nat) :
    neededAll D (n :: ns) = needed D n ∪ neededAll D ns := by
  classical
  simp [neededAll, Finset.biUnion_insert]

theorem not_mem_children_needed (hD : Acyclic D) (n : Nat) :
    n ∉ neededAll D (children (D n)) := by
  rw [mem_neededAll hD]
  rintro ⟨k, hk, hr⟩
  exact absurd (hr.le hD) (by have := hD _ _ hk; omega)

/-- The state is right below `b`. -/
def Inv (D : Dag) (b : Nat) (s : St) : Prop :=
  ∀ m ∈ s.seen, m < b →
    (∀ k ∈ children (D m), k ∈ s.seen) ∧ (s.sec m = true ↔ Secret D (fun _ => false) m)

theorem Inv.needed {b : Nat} {s : St} (hD : Acyclic D) (h : Inv D b s) {n m : Nat} (hb : n < b)
    (hn : n ∈ s.seen) (hr : Reach D n m) : m ∈ s.seen := by
  induction hr with
  | refl => exact hn
  | step hk _ ih => exact ih ((hD _ _ hk).trans hb) ((h _ hn hb).1 _ hk)

/-- What a visit does. -/
def Visits (D : Dag) (b : Nat) (S : Finset Nat) (s : St) (r : Int × St) : Prop :=
  r.2.seen = s.seen ∪ S ∧ r.1 = total D (fun _ => false) (S \ s.seen) ∧ Inv D b r.2 ∧
    ∀ m, b ≤ m → r.2.sec m = s.sec m

theorem kids_eq {n : Node} (h : noLoop n = true) : n.kids = (children n).map (·, 1) := by
  cases n <;> first | rfl | simp [noLoop] at h

theorem total_union {s t : Finset Nat} (h : Disjoint s t) :
    total D σ (s ∪ t) = total D σ s + total D σ t := Finset.sum_union h

theorem visitKids_spec {f : Nat → St → Int × St} {b : Nat} :
    ∀ (ks : List Nat) (s : St),
      (∀ k ∈ ks, ∀ s, Inv D (k + 1) s → Visits D (k + 1) (needed D k) s (f k s)) →
      (∀ k ∈ ks, k < b) → Inv D b s →
      Visits D b (neededAll D ks) s (visitKids f (ks.map (·, 1)) s)
  | [], s, _, _, hi => by
    simpa [Visits, visitKids, neededAll, total] using hi
  | k :: ks, s, hf, hb, hi => by
    have hkb : k < b := hb k List.mem_cons_self
    obtain ⟨h1, h2, h3, h4⟩ := hf k List.mem_cons_self s fun m hm hlt => hi m hm (by omega)
    have hi' : Inv D b (f k s).2 := by
      intro m hm hlt
      by_cases hmk : m < k + 1
      · exact h3 m hm hmk
      · rw [h1, Finset.mem_union] at hm
        have hms : m ∈ s.seen := by
          rcases hm with hm | hm
          · exact hm
          · exfalso
            classical
            simp only [needed, Finset.mem_filter, Finset.mem_range] at hm
            omega
        obtain ⟨ha, hc⟩ := hi m hms hlt
        refine ⟨fun c hc' => ?_, ?_⟩
        · rw [h1, Finset.mem_union]; exact Or.inl (ha c hc')
        · rw [h4 m (by omega)]; exact hc
    obtain ⟨g1, g2, g3, g4⟩ := visitKids_spec ks (f k s).2
      (fun c hc => hf c (List.mem_cons_of_mem _ hc)) (fun c hc => hb c (List.mem_cons_of_mem _ hc))
      hi'
    refine ⟨?_, ?_, g3, fun m hm => (g4 m hm).trans (h4 m (by omega))⟩
    · simp only [List.map_cons, visitKids]
      rw [g1, h1, neededAll_cons, Finset.union_assoc]
    · simp only [List.map_cons, visitKids, mul_one]
      rw [h2, g2, neededAll_cons, h1, ← total_union]
      · congr 1
        ext m
        simp only [Finset.mem_union, Finset.mem_sdiff]
        tauto
      · rw [Finset.disjoint_left]
        intro m hm hm'
        simp only [Finset.mem_union, Finset.mem_sdiff] at hm hm'
        tauto

theorem statusKids_eq (n : Node) : n.statusKids = sources n := by
  cases n <;> rfl

theorem sources_sub {n : Node} {k : Nat} (h : k ∈ sources n) : k ∈ children n := by
  cases n <;> simp_all [sources, children] <;> tauto

theorem status_spec {s : St} {n : Nat}
    (h : ∀ k ∈ children (D n), s.sec k = true ↔ Secret D (fun _ => false) k) :
    (D n).status s.sec = true ↔ Secret D (fun _ => false) n := by
  constructor
  · intro hs
    by_cases hl : ∃ b, D n = .leaf b
    · obtain ⟨b, hl⟩ := hl
      rw [hl] at hs
      exact .leaf (by rw [hl]; simpa [Node.status] using hs)
    · have : (D n).statusKids.any s.sec = true := by
        revert hs hl
        cases D n <;> simp [Node.status]
      rw [List.any_eq_true] at this
      obtain ⟨k, hk, hsk⟩ := this
      rw [statusKids_eq] at hk
      exact .step hk ((h k (sources_sub hk)).1 hsk)
  · intro hs
    cases hs with
    | leaf h => rw [h]; rfl
    | var _ h => simp at h
    | step hk hs =>
      have : (D n).statusKids.any s.sec = true := by
        rw [List.any_eq_true, statusKids_eq]
        exact ⟨_, hk, (h _ (sources_sub hk)).2 hs⟩
      revert this hk
      cases D n <;> simp [Node.status, Node.statusKids, sources, children]

theorem own_spec {s : St} {n : Nat}
    (h : ∀ k ∈ children (D n), s.sec k = true ↔ Secret D (fun _ => false) k) :
    (D n).own s.sec = rotations D (fun _ => false) n := by
  unfold rotations
  cases hn : D n with
  | rot x =>
    have := h x (by rw [hn]; simp [children])
    by_cases hc : s.sec x = true
    · simp [Node.own, hc, this.1 hc]
    · simp [Node.own, hc, mt this.2 hc]
  | bulk x k =>
    have := h x (by rw [hn]; simp [children])
    by_cases hc : s.sec x = true
    · simp [Node.own, hc, this.1 hc]
    · simp [Node.own, hc, mt this.2 hc]
  | _ => rfl

theorem finishVisit_spec (hD : Acyclic D) {n : Nat} {s : St} {r : Int × St} (hn : n ∉ s.seen)
    (h : Visits D n (neededAll D (children (D n))) ⟨insert n s.seen, s.sec⟩ r) :
    Visits D (n + 1) (needed D n) s (finishVisit D n r) := by
  obtain ⟨h1, h2, h3, h4⟩ := h
  have hkid : ∀ k ∈ children (D n), r.2.sec k = true ↔ Secret D (fun _ => false) k := by
    intro k hk
    refine (h3 k ?_ (hD _ _ hk)).2
    rw [h1, Finset.mem_union]
    exact Or.inr ((mem_neededAll hD).2 ⟨k, hk, .refl k⟩)
  refine ⟨?_, ?_, ?_, ?_⟩
  · show r.2.seen = _
    rw [h1, needed_eq hD, Finset.insert_union, Finset.union_insert]
  · show r.1 + (D n).own r.2.sec = _
    rw [own_spec hkid, h2, needed_eq hD, Finset.insert_sdiff_of_notMem _ hn, total, total,
      Finset.sum_insert, add_comm]
    · congr 1
      apply Finset.sum_congr _ fun _ _ => rfl
      ext m
      simp only [Finset.mem_sdiff, Finset.mem_insert]
      constructor
      · rintro ⟨a, b⟩; exact ⟨a, fun c => b (Or.inr c)⟩
      · rintro ⟨a, b⟩
        refine ⟨a, ?_⟩
        rintro (rfl | c)
        · exact not_mem_children_needed hD _ a
        · exact b c
    · simp [not_mem_children_needed hD]
  · intro m hm hlt
    show (∀ k ∈ children (D m), k ∈ r.2.seen) ∧ _
    by_cases hmn : m = n
    · subst hmn
      refine ⟨fun k hk => ?_, ?_⟩
      · rw [h1, Finset.mem_union]
        exact Or.inr ((mem_neededAll hD).2 ⟨k, hk, .refl k⟩)
      · show (if m = m then _ else _) = true ↔ _
        rw [if_pos rfl]
        exact status_spec hkid
    · obtain ⟨a, b⟩ := h3 m hm (by omega)
      refine ⟨a, ?_⟩
      show (if m = n then _ else _) = true ↔ _
      rw [if_neg hmn]
      exact b
  · intro m hm
    show (if m = n then _ else _) = _
    rw [if_neg (by omega), h4 m (by omega)]

theorem visit_spec (hD : Acyclic D) :
    ∀ (n fuel : Nat) (s : St), n < fuel → Inv D (n + 1) s →
      (∀ m ∈ needed D n, noLoop (D m) = true) →
      Visits D (n + 1) (needed D n) s (visit D fuel n s) := by
  intro n
  induction n using Nat.strong_induction_on with
  | _ n ih =>
    intro fuel s hf hi hl
    obtain ⟨fuel, rfl⟩ : ∃ g, fuel = g + 1 := ⟨fuel - 1, by omega⟩
    rw [visit]
    by_cases hn : n ∈ s.seen
    · rw [if_pos hn]
      have hsub : needed D n ⊆ s.seen := fun m hm =>
        hi.needed hD (Nat.lt_succ_self n) hn ((mem_needed hD).1 hm)
      refine ⟨(Finset.union_eq_left.2 hsub).symm, ?_, hi, fun _ _ => rfl⟩
      rw [Finset.sdiff_eq_empty_iff_subset.2 hsub]
      rfl
    · rw [if_neg hn, kids_eq (hl n ((mem_needed hD).2 (.refl n)))]
      apply finishVisit_spec hD hn
      apply visitKids_spec
      · intro k hk s' hs'
        refine ih k (hD _ _ hk) fuel s' (by have := hD _ _ hk; omega) hs' fun m hm => hl m ?_
        rw [mem_needed hD] at hm ⊢
        exact .step hk hm
      · exact fun k hk => hD _ _ hk
      · intro m hm hlt
        rcases Finset.mem_insert.1 hm with rfl | hm
        · exact absurd hlt (lt_irrefl _)
        · obtain ⟨a, b⟩ := hi m hm (by omega)
          exact ⟨fun k hk => Finset.mem_insert_of_mem (a k hk), b⟩

theorem Secret.mono {τ : Nat → Bool} (h : ∀ n, σ n = true → τ n = true) {n : Nat}
    (hs : Secret D σ n) : Secret D τ n := by
  induction hs with
  | leaf h => exact .leaf h
  | var h hs => exact .var h (by apply_assumption; exact hs)
  | step hk _ ih => exact .step hk ih

theorem total_vars {s : Finset Nat} (h : VarsDoNotMatter D σ s) :
    total D (fun _ => false) s = total D σ s := by
  apply Finset.sum_congr rfl
  intro m hm
  have := h m hm
  unfold rotations
  cases hn : D m with
  | rot x =>
    have e : Secret D (fun _ => false) x ↔ Secret D σ x :=
      ⟨fun h => h.mono (by simp), this x (by rw [hn]; rfl)⟩
    by_cases hc : Secret D σ x
    · simp [hc, e.2 hc]
    · simp [hc, mt e.1 hc]
  | bulk x k =>
    have e : Secret D (fun _ => false) x ↔ Secret D σ x :=
      ⟨fun h => h.mono (by simp), this x (by rw [hn]; rfl)⟩
    by_cases hc : Secret D σ x
    · simp [hc, e.2 hc]
    · simp [hc, mt e.1 hc]
  | _ => rfl

theorem process_spec (hD : Acyclic D) (n : Nat) (hl : ∀ m ∈ needed D n, noLoop (D m) = true) :
    process D n = total D (fun _ => false) (needed D n) := by
  have := (visit_spec hD n (n + 1) ⟨∅, fun _ => false⟩ (Nat.lt_succ_self n) (by
    intro m hm; simp at hm) hl).2.1
  simpa [process] using this

theorem visitKids_append (f : Nat → St → Int × St) (as bs : List (Nat × Int)) (s : St) :
    visitKids f (as ++ bs) s =
      ((visitKids f as s).1 + (visitKids f bs (visitKids f as s).2).1,
        (visitKids f bs (visitKids f as s).2).2) := by
  induction as generalizing s with
  | nil => simp [visitKids]
  | cons a as ih => simp [visitKids, ih, add_assoc]

theorem process_loop (hD : Acyclic D) {n : Nat} {inits : List Nat} {body : Nat} {l u st : Int}
    (hn : D n = .loop inits body l u st)
    (hl : ∀ m ∈ neededAll D (children (D n)), noLoop (D m) = true)
    (hd : Disjoint (neededAll D inits) (needed D body)) :
    process D n = total D (fun _ => false) (neededAll D inits) +
      total D (fun _ => false) (needed D body) * Int.tdiv (u - l) st := by
  have hc : children (D n) = inits ++ [body] := by rw [hn]; rfl
  have hlt : ∀ k ∈ inits ++ [body], k < n := fun k hk => hD n k (by rw [hc]; exact hk)
  have hv : ∀ k ∈ inits ++ [body], ∀ s, Inv D (k + 1) s →
      Visits D (k + 1) (needed D k) s (visit D n k s) := by
    intro k hk s hs
    refine visit_spec hD k n s (hlt k hk) hs fun m hm => hl m ?_
    rw [hc]
    exact (mem_neededAll hD).2 ⟨k, hk, (mem_needed hD).1 hm⟩
  unfold process
  rw [visit, if_neg (by simp), hn]
  simp only [finishVisit, hn, Node.own, add_zero, Node.kids]
  rw [visitKids_append]
  set s0 : St := ⟨insert n ∅, fun _ => false⟩ with hs0
  have hi0 : Inv D n s0 := by
    intro m hm hlt
    simp [hs0] at hm
    omega
  obtain ⟨a1, a2, a3, a4⟩ := visitKids_spec (f := visit D n) inits s0
    (fun k hk => hv k (List.mem_append_left _ hk)) (fun k hk => hlt k (List.mem_append_left _ hk))
    hi0
  have hb : body ∈ inits ++ [body] := by simp
  have hbi : Inv D (body + 1) (visitKids (visit D n) (inits.map (·, 1)) s0).2 :=
    fun m hm h => a3 m hm (by have := hlt _ hb; omega)
  obtain ⟨b1, b2, b3, b4⟩ := hv body hb _ hbi
  have hn1 : neededAll D inits \ s0.seen = neededAll D inits := by
    rw [Finset.sdiff_eq_self_iff_disjoint, Finset.disjoint_left]
    intro m hm hm'
    simp only [hs0, Finset.mem_insert, Finset.notMem_empty, or_false] at hm'
    subst hm'
    obtain ⟨k, hk, hr⟩ := (mem_neededAll hD).1 hm
    have := hr.le hD
    have := hlt k (List.mem_append_left _ hk)
    omega
  have hn2 : needed D body \ (visitKids (visit D n) (inits.map (·, 1)) s0).2.seen =
      needed D body := by
    rw [Finset.sdiff_eq_self_iff_disjoint, a1, Finset.disjoint_union_right]
    refine ⟨?_, hd.symm⟩
    rw [Finset.disjoint_left]
    intro m hm hm'
    simp only [hs0, Finset.mem_insert, Finset.notMem_empty, or_false] at hm'
    subst hm'
    have := ((mem_needed hD).1 hm).le hD
    have := hlt _ hb
    omega
  rw [a2, hn1]
  simp only [visitKids, add_zero]
  rw [b2, hn2]

end Heir.LayoutOpt
