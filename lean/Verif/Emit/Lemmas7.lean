import Verif.Emit.Lemmas6

/-! # Every node is visited once -/

namespace Heir.Emit

open Heir.Dag

variable {V O : Type} {D : Heap O}

instance (K : Kind O) : Decidable (Emits K) := by
  cases K <;> simp only [Emits] <;> infer_instance

/-- From the cache `c` to the cache `c'`: `cs` were visited and `k` operations made. -/
structure Delta (D : Heap O) (c c' : Nat → Option (List Nat)) (cs : List Nat) (k : Nat) : Prop where
  new : ∀ m, (c' m).isSome → (c m).isSome ∨ ∃ x ∈ cs, Reach D x m
  old : ∀ m, (c m).isSome → (c' m).isSome
  ch : ∀ x ∈ cs, (c' x).isSome
  clos : (∀ m x, (c m).isSome → Edge D m x → (c x).isSome) →
    ∀ m x, (c' m).isSome → Edge D m x → (c' x).isSome
  list : ∃ L : List Nat, L.Nodup ∧ L.length = k ∧
    ∀ m, m ∈ L ↔ (c' m).isSome ∧ c m = none ∧ Emits (D m)

theorem Delta.refl (c : Nat → Option (List Nat)) : Delta D c c [] 0 :=
  ⟨fun _ h => Or.inl h, fun _ h => h, by simp, fun h => h, [], by simp, rfl, fun m => by
    constructor
    · simp
    · rintro ⟨h, h', _⟩; rw [h'] at h; cases h⟩

/-- Nothing happened: the node was there. -/
theorem Delta.hit {c : Nat → Option (List Nat)} {n : Nat} (h : (c n).isSome) : Delta D c c [n] 0 :=
  { Delta.refl c with
    new := fun _ h => Or.inl h
    ch := by simpa using h }

theorem Delta.trans {c c' c'' : Nat → Option (List Nat)} {cs ds : List Nat} {k j : Nat}
    (h : Delta D c c' cs k) (h' : Delta D c' c'' ds j) : Delta D c c'' (cs ++ ds) (k + j) where
  new := by
    intro m hm
    rcases h'.new m hm with hm | ⟨x, hx, hr⟩
    · rcases h.new m hm with hm | ⟨x, hx, hr⟩
      · exact Or.inl hm
      · exact Or.inr ⟨x, by simp [hx], hr⟩
    · exact Or.inr ⟨x, by simp [hx], hr⟩
  old := fun m hm => h'.old m (h.old m hm)
  ch := by
    intro x hx
    rcases List.mem_append.1 hx with hx | hx
    · exact h'.old x (h.ch x hx)
    · exact h'.ch x hx
  clos := fun hc => h'.clos (h.clos hc)
  list := by
    obtain ⟨L, hn, hl, hL⟩ := h.list
    obtain ⟨L', hn', hl', hL'⟩ := h'.list
    refine ⟨L ++ L', List.nodup_append.2 ⟨hn, hn', ?_⟩, by simp [hl, hl'], ?_⟩
    · rintro m hm m' hm' rfl
      have h1 := ((hL m).1 hm).1
      rw [((hL' m).1 hm').2.1] at h1
      cases h1
    · intro m
      rw [List.mem_append, hL, hL']
      constructor
      · rintro (⟨h1, h2, h3⟩ | ⟨h1, h2, h3⟩)
        · exact ⟨h'.old m h1, h2, h3⟩
        · refine ⟨h1, ?_, h3⟩
          by_contra hc
          have := h.old m (Option.isSome_iff_ne_none.2 hc)
          rw [h2] at this; cases this
      · rintro ⟨h1, h2, h3⟩
        by_cases hc : c' m = none
        · exact Or.inr ⟨h1, hc, h3⟩
        · exact Or.inl ⟨Option.isSome_iff_ne_none.2 hc, h2, h3⟩

theorem Delta.finish {c c' : Nat → Option (List Nat)} {cs ns : List Nat} {k n : Nat}
    (h : Delta D c c' cs k) (hcs : ∀ x, x ∈ cs ↔ Edge D n x) (hn : c' n = none) :
    Delta D c (fun m => if m = n then some ns else c' m) [n]
      (k + if Emits (D n) then 1 else 0) where
  new := by
    intro m hm
    by_cases hmn : m = n
    · subst hmn; exact Or.inr ⟨m, by simp, .refl⟩
    · rcases h.new m (by simpa [hmn] using hm) with hm | ⟨x, hx, hr⟩
      · exact Or.inl hm
      · exact Or.inr ⟨n, by simp, edge_reach ((hcs x).1 hx) hr⟩
  old := by
    intro m hm
    by_cases hmn : m = n
    · simp [hmn]
    · simpa [hmn] using h.old m hm
  ch := by simp
  clos := by
    intro hc m x hm he
    have : (c' x).isSome := by
      by_cases hmn : m = n
      · subst hmn; exact h.ch x ((hcs x).2 he)
      · exact h.clos hc m x (by simpa [hmn] using hm) he
    by_cases hx : x = n
    · simp [hx]
    · simpa [hx] using this
  list := by
    obtain ⟨L, hnd, hl, hL⟩ := h.list
    have hcn : c n = none := by
      by_contra hc
      have := h.old n (Option.isSome_iff_ne_none.2 hc)
      rw [hn] at this; cases this
    have hnL : n ∉ L := by
      intro hm
      have := ((hL n).1 hm).1
      rw [hn] at this; cases this
    by_cases he : Emits (D n)
    · refine ⟨n :: L, List.nodup_cons.2 ⟨hnL, hnd⟩, by simp [he, hl], fun m => ?_⟩
      by_cases hmn : m = n
      · subst hmn; simp [hcn, he]
      · simp [hmn, hL]
    · refine ⟨L, hnd, by simp [he, hl], fun m => ?_⟩
      by_cases hmn : m = n
      · subst hmn; simp [hnL, he]
      · simp [hmn, hL]

theorem visitList_delta {pick : List Nat → Option Nat} {rec : ESt → Nat → Res O} {cs : List Nat}
    (hrec : ∀ c ∈ cs, ∀ s r, rec s c = some r → Delta D s.cache r.2.2.cache [c] (ops r.2.1)) :
    ∀ {s : ESt} {q}, visitList pick rec s cs = some q →
      Delta D s.cache q.2.2.cache cs (ops q.2.1) := by
  induction cs with
  | nil =>
    intro s q h
    simp only [visitList, Option.some.injEq] at h
    subst h
    exact Delta.refl _
  | cons c cs ih =>
    intro s q h
    simp only [visitList, Option.bind_eq_some_iff, Option.map_eq_some_iff] at h
    obtain ⟨r, hr, v, _, q, hq, rfl⟩ := h
    exact (hrec c (by simp) s r hr).trans (ih (fun d hd => hrec d (by simp [hd])) hq)

theorem process_delta (hD : Ordered D) (k : Nat) : ∀ {n : Nat} {s : ESt} {r},
    process D k s n = some r → Delta D s.cache r.2.2.cache [n] (ops r.2.1) := by
  induction k with
  | zero => intro n s r h; cases h
  | succ k ih =>
    intro n s r h
    rw [process] at h
    cases hc : s.cache n with
    | some vs =>
      rw [hc] at h
      simp only [Option.some.injEq] at h
      subst h
      exact Delta.hit (by rw [hc]; rfl)
    | none =>
      rw [hc] at h
      simp only [Option.map_eq_some_iff] at h
      obtain ⟨q, hq, rfl⟩ := h
      have hrec : ∀ c ∈ scopeChildren (D n), ∀ s r, process D k s c = some r →
          Delta D s.cache r.2.2.cache [c] (ops r.2.1) := fun c _ s r hr => ih hr
      have hab : ∀ c ∈ scopeChildren (D n), ∀ s r, process D k s c = some r →
          r.2.2.cache n = s.cache n :=
        fun c hc s r hr => process_above hD k hr n (hD n c (scope_sub_clear hc))
      rw [visit] at hq
      cases hn : D n with
      | pure o cs =>
        rw [hn] at hq hrec hab
        simp only [Option.map_eq_some_iff] at hq
        obtain ⟨p, hp, rfl⟩ := hq
        have := (visitList_delta hrec hp).finish (n := n) (ns := [p.2.2.next])
          (fun x => by simp [Edge, hn, scopeChildren]) ((visitList_above hab hp).trans hc)
        simpa [hn, Emits, visitPure, ops] using this
      | var =>
        rw [hn] at hq
        simp only [Option.map_eq_some_iff] at hq
        obtain ⟨a, _, rfl⟩ := hq
        have := (Delta.refl (D := D) s.cache).finish (n := n) (ns := [a])
          (fun x => by simp [Edge, hn, scopeChildren]) hc
        simpa [hn, Emits, ops] using this
      | ifElse c t e =>
        rw [hn] at hq hrec hab
        simp only [Option.bind_eq_some_iff] at hq
        obtain ⟨p, hp, v, _, hq⟩ := hq
        split at hq
        case isFalse => cases hq
        case isTrue =>
          simp only [visitIf, Option.bind_eq_some_iff, Option.map_eq_some_iff] at hq
          obtain ⟨pt, hpt, pe, hpe, rfl⟩ := hq
          have hmc : c ∈ scopeChildren (.ifElse c t e : Kind O) := by simp [scopeChildren]
          have hmt : t ∈ scopeChildren (.ifElse c t e : Kind O) := by simp [scopeChildren]
          have hme : e ∈ scopeChildren (.ifElse c t e : Kind O) := by simp [scopeChildren]
          have := (((hrec c hmc _ _ hp).trans (hrec t hmt _ _ hpt)).trans (hrec e hme _ _ hpe)).finish
            (n := n) (ns := fresh pe.2.2.next pt.1.length)
            (fun x => by simp [Edge, hn, scopeChildren])
            ((hab e hme _ _ hpe).trans ((hab t hmt _ _ hpt).trans ((hab c hmc _ _ hp).trans hc)))
          simpa [hn, Emits, ops, Nat.add_assoc] using this
      | loop l =>
        rw [hn] at hq hrec hab
        simp only [Option.bind_eq_some_iff] at hq
        obtain ⟨p, hp, hq⟩ := hq
        split at hq
        case isFalse => cases hq
        case isTrue =>
          simp only [visitLoop, Option.map_eq_some_iff] at hq
          obtain ⟨pb, hpb, rfl⟩ := hq
          have hbn : l.body < n := hD n _ (by rw [hn]; exact body_mem_clear l)
          have h2 : Delta D p.2.2.cache pb.2.2.cache [l.body] (ops pb.2.1) := by
            have := ih hpb
            exact this
          have hb2 : pb.2.2.cache n = p.2.2.cache n := process_above hD k hpb n hbn
          have := ((visitList_delta hrec hp).trans h2).finish (n := n)
            (ns := fresh pb.2.2.next p.1.length)
            (fun x => by simp [Edge, hn, scopeChildren]) (hb2.trans ((visitList_above hab hp).trans hc))
          simpa [hn, Emits, ops, Nat.add_assoc] using this
      | yield cs =>
        rw [hn] at hq hrec hab
        have := (visitList_delta hrec hq).finish (n := n) (ns := q.1)
          (fun x => by simp [Edge, hn, scopeChildren]) ((visitList_above hab hq).trans hc)
        simpa [hn, Emits] using this
      | resultAt c i =>
        rw [hn] at hq hrec hab
        simp only [Option.bind_eq_some_iff, Option.map_eq_some_iff] at hq
        obtain ⟨p, hp, x, _, rfl⟩ := hq
        have hmc : c ∈ scopeChildren (.resultAt c i : Kind O) := by simp [scopeChildren]
        have := (hrec c hmc _ _ hp).finish (n := n) (ns := [x])
          (fun x => by simp [Edge, hn, scopeChildren]) ((hab c hmc _ _ hp).trans hc)
        simpa [hn, Emits] using this

end Heir.Emit
