import Verif.LayoutOpt.Lemmas
import Mathlib.Data.List.Forall2
import Mathlib.Tactic.Linarith

/-!
# Lemmas about the cost of a conversion
-/

namespace Heir.LayoutOpt

variable {D : Dag}

/-- The values in the cache have a property. -/
def CacheHas (Q : Nat → Int → Prop) (c : Cache) : Prop := ∀ m v, c m = some v → Q m v

theorem costKids_has {Q : Nat → Int → Prop} {f : Nat → Cache → Option (Int × Cache)} :
    ∀ (ks : List Nat) (c : Cache),
      (∀ k ∈ ks, ∀ c, CacheHas Q c → ∀ r, f k c = some r → Q k r.1 ∧ CacheHas Q r.2) →
      CacheHas Q c → ∀ r, costKids f ks c = some r →
      ∃ vs, List.Forall₂ Q ks vs ∧ r.1 = vs.sum ∧ CacheHas Q r.2
  | [], c, _, hc, r, h => by
    simp only [costKids, Option.some.injEq] at h
    subst h
    exact ⟨[], .nil, rfl, hc⟩
  | k :: ks, c, hf, hc, r, h => by
    simp only [costKids, Option.bind_eq_bind, Option.pure_def, Option.bind_eq_some_iff,
      Option.some.injEq] at h
    obtain ⟨a, ha, b, hb, rfl⟩ := h
    obtain ⟨h1, h2⟩ := hf k List.mem_cons_self c hc a ha
    obtain ⟨vs, h3, h4, h5⟩ := costKids_has ks a.2
      (fun k' hk' => hf k' (List.mem_cons_of_mem _ hk')) h2 b hb
    exact ⟨a.1 :: vs, .cons h1 h3, by simp [h4], h5⟩

theorem costOf_has {Q : Nat → Int → Prop}
    (hQ : ∀ n w vs, (D n).weight = some w → List.Forall₂ Q (D n).operands vs →
      Q n (vs.sum + w)) :
    ∀ (fuel n : Nat) (c : Cache), CacheHas Q c → ∀ r, costOf D fuel n c = some r →
      Q n r.1 ∧ CacheHas Q r.2
  | 0, n, c, _, r, h => by simp [costOf] at h
  | fuel + 1, n, c, hc, r, h => by
    rw [costOf] at h
    cases hcn : c n with
    | some v =>
      simp only [hcn, Option.some.injEq] at h
      subst h
      exact ⟨hc n v hcn, hc⟩
    | none =>
      simp only [hcn, costNew, Option.bind_eq_bind, Option.pure_def, Option.bind_eq_some_iff,
        Option.some.injEq] at h
      obtain ⟨w, hw, a, ha, rfl⟩ := h
      obtain ⟨vs, h1, h2, h3⟩ := costKids_has _ c
        (fun k _ c hc r hr => costOf_has hQ fuel k c hc r hr) hc a ha
      have hq := hQ n w vs hw h1
      rw [← h2] at hq
      refine ⟨hq, fun m v hm => ?_⟩
      simp only at hm
      split at hm
      · next e => simp only [Option.some.injEq] at hm; subst hm e; exact hq
      · exact h3 m v hm

theorem operands_eq {n : Node} (h : plain n = true) : n.operands = children n := by
  cases n <;> first | rfl | simp [plain] at h

theorem weight_isSome {n : Node} : n.weight.isSome = plain n := by
  cases n <;> rfl

theorem weight_eq {n : Node} {w : Int} (h : n.weight = some w) :
    plain n = true ∧ w = if (rotated n).isSome then 1 else 0 := by
  cases n <;> simp_all [Node.weight, plain, rotated]

/-! ### when it is defined -/

theorem costKids_some {f : Nat → Cache → Option (Int × Cache)} :
    ∀ (ks : List Nat) (c : Cache), (∀ k ∈ ks, ∀ c, (f k c).isSome) → (costKids f ks c).isSome
  | [], _, _ => rfl
  | k :: ks, c, hf => by
    obtain ⟨a, ha⟩ := Option.isSome_iff_exists.1 (hf k List.mem_cons_self c)
    obtain ⟨b, hb⟩ := Option.isSome_iff_exists.1
      (costKids_some ks a.2 fun k' hk' => hf k' (List.mem_cons_of_mem _ hk'))
    simp [costKids, ha, hb]

theorem costOf_some (hD : Acyclic D) :
    ∀ (fuel n : Nat) (c : Cache), n < fuel → (∀ m ∈ needed D n, plain (D m) = true) →
      (costOf D fuel n c).isSome
  | 0, _, _, h, _ => by omega
  | fuel + 1, n, c, h, hp => by
    rw [costOf]
    cases hcn : c n with
    | some v => rfl
    | none =>
      have hn := hp n ((mem_needed hD).2 (.refl n))
      obtain ⟨w, hw⟩ := Option.isSome_iff_exists.1 (weight_isSome.trans hn)
      obtain ⟨a, ha⟩ := Option.isSome_iff_exists.1
        (costKids_some (f := costOf D fuel) (D n).operands c fun k hk c => by
          rw [operands_eq hn] at hk
          refine costOf_some hD fuel k c (by have := hD _ _ hk; omega) fun m hm => hp m ?_
          rw [mem_needed hD] at hm ⊢
          exact .step hk hm)
      simp [costNew, hw, ha]

theorem costOf_plain (hD : Acyclic D) {fuel n : Nat} {r : Int × Cache}
    (h : costOf D fuel n (fun _ => none) = some r) : ∀ m ∈ needed D n, plain (D m) = true := by
  refine (costOf_has (Q := fun n _ => ∀ m ∈ needed D n, plain (D m) = true) ?_ fuel n _
    (by intro m v h; simp at h) r h).1
  intro n w vs hw hvs m hm
  have hn := (weight_eq hw).1
  rw [operands_eq hn] at hvs
  rw [needed_eq hD, Finset.mem_insert, mem_neededAll hD] at hm
  rcases hm with rfl | ⟨k, hk, hr⟩
  · exact hn
  · obtain ⟨i, hi, rfl⟩ := List.mem_iff_getElem.1 hk
    exact hvs.get hi (by rw [← hvs.length_eq]; exact hi) m ((mem_needed hD).2 hr)

/-! ### what it is -/

theorem rots_insert {n : Nat} {s : Finset Nat} (h : n ∉ s) :
    rots D (insert n s) = (if (rotated (D n)).isSome then 1 else 0) + rots D s :=
  Finset.sum_insert h

theorem rots_union_le (s t : Finset Nat) : rots D (s ∪ t) ≤ rots D s + rots D t := by
  have h := Finset.sum_union_inter (s₁ := s) (s₂ := t)
    (f := fun m => if (rotated (D m)).isSome then (1 : Int) else 0)
  have : 0 ≤ rots D (s ∩ t) := Finset.sum_nonneg fun m _ => by split <;> simp
  unfold rots at *
  linarith

theorem rots_union_eq {s t : Finset Nat} (hd : ∀ x ∈ s ∩ t, (rotated (D x)).isSome = false) :
    rots D (s ∪ t) = rots D s + rots D t := by
  have h := Finset.sum_union_inter (s₁ := s) (s₂ := t)
    (f := fun m => if (rotated (D m)).isSome then (1 : Int) else 0)
  have : rots D (s ∩ t) = 0 := Finset.sum_eq_zero fun m hm => by simp [hd m hm]
  unfold rots at *
  linarith

theorem rots_needed (hD : Acyclic D) (n : Nat) :
    rots D (needed D n) =
      (if (rotated (D n)).isSome then 1 else 0) + rots D (neededAll D (children (D n))) := by
  rw [needed_eq hD, rots_insert (not_mem_children_needed hD n)]

theorem rots_neededAll_le :
    ∀ (ks : List Nat) (vs : List Int), List.Forall₂ (fun n v => rots D (needed D n) ≤ v) ks vs →
      rots D (neededAll D ks) ≤ vs.sum
  | _, _, .nil => by simp [neededAll, rots]
  | _, _, .cons (a := k) (l₁ := ks) (b := v) (l₂ := vs) h hs => by
    have := rots_neededAll_le ks vs hs
    rw [neededAll_cons, List.sum_cons]
    have := rots_union_le (D := D) (needed D k) (neededAll D ks)
    linarith

theorem costOf_least (hD : Acyclic D) {fuel n : Nat} {r : Int × Cache}
    (h : costOf D fuel n (fun _ => none) = some r) : rots D (needed D n) ≤ r.1 := by
  refine (costOf_has (Q := fun n v => rots D (needed D n) ≤ v) ?_ fuel n _
    (by intro m v h; simp at h) r h).1
  intro n w vs hw hvs
  obtain ⟨hn, rfl⟩ := weight_eq hw
  rw [operands_eq hn] at hvs
  rw [rots_needed hD]
  have := rots_neededAll_le _ _ hvs
  linarith

theorem NoSharing.child (hD : Acyclic D) {n k : Nat} (h : NoSharing D n)
    (hk : k ∈ children (D n)) : NoSharing D k := fun m hm => h m (by
  rw [mem_needed hD] at hm ⊢; exact .step hk hm)

theorem costOf_exact (hD : Acyclic D) {fuel n : Nat} {r : Int × Cache} (hs : NoSharing D n)
    (h : costOf D fuel n (fun _ => none) = some r) : r.1 = rots D (needed D n) := by
  refine (costOf_has (Q := fun n v => NoSharing D n → v = rots D (needed D n)) ?_ fuel n _
    (by intro m v h; simp at h) r h).1 hs
  intro n w vs hw hvs hs
  obtain ⟨hn, rfl⟩ := weight_eq hw
  rw [operands_eq hn] at hvs
  rw [rots_needed hD, add_comm]
  congr 1
  have hc := fun k hk => NoSharing.child hD (k := k) hs hk
  have hm := hs n ((mem_needed hD).2 (.refl n))
  clear hw
  revert hn hvs hc hm
  cases D n with
  | leaf _ => intro hvs _; cases hvs; simp [neededAll, rots, children]
  | const => intro hvs _; cases hvs; simp [neededAll, rots, children]
  | bin l r =>
    intro hvs _ hc hm
    simp only [children] at *
    cases hvs with
    | cons h1 hvs =>
      cases hvs with
      | cons h2 hvs =>
        cases hvs
        have e1 := h1 (hc l (by simp))
        have e2 := h2 (hc r (by simp))
        have := rots_union_eq (hm l r rfl)
        simp only [neededAll_cons]
        simp [neededAll, e1, e2, this]
  | rot x =>
    intro hvs _ hc _
    simp only [children] at *
    cases hvs with
    | cons h1 hvs =>
      cases hvs
      have e1 := h1 (hc x (by simp))
      simp only [neededAll_cons]
      simp [neededAll, e1]
  | _ => intro _ hn; simp [plain] at hn

theorem groupCost_least (hD : Acyclic D) :
    ∀ (vs : List Nat) (c : Int), groupCost D vs = some c → rots D (neededAll D vs) ≤ c
  | [], c, h => by
    simp only [groupCost, Option.some.injEq] at h
    subst h
    simp [neededAll, rots]
  | v :: vs, c, h => by
    simp only [groupCost, Option.bind_eq_bind, Option.pure_def, Option.bind_eq_some_iff,
      Option.some.injEq] at h
    obtain ⟨a, ha, b, hb, rfl⟩ := h
    have h1 := costOf_least hD ha
    have h2 := groupCost_least hD vs b hb
    rw [neededAll_cons]
    have := rots_union_le (D := D) (needed D v) (neededAll D vs)
    linarith

theorem groupCost_exact (hD : Acyclic D) :
    ∀ (vs : List Nat) (c : Int), (∀ v ∈ vs, NoSharing D v) → OutputsApart D vs →
      groupCost D vs = some c → c = rots D (neededAll D vs)
  | [], c, _, _, h => by
    simp only [groupCost, Option.some.injEq] at h
    subst h
    simp [neededAll, rots]
  | v :: vs, c, hs, ho, h => by
    simp only [groupCost, Option.bind_eq_bind, Option.pure_def, Option.bind_eq_some_iff,
      Option.some.injEq] at h
    obtain ⟨a, ha, b, hb, rfl⟩ := h
    have h1 := costOf_exact hD (hs v List.mem_cons_self) ha
    have h2 := groupCost_exact hD vs b (fun v hv => hs v (List.mem_cons_of_mem _ hv)) ho.2 hb
    rw [neededAll_cons, rots_union_eq ho.1, h1, h2]

theorem groupCost_some (hD : Acyclic D) :
    ∀ vs : List Nat, (groupCost D vs).isSome ↔ ∀ m ∈ neededAll D vs, plain (D m) = true
  | [] => by simp [groupCost, neededAll]
  | v :: vs => by
    have ih := groupCost_some hD vs
    rw [neededAll_cons]
    constructor
    · intro h m hm
      obtain ⟨c, hc⟩ := Option.isSome_iff_exists.1 h
      simp only [groupCost, Option.bind_eq_bind, Option.pure_def, Option.bind_eq_some_iff,
        Option.some.injEq] at hc
      obtain ⟨a, ha, b, hb, -⟩ := hc
      rcases Finset.mem_union.1 hm with hm | hm
      · exact costOf_plain hD ha m hm
      · exact ih.1 (by simp [hb]) m hm
    · intro h
      obtain ⟨a, ha⟩ := Option.isSome_iff_exists.1
        (costOf_some hD (v + 1) v (fun _ => none) (Nat.lt_succ_self v) fun m hm =>
          h m (Finset.mem_union_left _ hm))
      obtain ⟨b, hb⟩ := Option.isSome_iff_exists.1
        (ih.2 fun m hm => h m (Finset.mem_union_right _ hm))
      simp [groupCost, ha, hb]

theorem conversionCost_cases : ∀ (gs : List (List Nat)) (c : Int), conversionCost D gs = some c →
    (∀ g ∈ gs, ∃ a, groupCost D g = some a ∧ a ≤ c) ∧
      (c = 0 ∨ ∃ g ∈ gs, groupCost D g = some c) ∧ 0 ≤ c
  | [], c, h => by
    simp only [conversionCost, Option.some.injEq] at h
    subst h
    simp
  | g :: gs, c, h => by
    simp only [conversionCost, Option.bind_eq_bind, Option.pure_def, Option.bind_eq_some_iff,
      Option.some.injEq] at h
    obtain ⟨a, ha, b, hb, rfl⟩ := h
    obtain ⟨h1, h2, h3⟩ := conversionCost_cases gs b hb
    refine ⟨?_, ?_, h3.trans (le_max_right _ _)⟩
    · intro x hx
      rcases List.mem_cons.1 hx with rfl | hx
      · exact ⟨a, ha, le_max_left _ _⟩
      · obtain ⟨y, hy, hle⟩ := h1 x hx
        exact ⟨y, hy, hle.trans (le_max_right _ _)⟩
    · rcases max_choice a b with e | e
      · rw [e]
        exact Or.inr ⟨g, List.mem_cons_self, ha⟩
      · rw [e]
        rcases h2 with h2 | ⟨x, hx, h2⟩
        · exact Or.inl h2
        · exact Or.inr ⟨x, List.mem_cons_of_mem _ hx, h2⟩

/-! ### the network in rounds -/

theorem network_acyclic : Acyclic network := by
  intro n k hk
  unfold network at hk
  split at hk
  · simp [children] at hk
  · split at hk <;> simp [children] at hk <;> omega

theorem network_round (j : Nat) :
    network (6 * j + 1) = .const ∧ network (6 * j + 2) = .bin (6 * j) (6 * j + 1) ∧
    network (6 * j + 3) = .const ∧ network (6 * j + 4) = .bin (6 * j) (6 * j + 3) ∧
    network (6 * j + 5) = .rot (6 * j + 4) ∧
    network (6 * j + 6) = .bin (6 * j + 2) (6 * j + 5) := by
  refine ⟨?_, ?_, ?_, ?_, ?_, ?_⟩ <;>
    simp [network, Nat.add_mod, Nat.mul_mod_right]

/-- What the visitor counts for the nodes of the network. -/
def networkCount (n : Nat) : Int :=
  match n % 6 with
  | 1 => 0
  | 3 => 0
  | 5 => 2 ^ (n / 6)
  | _ => 2 ^ (n / 6) - 1

theorem networkCount_round (j : Nat) :
    networkCount (6 * j) = 2 ^ j - 1 ∧ networkCount (6 * j + 1) = 0 ∧
    networkCount (6 * j + 2) = 2 ^ j - 1 ∧ networkCount (6 * j + 3) = 0 ∧
    networkCount (6 * j + 4) = 2 ^ j - 1 ∧ networkCount (6 * j + 5) = 2 ^ j ∧
    networkCount (6 * j + 6) = 2 ^ (j + 1) - 1 := by
  have h : ∀ i, i < 6 → (6 * j + i) % 6 = i ∧ (6 * j + i) / 6 = j := by intro i hi; omega
  refine ⟨?_, ?_, ?_, ?_, ?_, ?_, ?_⟩
  · have := h 0 (by omega); simp only [networkCount, add_zero] at *; simp only [this]
  · simp only [networkCount, (h 1 (by omega)).1]
  · simp only [networkCount, h 2 (by omega)]
  · simp only [networkCount, (h 3 (by omega)).1]
  · simp only [networkCount, h 4 (by omega)]
  · simp only [networkCount, h 5 (by omega)]
  · have h6 : (6 * j + 6) % 6 = 0 := by omega
    have h7 : (6 * j + 6) / 6 = j + 1 := by omega
    simp only [networkCount, h6, h7]

theorem network_cost {n fuel : Nat} {r : Int × Cache}
    (h : costOf network fuel n (fun _ => none) = some r) : r.1 = networkCount n := by
  refine (costOf_has (Q := fun n v => v = networkCount n) ?_ fuel n _
    (by intro m v h; simp at h) r h).1
  intro n w vs hw hvs
  obtain rfl | ⟨j, hj⟩ : n = 0 ∨ ∃ j, n = 6 * j + 1 ∨ n = 6 * j + 2 ∨ n = 6 * j + 3 ∨
      n = 6 * j + 4 ∨ n = 6 * j + 5 ∨ n = 6 * j + 6 := by
    rcases Nat.eq_zero_or_pos n with h | h
    · exact Or.inl h
    · exact Or.inr ⟨(n - 1) / 6, by omega⟩
  · cases hvs
    simp only [network, if_pos, Node.weight, Option.some.injEq] at hw
    simp [← hw, networkCount]
  · obtain ⟨e1, e2, e3, e4, e5, e6⟩ := network_round j
    obtain ⟨c0, c1, c2, c3, c4, c5, c6⟩ := networkCount_round j
    rcases hj with rfl | rfl | rfl | rfl | rfl | rfl
    · rw [e1] at hw hvs
      cases hvs
      simp only [Node.weight, Option.some.injEq] at hw
      simp [← hw, c1]
    · rw [e2] at hw hvs
      cases hvs with
      | cons h1 hvs => cases hvs with
        | cons h2 hvs =>
          cases hvs
          simp only [Node.weight, Option.some.injEq] at hw
          simp [← hw, h1, h2, c0, c1, c2]
    · rw [e3] at hw hvs
      cases hvs
      simp only [Node.weight, Option.some.injEq] at hw
      simp [← hw, c3]
    · rw [e4] at hw hvs
      cases hvs with
      | cons h1 hvs => cases hvs with
        | cons h2 hvs =>
          cases hvs
          simp only [Node.weight, Option.some.injEq] at hw
          simp [← hw, h1, h2, c0, c3, c4]
    · rw [e5] at hw hvs
      cases hvs with
      | cons h1 hvs =>
        cases hvs
        simp only [Node.weight, Option.some.injEq] at hw
        simp [← hw, h1, c4, c5]
    · rw [e6] at hw hvs
      cases hvs with
      | cons h1 hvs => cases hvs with
        | cons h2 hvs =>
          cases hvs
          simp only [Node.weight, Option.some.injEq] at hw
          simp only [← hw, h1, h2, c2, c5, c6, List.sum_cons, List.sum_nil, pow_succ]
          ring

theorem network_rots (k : Nat) : rots network (needed network (6 * k)) = k := by
  induction k with
  | zero =>
    rw [rots_needed network_acyclic]
    simp [network, rotated, children, neededAll, rots]
  | succ j ih =>
    obtain ⟨e1, e2, e3, e4, e5, e6⟩ := network_round j
    have hn := needed_eq network_acyclic
    have hle : ∀ m ∈ needed network (6 * j), m ≤ 6 * j := fun m hm =>
      ((mem_needed network_acyclic).1 hm).le network_acyclic
    have : needed network (6 * j + 6) =
        insert (6 * j + 6) (insert (6 * j + 5) (insert (6 * j + 4) (insert (6 * j + 3)
          (insert (6 * j + 2) (insert (6 * j + 1) (needed network (6 * j))))))) := by
      rw [hn (6 * j + 6), e6]
      simp only [children, neededAll_cons]
      rw [hn (6 * j + 5), e5]
      simp only [children, neededAll_cons]
      rw [hn (6 * j + 4), e4]
      simp only [children, neededAll_cons]
      rw [hn (6 * j + 3), e3, hn (6 * j + 2), e2]
      simp only [children, neededAll_cons]
      rw [hn (6 * j + 1), e1]
      simp only [children]
      ext m
      simp [neededAll]
    have h1 : ∀ i, 0 < i → 6 * j + i ∉ needed network (6 * j) := fun i hi hm => by
      have := hle _ hm; omega
    rw [show 6 * (j + 1) = 6 * j + 6 by ring, this]
    rw [rots_insert, rots_insert, rots_insert, rots_insert, rots_insert, rots_insert, ih, e1, e2,
      e3, e4, e5, e6]
    · simp [rotated, add_comm]
    all_goals simp [h1]

end Heir.LayoutOpt
