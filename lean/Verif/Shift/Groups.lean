import Verif.Shift.Rounds

/-! # The rotation groups -/

namespace Heir.Shift

open Heir.Graph

/-- The calls that add the conflicts of a round. -/
def conflictCmds (r : Round) : List (Cmd CtSlot) :=
  (pairs r.positions).flatMap fun q =>
    if q.1.1.source ≠ q.2.1.source ∧ q.1.2 = q.2.2 then [.edge q.1.1.source q.2.1.source] else []

theorem foldl_flatMap {α β γ : Type} (f : γ → β → γ) (h : α → List β) : ∀ (l : List α) (g : γ),
    (l.flatMap h).foldl f g = l.foldl (fun g a => (h a).foldl f g) g := by
  intro l
  induction l with
  | nil => intro g; rfl
  | cons a l ih => intro g; rw [List.flatMap_cons, List.foldl_append, ih]; rfl

theorem conflictGraph_build (mp : Mapping) (rounds : List Round) :
    conflictGraph mp rounds =
      buildU (mp.map (fun e => .vertex e.2) ++ rounds.tail.flatMap conflictCmds) := by
  unfold conflictGraph buildU
  rw [List.foldl_append, List.foldl_map, foldl_flatMap]
  congr 1
  funext g r
  unfold addConflicts conflictCmds
  rw [foldl_flatMap]
  congr 1
  funext g q
  split <;> rfl

theorem mem_pairs {α : Type} {x y : α} : ∀ {l : List α}, x ∈ l → y ∈ l → x ≠ y →
    (x, y) ∈ pairs l ∨ (y, x) ∈ pairs l := by
  intro l
  induction l with
  | nil => intro hx; simp at hx
  | cons a l ih =>
    intro hx hy hne
    simp only [pairs, List.mem_append, List.mem_map, Prod.mk.injEq]
    rcases List.mem_cons.1 hx with rfl | hx' <;> rcases List.mem_cons.1 hy with rfl | hy'
    · exact absurd rfl hne
    · exact Or.inl (Or.inl ⟨y, hy', rfl, rfl⟩)
    · exact Or.inr (Or.inl ⟨x, hx', rfl, rfl⟩)
    · rcases ih hx' hy' hne with h | h
      · exact Or.inl (Or.inr h)
      · exact Or.inr (Or.inr h)

/-- Two sources that meet are in conflict. -/
theorem conflict_adj {mp : Mapping} {rounds : List Round} {r : Round} (hr : r ∈ rounds.tail)
    {k l : SourceShift} {p : CtSlot} (hk : (k, p) ∈ r.positions) (hl : (l, p) ∈ r.positions)
    (hks : k.source ∈ mp.map (·.2)) (hls : l.source ∈ mp.map (·.2)) (hne : k.source ≠ l.source) :
    Adj (mp.map (fun e => .vertex e.2) ++ rounds.tail.flatMap conflictCmds) k.source l.source := by
  have key : ∀ k l : SourceShift, k.source ∈ mp.map (·.2) → l.source ∈ mp.map (·.2) →
      k.source ≠ l.source → ((k, p), (l, p)) ∈ pairs r.positions →
      IsEdge (mp.map (fun e => Cmd.vertex e.2) ++ rounds.tail.flatMap conflictCmds)
        k.source l.source := by
    intro k l hks hls hne hm
    have he : Cmd.edge k.source l.source ∈ rounds.tail.flatMap conflictCmds := by
      refine List.mem_flatMap.2 ⟨r, hr, List.mem_flatMap.2 ⟨_, hm, ?_⟩⟩
      simp [hne]
    obtain ⟨a, b, hab⟩ := List.append_of_mem he
    obtain ⟨e, he1, he2⟩ := List.mem_map.1 hks
    obtain ⟨f, hf1, hf2⟩ := List.mem_map.1 hls
    refine ⟨mp.map (fun e => .vertex e.2) ++ a, b, by rw [hab, List.append_assoc], ?_, ?_⟩
    · exact List.mem_append_left _ (List.mem_map.2 ⟨e, he1, by rw [he2]⟩)
    · exact List.mem_append_left _ (List.mem_map.2 ⟨f, hf1, by rw [hf2]⟩)
  rcases mem_pairs hk hl (fun h => hne (congrArg (fun q => q.1.source) h)) with h | h
  · exact Or.inl (key k l hks hls hne h)
  · exact Or.inr (key l k hls hks hne.symm h)

theorem insertColor_get (groups : List (List CtSlot)) (v : CtSlot) (c d : Nat) (u : CtSlot) :
    u ∈ (insertColor groups v c).getD d [] ↔ u ∈ groups.getD d [] ∨ (u = v ∧ d = c) := by
  have key : ∀ gs : List (List CtSlot), c < gs.length →
      (u ∈ (gs.modify c (v :: ·)).getD d [] ↔ u ∈ gs.getD d [] ∨ (u = v ∧ d = c)) := by
    intro gs hc
    rw [List.getD_eq_getElem?_getD, List.getElem?_modify, List.getD_eq_getElem?_getD]
    by_cases hd : c = d
    · subst hd
      rw [List.getElem?_eq_getElem hc]
      simp [or_comm]
    · simp [hd, Ne.symm hd]
  unfold insertColor
  split
  · rename_i h
    rw [key _ (by simp; omega)]
    rw [List.getD_eq_getElem?_getD, List.getD_eq_getElem?_getD, List.getElem?_append]
    split
    · rfl
    · rename_i h'
      rw [List.getElem?_eq_none (by omega : groups.length ≤ d), List.getElem?_replicate]
      split <;> simp
  · exact key _ (by omega)

theorem insertColor_length (groups : List (List CtSlot)) (v : CtSlot) (c : Nat) :
    groups.length ≤ (insertColor groups v c).length ∧ c < (insertColor groups v c).length := by
  unfold insertColor
  simp only [List.length_modify]
  split <;> simp <;> omega

theorem groups_get (col : CtSlot → Option Nat) : ∀ (vs : List CtSlot) (gs : List (List CtSlot))
    (d : Nat) (u : CtSlot),
    (u ∈ (vs.foldl (addColored col) gs).getD d [] ↔ u ∈ gs.getD d [] ∨ (u ∈ vs ∧ col u = some d)) := by
  intro vs
  induction vs with
  | nil => intro gs d u; simp
  | cons v vs ih =>
    intro gs d u
    rw [List.foldl_cons, ih]
    unfold addColored
    cases hc : col v with
    | none =>
      simp only [List.mem_cons]
      constructor
      · rintro (h | ⟨h1, h2⟩)
        · exact Or.inl h
        · exact Or.inr ⟨Or.inr h1, h2⟩
      · rintro (h | ⟨rfl | h1, h2⟩)
        · exact Or.inl h
        · rw [hc] at h2; simp at h2
        · exact Or.inr ⟨h1, h2⟩
    | some c =>
      simp only [insertColor_get, List.mem_cons]
      constructor
      · rintro ((h | ⟨rfl, rfl⟩) | ⟨h1, h2⟩)
        · exact Or.inl h
        · exact Or.inr ⟨Or.inl rfl, hc⟩
        · exact Or.inr ⟨Or.inr h1, h2⟩
      · rintro (h | ⟨rfl | h1, h2⟩)
        · exact Or.inl (Or.inl h)
        · rw [hc] at h2
          exact Or.inl (Or.inr ⟨rfl, (Option.some.inj h2).symm⟩)
        · exact Or.inr ⟨h1, h2⟩

/-- The groups of `findShiftScheme`: every source is in exactly one of them, and sources that meet
are in different groups. -/
theorem findShiftScheme_ok {m num : Nat} {mp : Mapping} {order : List Nat} {rounds : List Round}
    {pop : List (UGraph.Info CtSlot) → Option (UGraph.Info CtSlot × List (UGraph.Info CtSlot))}
    (hpop : Pops pop) (he : evaluate m num mp order = some rounds) :
    ∃ groups, findShiftScheme pop m num mp order = some (groups, rounds) ∧
      (∀ e ∈ mp, ∃ c < groups.length, e.2 ∈ groups.getD c [] ∧
        ∀ d, e.2 ∈ groups.getD d [] → d = c) ∧
      (∀ r ∈ rounds.tail, ∀ p k l, (k, p) ∈ r.positions → (l, p) ∈ r.positions →
        k.source ∈ mp.map (·.2) → l.source ∈ mp.map (·.2) →
        ∀ c, k.source ∈ groups.getD c [] → l.source ∈ groups.getD c [] → k.source = l.source) := by
  obtain ⟨col, h1, h2, h3⟩ := C40_color
    (mp.map (fun e => .vertex e.2) ++ rounds.tail.flatMap conflictCmds) pop hpop
  rw [← conflictGraph_build] at h1
  have hv : ∀ v, v ∈ (conflictGraph mp rounds).vertices ↔ v ∈ mp.map (·.2) := by
    intro v
    rw [conflictGraph_build, (buildU_describes _).vertex]
    unfold IsVertex
    rw [List.mem_append]
    constructor
    · rintro (h | h)
      · obtain ⟨e, h1, h2⟩ := List.mem_map.1 h
        exact List.mem_map.2 ⟨e, h1, by simpa using h2⟩
      · obtain ⟨r, _, h⟩ := List.mem_flatMap.1 h
        obtain ⟨q, _, h⟩ := List.mem_flatMap.1 h
        split at h <;> simp at h
    · intro h
      obtain ⟨e, h1, h2⟩ := List.mem_map.1 h
      exact Or.inl (List.mem_map.2 ⟨e, h1, by rw [h2]⟩)
  have hfs : findShiftScheme pop m num mp order = some
      ((conflictGraph mp rounds).vertices.foldl (addColored col) [], rounds) := by
    unfold findShiftScheme
    rw [he]
    simp only [Option.bind_eq_bind, Option.bind_some, h1]
  refine ⟨_, hfs, ?_, ?_⟩
  · intro e he
    have hm : e.2 ∈ mp.map (·.2) := List.mem_map.2 ⟨e, he, rfl⟩
    have hvx : IsVertex (mp.map (fun e => .vertex e.2) ++ rounds.tail.flatMap conflictCmds) e.2 :=
      List.mem_append_left _ (List.mem_map.2 ⟨e, he, rfl⟩)
    obtain ⟨k, hk, _⟩ := h2 e.2 hvx
    have hmem : e.2 ∈ ((conflictGraph mp rounds).vertices.foldl (addColored col) []).getD k [] := (groups_get col _ _ _ _).2 (Or.inr ⟨(hv _).2 hm, hk⟩)
    refine ⟨k, ?_, hmem, ?_⟩
    · by_contra hlt
      rw [List.getD_eq_default _ _ (by omega)] at hmem
      simp at hmem
    · intro d hd
      rcases (groups_get col _ _ _ _).1 hd with h | ⟨_, h⟩
      · simp at h
      · rw [hk] at h; exact (Option.some.inj h).symm
  · intro r hr p k l hk hl hks hls c hkc hlc
    by_contra hne
    have hadj := conflict_adj hr hk hl hks hls hne
    have g1 : col k.source = some c := by
      rcases (groups_get col _ _ _ _).1 hkc with h | ⟨_, h⟩
      · simp at h
      · exact h
    have g2 : col l.source = some c := by
      rcases (groups_get col _ _ _ _).1 hlc with h | ⟨_, h⟩
      · simp at h
      · exact h
    exact h3 _ _ hadj hne c c g1 g2 rfl

end Heir.Shift
