import Verif.Graph.Lemmas
import Mathlib.Algebra.BigOperators.Group.List.Basic

/-! # The greedy colouring -/

namespace Heir.Graph

open UGraph

variable {V : Type} [LinearOrder V]

/-- The history of an undirected graph. -/
structure UDescribes (cmds : List (Cmd V)) (g : UGraph V) : Prop where
  sortedV : g.vertices.Pairwise (· < ·)
  sortedE : ∀ v, (g.edges v).Pairwise (· < ·)
  vertex : ∀ v, v ∈ g.vertices ↔ IsVertex cmds v
  edge : ∀ s t, t ∈ g.edges s ↔ Adj cmds s t
  ends : ∀ s t, t ∈ g.edges s → s ∈ g.vertices ∧ t ∈ g.vertices

theorem buildU_append (cmds : List (Cmd V)) (c : Cmd V) :
    buildU (cmds ++ [c]) = match c with
      | .vertex v => (buildU cmds).addVertex v
      | .edge s t => ((buildU cmds).addEdge s t).1 := by
  cases c <;> simp only [buildU, List.foldl_append, List.foldl_cons, List.foldl_nil]

theorem buildU_describes (cmds : List (Cmd V)) : UDescribes cmds (buildU cmds) := by
  induction cmds using List.reverseRecOn with
  | nil =>
    refine ⟨List.Pairwise.nil, fun _ => List.Pairwise.nil, ?_, ?_, ?_⟩
    · intro v; simp [buildU, UGraph.empty, IsVertex]
    · intro s t; simp [buildU, UGraph.empty, Adj, IsEdge]
    · intro s t h; simp [buildU, UGraph.empty] at h
  | append_singleton cmds c ih =>
    obtain ⟨h1, h2, h6, h7, h4⟩ := ih
    rw [buildU_append]
    cases c with
    | vertex v =>
      refine ⟨sorted_ins h1, h2, ?_, ?_, ?_⟩
      · intro u
        rw [isVertex_append, ← h6]
        simp only [UGraph.addVertex, mem_ins, Cmd.vertex.injEq]
        tauto
      · intro s t
        simp only [Adj, isEdge_append]
        rw [show t ∈ ((buildU cmds).addVertex v).edges s ↔ t ∈ (buildU cmds).edges s from Iff.rfl, h7]
        simp [Adj]
      · intro s t h
        obtain ⟨ha, hb⟩ := h4 s t h
        exact ⟨mem_ins.2 (Or.inr ha), mem_ins.2 (Or.inr hb)⟩
    | edge a b =>
      simp only [UGraph.addEdge]
      split
      · rename_i hab
        refine ⟨h1, h2, ?_, ?_, h4⟩
        · intro u
          rw [isVertex_append, ← h6]
          simp
        · intro s t
          rw [h7]
          simp only [Adj, isEdge_append, ← h6, Cmd.edge.injEq]
          constructor
          · rintro (h | h)
            · exact Or.inl (Or.inl h)
            · exact Or.inr (Or.inl h)
          · rintro ((h | ⟨⟨rfl, rfl⟩, h⟩) | (h | ⟨⟨rfl, rfl⟩, h⟩)) <;> tauto
      · rename_i hab
        have ha : a ∈ (buildU cmds).vertices := by tauto
        have hb : b ∈ (buildU cmds).vertices := by tauto
        have hmem : ∀ s t, t ∈ upd (upd (buildU cmds).edges a (ins b ((buildU cmds).edges a))) b
            (ins a (upd (buildU cmds).edges a (ins b ((buildU cmds).edges a)) b)) s ↔
            t ∈ (buildU cmds).edges s ∨ (s = a ∧ t = b) ∨ (s = b ∧ t = a) := by
          intro s t
          by_cases hs : s = b
          · subst hs
            rw [upd_same, mem_ins]
            by_cases hs' : s = a
            · subst hs'; rw [upd_same, mem_ins]; tauto
            · rw [upd_ne _ _ hs']; tauto
          · rw [upd_ne _ _ hs]
            by_cases hs' : s = a
            · subst hs'; rw [upd_same, mem_ins]; tauto
            · rw [upd_ne _ _ hs']; tauto
        refine ⟨h1, ?_, ?_, ?_, ?_⟩
        · intro v
          have h3 : ∀ v, (upd (buildU cmds).edges a (ins b ((buildU cmds).edges a)) v).Pairwise
              (· < ·) := by
            intro v
            by_cases hv : v = a
            · subst hv; simpa using sorted_ins (h2 v)
            · simpa [upd_ne _ _ hv] using h2 v
          by_cases hv : v = b
          · subst hv; simpa using sorted_ins (h3 v)
          · simpa [upd_ne _ _ hv] using h3 v
        · intro u
          rw [isVertex_append, ← h6]
          simp
        · intro s t
          rw [hmem, h7]
          simp only [Adj, isEdge_append, ← h6, Cmd.edge.injEq]
          constructor
          · rintro ((h | h) | ⟨rfl, rfl⟩ | ⟨rfl, rfl⟩)
            · exact Or.inl (Or.inl h)
            · exact Or.inr (Or.inl h)
            · exact Or.inl (Or.inr ⟨⟨rfl, rfl⟩, ha, hb⟩)
            · exact Or.inr (Or.inr ⟨⟨rfl, rfl⟩, ha, hb⟩)
          · rintro ((h | ⟨⟨rfl, rfl⟩, _⟩) | (h | ⟨⟨rfl, rfl⟩, _⟩)) <;> tauto
        · intro s t h
          rcases (hmem s t).1 h with h | ⟨rfl, rfl⟩ | ⟨rfl, rfl⟩
          · exact h4 s t h
          · exact ⟨ha, hb⟩
          · exact ⟨hb, ha⟩

theorem popMax_pops : Pops (popMax (V := V)) := by
  refine ⟨rfl, fun q => ?_⟩
  induction q with
  | nil => simp
  | cons a l ih =>
    intro _
    simp only [popMax]
    cases hl : popMax l with
    | none =>
      refine ⟨a, l, by simp, List.Perm.refl _⟩
    | some p =>
      obtain ⟨b, l'⟩ := p
      have hne : l ≠ [] := by rintro rfl; simp [popMax] at hl
      obtain ⟨x, r, h1, h2⟩ := ih hne
      rw [hl] at h1
      obtain ⟨rfl, rfl⟩ : b = x ∧ l' = r := by simpa using h1
      simp only
      split
      · exact ⟨b, a :: l', rfl, (h2.cons a).trans (List.Perm.swap b a l')⟩
      · exact ⟨a, l, rfl, List.Perm.refl _⟩

/-! ## The smallest free colour -/

theorem firstFree_spec (used : List Nat) : ∀ (k c : Nat),
    (∀ j, c ≤ j → j < firstFree used k c → j ∈ used) ∧ firstFree used k c ≤ c + k ∧
    c ≤ firstFree used k c ∧ (firstFree used k c ∈ used → firstFree used k c = c + k) := by
  intro k
  induction k with
  | zero =>
    intro c
    simp only [firstFree]
    exact ⟨fun j h1 h2 => absurd h2 (by omega), by omega, le_refl _, fun _ => by omega⟩
  | succ k ih =>
    intro c
    simp only [firstFree]
    split
    · rename_i hc
      obtain ⟨h1, h2, h3, h4⟩ := ih (c + 1)
      refine ⟨?_, by omega, by omega, fun h => by rw [h4 h]; omega⟩
      intro j hj1 hj2
      by_cases hjc : j = c
      · exact hjc ▸ hc
      · exact h1 j (by omega) hj2
    · rename_i hc
      exact ⟨fun j h1 h2 => absurd h2 (by omega), by omega, le_refl _, fun h => absurd h hc⟩

theorem firstFree_ok (used : List Nat) :
    firstFree used used.length 0 ∉ used ∧ firstFree used used.length 0 ≤ used.length := by
  obtain ⟨h1, h2, _, h4⟩ := firstFree_spec used used.length 0
  refine ⟨fun h => ?_, by omega⟩
  have e := h4 h
  have hsub : List.range (used.length + 1) ⊆ used := by
    intro j hj
    rw [List.mem_range] at hj
    by_cases hj' : j = used.length
    · subst hj'
      rw [Nat.zero_add] at e
      rw [e] at h; exact h
    · exact h1 j (by omega) (by omega)
  have := (List.nodup_range.subperm hsub).length_le
  simp at this

/-! ## The invariant -/

/-- The queue contains the current information of a vertex. -/
def Queued (c : Colouring V) (v : V) : Prop :=
  ∃ i ∈ c.queue, c.saturations v = some i ∧ i.vertex = v

structure CInv (g : UGraph V) (c : Colouring V) : Prop where
  proper : ∀ u v k, v ∈ g.edges u → u ≠ v → c.colors u = some k → c.colors v ≠ some k
  seen : ∀ v, c.colors v = none → ∀ k,
    k ∈ c.neighborColors v ↔ ∃ u ∈ g.edges v, u ≠ v ∧ c.colors u = some k
  nodup : ∀ v, (c.neighborColors v).Pairwise (· < ·)
  queued : ∀ v ∈ g.vertices, c.colors v = none → Queued c v
  queue : ∀ i ∈ c.queue, i.vertex ∈ g.vertices
  bound : ∀ v k, c.colors v = some k → k ≤ ((g.edges v).filter (· ≠ v)).length

/-- Remaining work. -/
def work (g : UGraph V) (c : Colouring V) : Nat :=
  c.queue.length +
    (g.vertices.map fun v => if c.colors v = none then (g.incident v).length else 0).sum

theorem updateSaturation_colors (g : UGraph V) (c : Colouring V) (u : V) :
    (updateSaturation g c u).colors = c.colors := rfl

theorem queued_updateSaturation (g : UGraph V) (c : Colouring V) (u v : V)
    (h : u = v ∨ Queued c v) : Queued (updateSaturation g c u) v := by
  by_cases huv : v = u
  · subst huv
    exact ⟨_, List.mem_cons_self, upd_same _ _ _, rfl⟩
  · obtain ⟨i, hi, hs, hv⟩ := h.resolve_left fun h => huv h.symm
    exact ⟨i, List.mem_cons_of_mem _ hi, by simpa [updateSaturation, upd_ne _ _ huv] using hs, hv⟩

theorem init_ok (g : UGraph V) (L : List V) (c : Colouring V) :
    (L.foldl (updateSaturation g) c).colors = c.colors ∧
    (L.foldl (updateSaturation g) c).neighborColors = c.neighborColors ∧
    (L.foldl (updateSaturation g) c).queue.length = c.queue.length + L.length ∧
    (∀ i ∈ (L.foldl (updateSaturation g) c).queue, i ∈ c.queue ∨ i.vertex ∈ L) ∧
    (∀ v, v ∈ L ∨ Queued c v → Queued (L.foldl (updateSaturation g) c) v) := by
  induction L generalizing c with
  | nil => simp
  | cons u L ih =>
    obtain ⟨h1, h2, h3, h4, h5⟩ := ih (updateSaturation g c u)
    refine ⟨h1, h2, by rw [List.foldl_cons, h3]; simp [updateSaturation]; omega, ?_, ?_⟩
    · intro i hi
      rcases h4 i hi with h | h
      · rcases List.mem_cons.1 h with rfl | h
        · exact Or.inr (List.mem_cons_self)
        · exact Or.inl h
      · exact Or.inr (List.mem_cons_of_mem _ h)
    · intro v hv
      apply h5
      rcases hv with hv | hv
      · rcases List.mem_cons.1 hv with rfl | hv
        · exact Or.inr (queued_updateSaturation g c v v (Or.inl rfl))
        · exact Or.inl hv
      · exact Or.inr (queued_updateSaturation g c u v (Or.inr hv))

theorem neighbors_ok (g : UGraph V) (k : Nat) (L : List V) (c : Colouring V)
    (hL : ∀ u ∈ L, u ∈ g.vertices) (hs : ∀ v, (c.neighborColors v).Pairwise (· < ·))
    (hq : ∀ i ∈ c.queue, i.vertex ∈ g.vertices) :
    (L.foldl (updateNeighbor g k) c).colors = c.colors ∧
    (∀ v j, j ∈ (L.foldl (updateNeighbor g k) c).neighborColors v ↔
      j ∈ c.neighborColors v ∨ (j = k ∧ v ∈ L ∧ c.colors v = none)) ∧
    (∀ v, ((L.foldl (updateNeighbor g k) c).neighborColors v).Pairwise (· < ·)) ∧
    (L.foldl (updateNeighbor g k) c).queue.length ≤ c.queue.length + L.length ∧
    (∀ i ∈ (L.foldl (updateNeighbor g k) c).queue, i.vertex ∈ g.vertices) ∧
    (∀ v, Queued c v → Queued (L.foldl (updateNeighbor g k) c) v) := by
  induction L generalizing c with
  | nil => simpa using ⟨hs, hq⟩
  | cons u L ih =>
    by_cases hu : c.colors u = none
    · have e : updateNeighbor g k c u = updateSaturation g { c with neighborColors :=
          (upd c.neighborColors u (ins k (c.neighborColors u))) } u := by
        simp [updateNeighbor, hu]
      obtain ⟨h1, h2, h3, h4, h5, h6⟩ := ih (updateNeighbor g k c u)
        (fun w hw => hL w (List.mem_cons_of_mem _ hw))
        (by
          rw [e]
          intro v
          simp only [updateSaturation]
          by_cases hv : v = u
          · subst hv; rw [upd_same]; exact sorted_ins (hs v)
          · rw [upd_ne _ _ hv]; exact hs v)
        (by
          rw [e]
          intro i hi
          rcases List.mem_cons.1 hi with rfl | hi
          · exact hL u List.mem_cons_self
          · exact hq i hi)
      have e1 : (updateNeighbor g k c u).colors = c.colors := by rw [e]; rfl
      rw [e1] at h1 h2
      refine ⟨h1, ?_, h3, ?_, h5, ?_⟩
      · intro v j
        rw [List.foldl_cons, h2]
        rw [e]
        simp only [updateSaturation]
        by_cases hv : v = u
        · subst hv
          rw [upd_same, mem_ins]
          simp only [List.mem_cons, true_or, true_and]
          tauto
        · rw [upd_ne _ _ hv]
          simp [hv]
      · rw [List.foldl_cons]
        refine h4.trans ?_
        rw [e]
        simp [updateSaturation]
        omega
      · intro v hv
        rw [List.foldl_cons]
        apply h6
        rw [e]
        exact queued_updateSaturation g _ u v (Or.inr hv)
    · have e : updateNeighbor g k c u = c := by
        cases h : c.colors u with
        | none => exact absurd h hu
        | some x => simp [updateNeighbor, h]
      obtain ⟨h1, h2, h3, h4, h5, h6⟩ := ih c (fun w hw => hL w (List.mem_cons_of_mem _ hw)) hs hq
      rw [List.foldl_cons, e]
      refine ⟨h1, ?_, h3, by simp; omega, h5, h6⟩
      intro v j
      rw [h2]
      constructor
      · rintro (h | ⟨ha, hb, hc⟩)
        · exact Or.inl h
        · exact Or.inr ⟨ha, List.mem_cons_of_mem _ hb, hc⟩
      · rintro (h | ⟨ha, hb, hc⟩)
        · exact Or.inl h
        · rcases List.mem_cons.1 hb with rfl | hb
          · exact absurd hc hu
          · exact Or.inr ⟨ha, hb, hc⟩

theorem sum_drop {L : List V} (hn : L.Nodup) {x : V} (hx : x ∈ L) (f f' : V → Nat)
    (h0 : f' x = 0) (hne : ∀ v, v ≠ x → f' v = f v) : (L.map f').sum + f x = (L.map f).sum := by
  induction L with
  | nil => simp at hx
  | cons a L ih =>
    rw [List.nodup_cons] at hn
    rcases List.mem_cons.1 hx with rfl | hx
    · have : L.map f' = L.map f := by
        apply List.map_congr_left
        intro v hv
        exact hne v (by rintro rfl; exact hn.1 hv)
      simp only [List.map_cons, List.sum_cons, this, h0]
      omega
    · have ha : a ≠ x := by rintro rfl; exact hn.1 hx
      simp only [List.map_cons, List.sum_cons, hne a ha]
      have := ih hn.2 hx
      omega

theorem colorLoop_ok {cmds : List (Cmd V)} {g : UGraph V} (hg : UDescribes cmds g)
    {pop : List (Info V) → Option (Info V × List (Info V))} (hpop : Pops pop) :
    ∀ (fuel : Nat) (c : Colouring V), CInv g c → work g c < fuel →
    ∃ c', colorLoop g pop fuel c = some c' ∧ CInv g c' ∧ c'.queue = [] := by
  intro fuel
  induction fuel with
  | zero => intro c _ h; omega
  | succ fuel ih =>
    intro c hc hw
    by_cases hq : c.queue = []
    · refine ⟨c, ?_, hc, hq⟩
      simp [colorLoop, hq, hpop.1]
    · obtain ⟨cur, q, hp, hperm⟩ := hpop.2 c.queue hq
      have hlen := hperm.length_eq
      rw [List.length_cons] at hlen
      have hqv : ∀ i ∈ q, i.vertex ∈ g.vertices := fun i hi =>
        hc.queue i (hperm.mem_iff.2 (List.mem_cons_of_mem _ hi))
      have hcurv : cur.vertex ∈ g.vertices := hc.queue cur (hperm.mem_iff.2 List.mem_cons_self)
      simp only [colorLoop, hp]
      split
      · -- skipped
        rename_i hskip
        apply ih
        · refine ⟨hc.proper, hc.seen, hc.nodup, ?_, hqv, hc.bound⟩
          intro v hv hn
          obtain ⟨i, hi, hs, hiv⟩ := hc.queued v hv hn
          rcases List.mem_cons.1 (hperm.mem_iff.1 hi) with rfl | hi
          · exfalso
            rw [hiv, hn, hs] at hskip
            simp [stale] at hskip
          · exact ⟨i, hi, hs, hiv⟩
        · unfold work at hw ⊢
          simp only
          omega
      · -- coloured
        rename_i hskip
        have hnone : c.colors cur.vertex = none := by
          cases h : c.colors cur.vertex with
          | none => rfl
          | some k => rw [h] at hskip; simp at hskip
        set x := cur.vertex with hx
        set used := c.neighborColors x with hused
        set k := firstFree used used.length 0 with hk
        obtain ⟨hfree, hle⟩ := firstFree_ok used
        rw [← hk] at hfree hle
        have hinc : g.incident x = g.edges x := by simp [incident, hcurv]
        obtain ⟨h1, h2, h3, h4, h5, h6⟩ := neighbors_ok g k (g.incident x)
          ⟨upd c.colors x (some k), c.neighborColors, c.saturations, q⟩
          (by rw [hinc]; intro u hu; exact (hg.ends x u hu).2) hc.nodup hqv
        simp only at h1 h2 h4 h6
        rw [hinc] at h1 h2 h3 h4 h5 h6 ⊢
        have hsym : ∀ u v, v ∈ g.edges u → u ∈ g.edges v := by
          intro u v h
          rw [hg.edge] at h ⊢
          exact Or.symm h
        have hcol : ∀ u, u ≠ x → upd c.colors x (some k) u = c.colors u := fun u hu => upd_ne _ _ hu
        apply ih
        · refine ⟨?_, ?_, h3, ?_, ?_, ?_⟩
          · intro u v j hv huv hu
            rw [h1] at hu ⊢
            by_cases hux : u = x
            · subst hux
              rw [upd_same] at hu
              rw [hcol v (Ne.symm huv)]
              intro hvj
              have : j ∈ used := (hc.seen x hnone j).2 ⟨v, hv, Ne.symm huv, hvj⟩
              rw [← Option.some.inj hu] at this
              exact hfree this
            · rw [hcol u hux] at hu
              by_cases hvx : v = x
              · subst hvx
                rw [upd_same]
                intro hkj
                have : j ∈ used := (hc.seen x hnone j).2 ⟨u, hsym u x hv, huv, hu⟩
                rw [← Option.some.inj hkj] at this
                exact hfree this
              · rw [hcol v hvx]
                exact hc.proper u v j hv huv hu
          · intro v hv j
            rw [h1] at hv
            have hvx : v ≠ x := by rintro rfl; rw [upd_same] at hv; simp at hv
            rw [h2, h1, hv]
            rw [hcol v hvx] at hv
            rw [hc.seen v hv]
            constructor
            · rintro (⟨u, hu, huv, hj⟩ | ⟨rfl, hm, _⟩)
              · have hux : u ≠ x := by rintro rfl; rw [hnone] at hj; simp at hj
                exact ⟨u, hu, huv, by rw [hcol u hux]; exact hj⟩
              · exact ⟨x, hsym x v hm, Ne.symm hvx, upd_same _ _ _⟩
            · rintro ⟨u, hu, huv, hj⟩
              by_cases hux : u = x
              · subst hux
                rw [upd_same] at hj
                exact Or.inr ⟨(Option.some.inj hj).symm, hsym v x hu, rfl⟩
              · rw [hcol u hux] at hj
                exact Or.inl ⟨u, hu, huv, hj⟩
          · intro v hv hn
            rw [h1] at hn
            have hvx : v ≠ x := by rintro rfl; rw [upd_same] at hn; simp at hn
            rw [hcol v hvx] at hn
            apply h6
            obtain ⟨i, hi, hs, hiv⟩ := hc.queued v hv hn
            rcases List.mem_cons.1 (hperm.mem_iff.1 hi) with rfl | hi
            · exact absurd hiv.symm hvx
            · exact ⟨i, hi, hs, hiv⟩
          · exact h5
          · intro v j hj
            rw [h1] at hj
            by_cases hvx : v = x
            · subst hvx
              rw [upd_same] at hj
              rw [← Option.some.inj hj]
              refine hle.trans ?_
              have hsub : used.map some ⊆ ((g.edges x).filter (· ≠ x)).map c.colors := by
                intro o ho
                obtain ⟨j, hj, rfl⟩ := List.mem_map.1 ho
                obtain ⟨u, hu, huv, huc⟩ := (hc.seen x hnone j).1 hj
                exact List.mem_map.2 ⟨u, List.mem_filter.2 ⟨hu, by simpa using huv⟩, huc⟩
              have hnd : (used.map some).Nodup :=
                List.Nodup.map (Option.some_injective _) (sorted_nodup (hc.nodup x))
              have := (hnd.subperm hsub).length_le
              simpa using this
            · rw [hcol v hvx] at hj
              exact hc.bound v j hj
        · unfold work at hw ⊢
          have := sum_drop (sorted_nodup hg.sortedV) hcurv
            (fun v => if c.colors v = none then (g.incident v).length else 0)
            (fun v => if upd c.colors x (some k) v = none then (g.incident v).length else 0)
            (by simp) (fun v hv => by simp only [upd_ne _ _ hv])
          simp only [h1]
          rw [if_pos hnone, hinc] at this
          omega

theorem color_ok {cmds : List (Cmd V)} {g : UGraph V} (hg : UDescribes cmds g)
    {pop : List (Info V) → Option (Info V × List (Info V))} (hpop : Pops pop) :
    ∃ col, color g pop = some col ∧
      (∀ v ∈ g.vertices, ∃ k, col v = some k ∧ k ≤ ((g.edges v).filter (· ≠ v)).length) ∧
      (∀ u v, v ∈ g.edges u → u ≠ v → col u ≠ col v) := by
  obtain ⟨h1, h2, h3, h4, h5⟩ := init_ok g g.vertices
    ⟨fun _ => none, fun _ => [], fun _ => none, []⟩
  simp only at h1 h2 h3 h4 h5
  obtain ⟨c', hc', hi, hq⟩ := colorLoop_ok hg hpop
    (g.vertices.length + (g.vertices.map fun v => (g.incident v).length).sum + 1)
    (g.vertices.foldl (updateSaturation g) ⟨fun _ => none, fun _ => [], fun _ => none, []⟩)
    ⟨by simp [h1], by simp [h1, h2], by simp [h2], fun v hv _ => h5 v (Or.inl hv),
      fun i hi => (h4 i hi).resolve_left (by simp), by simp [h1]⟩
    (by unfold work; rw [h1, h3]; simp)
  have hsome : ∀ v ∈ g.vertices, ∃ k, c'.colors v = some k := by
    intro v hv
    cases h : c'.colors v with
    | some k => exact ⟨k, rfl⟩
    | none =>
      obtain ⟨i, hmem, _⟩ := hi.queued v hv h
      rw [hq] at hmem
      simp at hmem
  refine ⟨c'.colors, by simp [color, hc'], ?_, ?_⟩
  · intro v hv
    obtain ⟨k, hk⟩ := hsome v hv
    exact ⟨k, hk, hi.bound v k hk⟩
  · intro u v hv huv he
    obtain ⟨k, hk⟩ := hsome u (hg.ends u v hv).1
    exact hi.proper u v k hv huv hk (he ▸ hk)

end Heir.Graph
