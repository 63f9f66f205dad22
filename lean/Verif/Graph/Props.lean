import Verif.Graph.Path
import Verif.Graph.Levels

/-!
# Properties of the graph algorithms

Graphs are given by the calls of `addVertex` and `addEdge` that built them.
-/

namespace Heir.Graph

open Graph UGraph

variable {V : Type} [LinearOrder V]

/-! ## C38: topological sort -/

/-- C38: the insertions are recorded.  `addEdge` succeeds exactly if both ends are vertices, and
`hasEdge`, `edgesOutOf` and `edgesInto` report the edges that were added. -/
theorem C38_edges (cmds : List (Cmd V)) (s t : V) :
    (((build cmds).addEdge s t).2 = true ↔ IsVertex cmds s ∧ IsVertex cmds t) ∧
    ((build cmds).hasEdge s t = true ↔ IsEdge cmds s t) ∧
    (t ∈ (build cmds).edgesOutOf s ↔ IsEdge cmds s t) ∧
    (s ∈ (build cmds).edgesInto t ↔ IsEdge cmds s t) := by
  have h := build_describes cmds
  have he := h.edge s t
  have hends := h.wf.ends s t
  have hio := h.wf.dual s t
  refine ⟨?_, ?_, ?_, ?_⟩
  · rw [← h.vertex, ← h.vertex]
    unfold Graph.addEdge
    split <;> rename_i hc <;> simp <;> tauto
  · rw [← he]
    unfold hasEdge
    split
    · rename_i hc; simp; tauto
    · simp
  · rw [← he]
    unfold edgesOutOf
    split
    · rfl
    · simp; tauto
  · rw [← he]
    unfold edgesInto
    split
    · exact hio
    · simp; tauto

/-- C38: `topologicalSort` always ends; it returns a topological order if the graph has no cycle,
and fails if it has one. -/
theorem C38_topologicalSort (cmds : List (Cmd V)) :
    (Acyclic cmds → ∃ l, (build cmds).topologicalSort = some (some l) ∧ TopologicalOrder cmds l) ∧
    (¬ Acyclic cmds → (build cmds).topologicalSort = some none) :=
  topologicalSort_ok (build_describes cmds)

/-- A diamond, with one edge given too early. -/
def diamond : List (Cmd Nat) :=
  [.vertex 4, .vertex 1, .edge 1 2, .vertex 2, .vertex 3, .edge 4 1, .edge 4 2, .edge 1 3, .edge 2 3]

example : (build diamond).topologicalSort = some (some [4, 2, 1, 3]) := by decide
example : (build (diamond ++ [.edge 3 4])).topologicalSort = some none := by decide

/-! ## C39: levels -/

/-- C39: on an acyclic graph `sortGraphByLevels` returns levels such that every vertex is in
exactly one of them, once, and every edge goes from a lower to a higher level; the level of a
vertex is determined by the longest walk that starts there. -/
theorem C39_sortGraphByLevels (cmds : List (Cmd V)) (hac : Acyclic cmds) :
    ∃ levels, (build cmds).sortGraphByLevels = some (some levels) ∧
      (∀ v, IsVertex cmds v ↔ ∃ i, v ∈ levels.getD i []) ∧
      (∀ i j v, v ∈ levels.getD i [] → v ∈ levels.getD j [] → i = j) ∧
      (∀ i, (levels.getD i []).Nodup) ∧
      (∀ s t i j, IsEdge cmds s t → s ∈ levels.getD i [] → t ∈ levels.getD j [] → i < j) ∧
      (∀ i < levels.length, ∀ v ∈ levels.getD i [],
        Height (IsEdge cmds) v (levels.length - 1 - i)) := by
  obtain ⟨levels, h1, h2, h3, h4, h5⟩ := sortGraphByLevels_ok (build_describes cmds) hac
  have hlt : ∀ i v, v ∈ levels.getD i [] → i < levels.length := by
    intro i v hv
    by_contra h
    rw [List.getD_eq_default _ _ (by omega)] at hv
    simp at hv
  have hh : ∀ i v, v ∈ levels.getD i [] → Height (IsEdge cmds) v (levels.length - 1 - i) :=
    fun i v hv => ((h5 i (hlt i v hv) v).1 hv).2
  refine ⟨levels, h1, ?_, ?_, h3, ?_, fun i _ v hv => hh i v hv⟩
  · intro v
    constructor
    · intro hv
      obtain ⟨n, hn, hl⟩ := h4 v hv
      refine ⟨levels.length - 1 - n, (h5 _ (by omega) v).2 ⟨hv, ?_⟩⟩
      rwa [show levels.length - 1 - (levels.length - 1 - n) = n by omega]
    · rintro ⟨i, hi⟩
      exact ((h5 i (hlt i v hi) v).1 hi).1
  · intro i j v hi hj
    have := height_unique (hh i v hi) (hh j v hj)
    have := hlt i v hi
    have := hlt j v hj
    omega
  · intro s t i j e hi hj
    obtain ⟨w, hw⟩ := (hh j t hj).1
    have := (hh i s hi).2 w _ (Walk.cons e hw)
    have := hlt i s hi
    have := hlt j t hj
    omega

/-- C39: a cycle is a failure. -/
theorem C39_cyclic (cmds : List (Cmd V)) (hac : ¬ Acyclic cmds) :
    (build cmds).sortGraphByLevels = some none := by
  unfold sortGraphByLevels
  rw [(C38_topologicalSort cmds).2 hac]

example : (build diamond).sortGraphByLevels = some (some [[4], [1, 2], [3]]) := by decide

/-- C39: the comment (`Graph.h:348-355`) says that the level is the longest path from an input.  It
is not: here `4` has no predecessor but is on level one. -/
theorem C39_level_from_inputs_violated :
    (build ([.vertex 1, .vertex 2, .vertex 3, .vertex 4, .edge 1 2, .edge 2 3, .edge 4 3] :
      List (Cmd Nat))).sortGraphByLevels = some (some [[1], [2, 4], [3]]) := by decide

/-! ## C40: colouring -/

/-- C40: whichever element the priority queue returns, `color` ends, every vertex has a colour, the
colour is at most the number of its neighbours (so the largest degree plus one colours suffice),
and different adjacent vertices have different colours. -/
theorem C40_color (cmds : List (Cmd V))
    (pop : List (Info V) → Option (Info V × List (Info V))) (hpop : Pops pop) :
    ∃ col, (buildU cmds).color pop = some col ∧
      (∀ v, IsVertex cmds v → ∃ k, col v = some k ∧
        ∀ neighbors : List V, (∀ u, Adj cmds v u → u ≠ v → u ∈ neighbors) → k ≤ neighbors.length) ∧
      (∀ u v, Adj cmds u v → u ≠ v → ∀ a b, col u = some a → col v = some b → a ≠ b) := by
  have hg := buildU_describes cmds
  obtain ⟨col, h1, h2, h3⟩ := color_ok hg hpop
  refine ⟨col, h1, ?_, ?_⟩
  · intro v hv
    obtain ⟨k, hk, hle⟩ := h2 v ((hg.vertex v).2 hv)
    refine ⟨k, hk, fun nb hnb => hle.trans ?_⟩
    refine ((sorted_nodup (hg.sortedE v)).filter _ |>.subperm fun u hu => ?_).length_le
    rw [List.mem_filter] at hu
    exact hnb u ((hg.edge v u).1 hu.1) (by simpa using hu.2)
  · intro u v huv hne a b ha hb hab
    exact h3 u v ((hg.edge u v).2 huv) hne (by rw [ha, hb, hab])

/-- C40: the priority queue of the code is one. -/
theorem C40_priorityQueue : Pops (popMax (V := V)) := popMax_pops

/-- A cycle of length five. -/
def pentagon : List (Cmd Nat) :=
  [.vertex 0, .vertex 1, .vertex 2, .vertex 3, .vertex 4,
   .edge 0 1, .edge 1 2, .edge 2 3, .edge 3 4, .edge 4 0]

example : ((buildU pentagon).color popMax).map (fun c => [0, 1, 2, 3, 4].map c) =
    some [some 0, some 1, some 0, some 1, some 2] := by decide

/-! ## C41: shortest path -/

/-- A path of the graph. -/
def IsPath (cmds : List (Cmd V)) (s t : V) (l : List V) : Prop :=
  l.IsChain (IsEdge cmds) ∧ l.head? = some s ∧ l.getLast? = some t

/-- C41, in part: with unit weights, and if the default value `V()` is not a vertex, the function
fails exactly if the target cannot be reached, and a path that it returns is a path of the graph
with as few edges as possible.

Missing: that it returns a path when there is one (`C41_loop_violated`), that the path is genuine if
`V()` is a vertex (`C41_default_violated`), and other weights (`C41_weight_violated`). -/
theorem C41_unit_partial (cmds : List (Cmd V)) (hV : (build cmds).vertices.length < 2 ^ 64 - 2)
    {dflt start target : V} (hs : IsVertex cmds start) (ht : IsVertex cmds target)
    (hd : ¬ IsVertex cmds dflt) :
    ((build cmds).getShortestPath dflt (unitWeight (build cmds)) start target = .failure ↔
      ¬ ∃ n, Walk (IsEdge cmds) start target n) ∧
    (∀ l, (build cmds).getShortestPath dflt (unitWeight (build cmds)) start target = .path l →
      IsPath cmds start target l ∧ ∀ n, Walk (IsEdge cmds) start target n → l.length ≤ n + 1) := by
  have h := build_describes cmds
  have e : (fun a b => b ∈ (build cmds).out a) = IsEdge cmds := by
    funext a b
    exact propext (h.edge a b)
  have := getShortestPath_unit h.wf hV ((h.vertex _).2 hs) ((h.vertex _).2 ht)
    (fun hm => hd ((h.vertex _).1 hm))
  rw [e] at this
  exact ⟨this.1, fun l hl => ⟨⟨(this.2 l hl).1, (this.2 l hl).2.1, (this.2 l hl).2.2.1⟩,
    (this.2 l hl).2.2.2⟩⟩

example : (build diamond).getShortestPath 0 (unitWeight (build diamond)) 4 3 = .diverges := by decide
example : (build (diamond ++ [.vertex 5, .edge 5 4, .edge 3 5])).getShortestPath 0
    (unitWeight (build (diamond ++ [.vertex 5, .edge 5 4, .edge 3 5]))) 1 4 =
    .path [1, 3, 5, 4] := by decide

/-- C41 fails: the link of a vertex is overwritten by its last successor.  Here `1 → 2 → 4` is a
path, but the reconstruction goes from `1` to the sink `3` and on to `V() = 0` for ever. -/
theorem C41_loop_violated :
    let cmds : List (Cmd Nat) :=
      [.vertex 1, .vertex 2, .vertex 3, .vertex 4, .edge 1 2, .edge 1 3, .edge 2 4]
    (build cmds).getShortestPath 0 (unitWeight (build cmds)) 1 4 = .diverges ∧
    IsPath cmds 1 4 [1, 2, 4] ∧
    ∀ k, follow 0 (fun v => if v = 1 then some 3 else if v = 2 then some 4 else none) 4 k 1 = none := by
  refine ⟨by decide, ⟨?_, rfl, rfl⟩, ?_⟩
  · have h : ∀ s t, (build ([.vertex 1, .vertex 2, .vertex 3, .vertex 4, .edge 1 2, .edge 1 3,
        .edge 2 4] : List (Cmd Nat))).hasEdge s t = true → IsEdge _ s t :=
      fun s t => (C38_edges _ s t).2.1.1
    exact .cons_cons (h 1 2 (by decide)) (.cons_cons (h 2 4 (by decide)) (.singleton _))
  · intro k
    cases k with
    | zero => rfl
    | succ k =>
      cases k with
      | zero => rfl
      | succ k => simp [follow, follow_dead]

/-- C41 fails: `V()` can complete the reconstruction.  `3 → 0` is not an edge. -/
theorem C41_default_violated :
    let cmds : List (Cmd Nat) :=
      [.vertex 0, .vertex 1, .vertex 2, .vertex 3, .edge 1 2, .edge 1 3, .edge 2 0]
    (build cmds).getShortestPath 0 (unitWeight (build cmds)) 1 0 = .path [1, 3, 0] ∧
    (build cmds).hasEdge 3 0 = false := by decide

/-- The weight of a path. -/
def pathWeight (w : V → V → Nat) : List V → Nat
  | a :: b :: l => w a b + pathWeight w (b :: l)
  | _ => 0

/-- C41 fails: with weights the returned path need not be the lightest. -/
theorem C41_weight_violated :
    let cmds : List (Cmd Nat) := [.vertex 1, .vertex 2, .vertex 3, .edge 1 2, .edge 1 3, .edge 2 3]
    let w : Nat → Nat → Nat := fun a b => if a = 1 ∧ b = 3 then 10 else 1
    (build cmds).getShortestPath 0 (fun a b => BitVec.ofNat 64 (w a b)) 1 3 = .path [1, 3] ∧
    pathWeight w [1, 3] = 10 ∧ pathWeight w [1, 2, 3] = 2 ∧
    (build cmds).hasEdge 1 2 = true ∧ (build cmds).hasEdge 2 3 = true := by decide

end Heir.Graph
