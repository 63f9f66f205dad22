import Verif.Graph.Condense
import Verif.Graph.Props
import Verif.Graph.SccSpec

/-!
# Properties of strong components, contraction and condensation

Graphs are given by the calls of `addVertex` and `addEdge` that built them.
-/

namespace Heir.Graph

open Graph

variable {V : Type} [LinearOrder V]

/-! ## C132: strongly connected components -/

theorem E_eq (cmds : List (Cmd V)) : (build cmds).E = IsEdge cmds := by
  funext a b
  exact propext ((build_describes cmds).edge a b)

/-- C132: `getStronglyConnectedComponents` always ends.  No component is empty, every vertex is in
exactly one of them, once, and two vertices are in the same one exactly if each can be reached from
the other. -/
theorem C132_components (cmds : List (Cmd V)) :
    ∃ l, (build cmds).getStronglyConnectedComponents = some l ∧
      (∀ c ∈ l, c ≠ []) ∧ l.flatten.Nodup ∧ (∀ v, v ∈ l.flatten ↔ IsVertex cmds v) ∧
      ∀ c ∈ l, ∀ a ∈ c, ∀ b, b ∈ c ↔ Mutual (IsEdge cmds) a b := by
  have hd := build_describes cmds
  obtain ⟨l, h1, h2⟩ := scc_ok hd.wf
  refine ⟨l, h1, fun c hc => (h2.sorted c hc).1, h2.nodup, fun v => ?_, fun c hc a ha b => ?_⟩
  · rw [h2.mem, hd.vertex]
  · rw [h2.equiv c hc a ha b, R, E_eq]
    rfl

/-- Two cycles, one inside reach of the other, and a single vertex. -/
def twoCycles : List (Cmd Nat) :=
  [.vertex 0, .vertex 1, .vertex 2, .vertex 3, .vertex 4, .vertex 5, .edge 0 1, .edge 1 2,
   .edge 2 0, .edge 2 3, .edge 3 4, .edge 4 3, .edge 5 0, .edge 5 4]

example : (build twoCycles).getStronglyConnectedComponents = some [[3, 4], [0, 1, 2], [5]] := by
  decide +kernel

/-! ## C133: contraction -/

/-- `contractEdge` on each pair in turn. -/
def contracts (m : V → V → V) (g : Graph V) (l : List (V × V)) : Graph V :=
  l.foldl (fun g p => (g.contractEdge m p.1 p.2).1) g

/-- `contractEdge` returns true for each pair in turn. -/
def Contracts (m : V → V → V) : Graph V → List (V × V) → Prop
  | _, [] => True
  | g, p :: l => (g.contractEdge m p.1 p.2).2 = true ∧ Contracts m (g.contractEdge m p.1 p.2).1 l

theorem contractEdge_false {g : Graph V} {m : V → V → V} {s t : V} (h : g.hasEdge s t = false) :
    g.contractEdge m s t = (g, false) := by simp [contractEdge, h]

theorem hasEdge_iff {g : Graph V} (h : g.WF) (s t : V) : g.hasEdge s t = true ↔ g.E s t := by
  unfold hasEdge
  split
  · rename_i hc
    have := h.ends s t
    constructor
    · simp
    · intro e; tauto
  · simp [E]

theorem edgesInto_iff {g : Graph V} (h : g.WF) (s t : V) : s ∈ g.edgesInto t ↔ g.E s t := by
  have h1 := h.ends s t
  have h2 := h.dual s t
  unfold edgesInto E
  split
  · exact h2
  · simp only [List.not_mem_nil, false_iff]; tauto

theorem edgesOutOf_iff {g : Graph V} (h : g.WF) (s t : V) : t ∈ g.edgesOutOf s ↔ g.E s t := by
  have h1 := h.ends s t
  unfold edgesOutOf E
  split
  · rfl
  · simp only [List.not_mem_nil, false_iff]; tauto

theorem contracts_quo {g0 : Graph V} (h0 : g0.WF) {m : V → V → V} (hm : ∀ s t, m s t = s) :
    ∀ (l : List (V × V)) (g : Graph V) (f : V → V), Quo g0 f g → (∀ p ∈ l, p.1 ≠ p.2) →
    Contracts m g l →
    Quo g0 (l.foldl (fun f p x => if f x = p.2 then p.1 else f x) f) (contracts m g l)
  | [], g, f, h, _, _ => h
  | p :: l, g, f, h, hne, hc => by
    have he : g.hasEdge p.1 p.2 = true := by
      by_contra hcon
      have := hc.1
      rw [contractEdge_false (by simpa using hcon)] at this
      simp at this
    exact contracts_quo h0 hm l _ _
      (h.contract h0 (hm _ _) (hne p List.mem_cons_self) ((hasEdge_iff h.wf _ _).1 he))
      (fun q hq => hne q (List.mem_cons_of_mem _ hq)) hc.2

/-- C133: a graph after any sequence of contractions of edges between different vertices (with no
`mergeFn`, or one that leaves its argument `source` alone) is the graph in which every vertex is
replaced by the one it was merged into: these are the vertices left; two different ones are joined
by an edge exactly if an edge joins vertices merged into them; the edges from a vertex to itself are
those it had.  `hasEdge`, `edgesOutOf` and `edgesInto` agree. -/
theorem C133_contract_partial (cmds : List (Cmd V)) {m : V → V → V} (hm : ∀ s t, m s t = s)
    (l : List (V × V)) (hne : ∀ p ∈ l, p.1 ≠ p.2) (hc : Contracts m (build cmds) l) :
    (∀ v, v ∈ (contracts m (build cmds) l).vertices ↔ IsVertex cmds v ∧ merged l v = v) ∧
    (∀ v, IsVertex cmds v → IsVertex cmds (merged l v) ∧ merged l (merged l v) = merged l v) ∧
    (∀ a b, a ≠ b → ((contracts m (build cmds) l).hasEdge a b = true ↔
      ∃ x y, merged l x = a ∧ merged l y = b ∧ IsEdge cmds x y)) ∧
    (∀ a, (contracts m (build cmds) l).hasEdge a a = true ↔ merged l a = a ∧ IsEdge cmds a a) ∧
    (∀ a b, b ∈ (contracts m (build cmds) l).edgesOutOf a ↔
      (contracts m (build cmds) l).hasEdge a b = true) ∧
    (∀ a b, a ∈ (contracts m (build cmds) l).edgesInto b ↔
      (contracts m (build cmds) l).hasEdge a b = true) := by
  have hd := build_describes cmds
  have h := contracts_quo hd.wf hm l (build cmds) id (Quo.refl hd.wf) hne hc
  change Quo (build cmds) (merged l) (contracts m (build cmds) l) at h
  have hi : ∀ x, IsVertex cmds x → IsVertex cmds (merged l x) ∧ merged l (merged l x) = merged l x := by
    intro x hx
    have := (h.vert _).1 (h.rep x ((hd.vertex x).2 hx))
    rwa [hd.vertex] at this
  refine ⟨fun v => by rw [h.vert, hd.vertex], hi, fun a b hab => ?_, fun a => ?_, fun a b => ?_,
    fun a b => ?_⟩
  · rw [hasEdge_iff h.wf, h.edge, E_eq]
    constructor
    · rintro ⟨-, -, ⟨-, e⟩ | ⟨e, -⟩⟩
      · exact e
      · exact absurd e hab
    · rintro ⟨x, y, rfl, rfl, e⟩
      have hx := hd.wf.ends x y ((hd.edge x y).2 e)
      rw [hd.vertex, hd.vertex] at hx
      exact ⟨(hi x hx.1).2, (hi y hx.2).2, Or.inl ⟨hab, x, y, rfl, rfl, e⟩⟩
  · rw [hasEdge_iff h.wf, h.edge, E_eq]
    simp
  · rw [edgesOutOf_iff h.wf, hasEdge_iff h.wf]
  · rw [edgesInto_iff h.wf, hasEdge_iff h.wf]

/-- C133: `contractEdge` fails, and leaves the graph alone, exactly if the edge does not exist. -/
theorem C133_missing (cmds : List (Cmd V)) (m : V → V → V) (s t : V) :
    ((build cmds).contractEdge m s t).2 = true ↔ IsEdge cmds s t := by
  have hd := build_describes cmds
  rw [← E_eq, ← hasEdge_iff hd.wf]
  unfold contractEdge
  split <;> simp_all

theorem C133_missing_same (cmds : List (Cmd V)) (m : V → V → V) (s t : V) (h : ¬ IsEdge cmds s t) :
    ((build cmds).contractEdge m s t).1 = build cmds := by
  have hd := build_describes cmds
  rw [← E_eq, ← hasEdge_iff hd.wf] at h
  rw [contractEdge_false (by simpa using h)]

example : let g := contracts (fun s _ => s) (build twoCycles) [(0, 1), (2, 3)]
    g.vertices = [0, 2, 4, 5] ∧ g.edgesOutOf 2 = [0, 4] ∧ g.edgesInto 2 = [0, 4] := by decide +kernel
example : Contracts (fun s _ => s) (build twoCycles) [(0, 1), (2, 3)] := by
  simp only [Contracts]; decide +kernel

/-- C133 fails for an edge from a vertex to itself: its contraction, for which `contractEdge`
returns true, removes the vertex and its edges. -/
theorem C133_loop_violated (cmds : List (Cmd V)) (v : V) (m : V → V → V) (hm : m v v = v)
    (h : IsEdge cmds v v) :
    ((build cmds).contractEdge m v v).2 = true ∧ v ∉ ((build cmds).contractEdge m v v).1.vertices := by
  refine ⟨(C133_missing cmds m v v).2 h, ?_⟩
  have hd := build_describes cmds
  rw [← E_eq, ← hasEdge_iff hd.wf] at h
  unfold contractEdge
  rw [if_pos h]
  simp only [removeTarget, mem_del]
  exact fun h => h.2 rfl

example : IsEdge [Cmd.vertex 3, .edge 3 3] 3 3 := ⟨[.vertex 3], [], rfl, by simp, by simp⟩

theorem redirectOut_lost {g : Graph V} {s t x : V} (hs : s ∉ g.vertices) :
    ∃ w, redirectOut s t g x = { g with weights := w } := by
  unfold redirectOut
  split
  · cases hw : g.weights t x with
    | none => exact ⟨g.weights, by simp [addEdge, hs]⟩
    | some w => exact ⟨updW (updW g.weights s x (some w)) t x none, by
      simp only [addEdge, hs, not_false_eq_true, true_or, if_true]⟩
  · exact ⟨g.weights, rfl⟩

theorem redirectIn_lost {g : Graph V} {s t x : V} (hs : s ∉ g.vertices) :
    ∃ w, redirectIn s t g x = { g with weights := w } := by
  unfold redirectIn
  split
  · cases hw : g.weights x t with
    | none => exact ⟨g.weights, by simp [addEdge, hs]⟩
    | some w => exact ⟨updW (updW g.weights x s (some w)) x t none, by
      simp only [addEdge, hs, not_false_eq_true, or_true, if_true]⟩
  · exact ⟨g.weights, rfl⟩

omit [LinearOrder V] in
theorem redirects_lost (F : Graph V → V → Graph V) (s : V)
    (hF : ∀ g x, s ∉ g.vertices → ∃ w, F g x = { g with weights := w }) :
    ∀ (L : List V) (g : Graph V), s ∉ g.vertices → ∃ w, L.foldl F g = { g with weights := w }
  | [], g, _ => ⟨g.weights, rfl⟩
  | x :: L, g, h => by
    obtain ⟨w, hw⟩ := hF g x h
    rw [List.foldl_cons, hw]
    obtain ⟨w', hw'⟩ := redirects_lost F s hF L { g with weights := w } h
    exact ⟨w', hw'⟩

/-- C133 fails for a `mergeFn` that assigns to `source`, as the one in the documentation of
`contractEdge` does, if the new value is not a vertex: the vertex keeps its value, and the edges of
the target are lost. -/
theorem C133_merge_violated (cmds : List (Cmd V)) {m : V → V → V} {s t : V} (h : IsEdge cmds s t)
    (hm : ¬ IsVertex cmds (m s t)) :
    ((build cmds).contractEdge m s t).2 = true ∧
    (∀ v, v ∈ ((build cmds).contractEdge m s t).1.vertices ↔ IsVertex cmds v ∧ v ≠ t) ∧
    ∀ a b, ((build cmds).contractEdge m s t).1.hasEdge a b = true ↔
      IsEdge cmds a b ∧ a ≠ t ∧ b ≠ t := by
  have hd := build_describes cmds
  have he := h
  rw [← E_eq, ← hasEdge_iff hd.wf] at he
  have ht : t ∈ (build cmds).vertices := (hd.wf.ends s t ((hd.edge s t).2 h)).2
  rw [← hd.vertex] at hm
  have hne : m s t ≠ t := fun e => hm (by rwa [e])
  refine ⟨(C133_missing cmds m s t).2 h, ?_⟩
  unfold contractEdge
  rw [if_pos he]
  simp only
  obtain ⟨w, hw⟩ := redirects_lost (redirectOut (m s t) t) (m s t) (fun g x => redirectOut_lost)
    ((build cmds).edgesOutOf t) (build cmds) hm
  rw [hw]
  obtain ⟨w', hw'⟩ := redirects_lost (redirectIn (m s t) t) (m s t) (fun g x => redirectIn_lost)
    (edgesInto { build cmds with weights := w } t) { build cmds with weights := w } hm
  rw [hw']
  have hwf : WF { build cmds with weights := w' } := WF_of_eq hd.wf rfl rfl rfl
  obtain ⟨h1, h2, h3⟩ := removeTarget_ok hwf (s := m s t) (t := t) ht hne
  refine ⟨fun v => ?_, fun a b => ?_⟩
  · rw [h2, mem_del]
    show v ∈ (build cmds).vertices ∧ _ ↔ _
    rw [hd.vertex]
  · rw [hasEdge_iff h1, h3]
    show (build cmds).E a b ∧ _ ↔ _
    rw [E_eq]

/-- Vertices named 1, 2 and 3, with the edges 1 → 2 → 3; `mergeFn` joins the names. -/
example : let g := ((build [Cmd.vertex 1, .vertex 2, .vertex 3, .edge 1 2, .edge 2 3]).contractEdge
      (fun s t => 10 * s + t) 1 2).1
    g.vertices = [1, 3] ∧ g.edgesOutOf 1 = [] ∧ g.edgesInto 3 = [] := by decide +kernel

/-! ## C134: condensation -/

theorem holds_eq (calls : List (V × V)) : holds calls = content calls := by
  unfold holds content
  congr 1

/-- C134: if every vertex with an edge to itself is alone in its component, `condenseGraph` ends and
leaves one vertex of each strongly connected component.  Two of them are joined by an edge exactly
if an edge joins their components, and no cycle with more than one vertex is left.  The calls of
`mergeFn` gather each component, every vertex once, at the vertex left. -/
theorem C134_condense_partial (cmds : List (Cmd V)) {m : V → V → V} (hm : ∀ s t, m s t = s)
    (hloop : ∀ a, IsEdge cmds a a → ∀ b, Mutual (IsEdge cmds) a b → b = a) {k : Nat}
    (hk : (build cmds).vertices.length ≤ k) :
    ∃ (c : Cond V) (rep : V → V), condenseGraph m (build cmds) k = some c ∧
      (∀ v, v ∈ c.g.vertices ↔ IsVertex cmds v ∧ rep v = v) ∧
      (∀ v, IsVertex cmds v → IsVertex cmds (rep v)) ∧
      (∀ x y, IsVertex cmds x → IsVertex cmds y → (rep x = rep y ↔ Mutual (IsEdge cmds) x y)) ∧
      (∀ v, IsVertex cmds v → Mutual (IsEdge cmds) v (rep v)) ∧
      (∀ a b, a ≠ b → (c.g.hasEdge a b = true ↔ ∃ x y, rep x = a ∧ rep y = b ∧ IsEdge cmds x y)) ∧
      (∀ a, c.g.hasEdge a a = true ↔ IsEdge cmds a a) ∧
      (∀ a b, a ∈ c.g.edgesInto b ↔ c.g.hasEdge a b = true) ∧
      (∀ a b, Relation.TransGen (fun a b => c.g.hasEdge a b = true) a b →
        Relation.TransGen (fun a b => c.g.hasEdge a b = true) b a → a = b) ∧
      (∀ a ∈ c.g.vertices, (holds c.calls a).Nodup ∧
        ∀ x, x ∈ holds c.calls a ↔ IsVertex cmds x ∧ Mutual (IsEdge cmds) x a) := by
  have hd := build_describes cmds
  obtain ⟨f, c, h1, h2, h3⟩ := condense_ok (m := m) (k := k) hd.wf hm
    (fun a ha b hab hba => hloop a ((hd.edge a a).1 ha) b
      ⟨by rw [← E_eq]; exact hab, by rw [← E_eq]; exact hba⟩) (by omega)
  have hE := E_eq cmds
  have hq := h2.quo
  have hv := hd.vertex
  have hrep : ∀ x, IsVertex cmds x → f x ∈ c.g.vertices := fun x hx => hq.rep x ((hv x).2 hx)
  have hrepv : ∀ x, IsVertex cmds x → IsVertex cmds (f x) := fun x hx =>
    (hv _).1 ((hq.vert _).1 (hrep x hx)).1
  have hidem : ∀ x, IsVertex cmds x → f (f x) = f x := fun x hx => hq.idem ((hv x).2 hx)
  have hmut : ∀ v, IsVertex cmds v → Mutual (IsEdge cmds) v (f v) := by
    intro v hvv
    have := h2.equ v ((hv v).2 hvv)
    rw [R, hE] at this
    exact this
  have hends : ∀ x y, IsEdge cmds x y → IsVertex cmds x ∧ IsVertex cmds y := fun x y e => by
    have := hd.wf.ends x y ((hd.edge x y).2 e)
    rwa [hv, hv] at this
  have heq : ∀ x y, IsVertex cmds x → IsVertex cmds y → (f x = f y ↔ Mutual (IsEdge cmds) x y) := by
    intro x y hx hy
    rw [h3 x ((hv x).2 hx) y ((hv y).2 hy), R, hE]
    rfl
  -- a path left is a path of the graph
  have hpath : ∀ a b, c.g.hasEdge a b = true → Relation.ReflTransGen (IsEdge cmds) a b := by
    intro a b e
    rw [hasEdge_iff hq.wf, hq.edge, hE] at e
    obtain ⟨ha, hb, ⟨-, x, y, rfl, rfl, e⟩ | ⟨rfl, e⟩⟩ := e
    · obtain ⟨hx, hy⟩ := hends x y e
      exact (hmut x hx).2.trans ((Relation.ReflTransGen.single e).trans (hmut y hy).1)
    · exact .single e
  have hvert : ∀ a b, c.g.hasEdge a b = true →
      (IsVertex cmds a ∧ f a = a) ∧ IsVertex cmds b ∧ f b = b := by
    intro a b e
    rw [hasEdge_iff hq.wf] at e
    have := hq.wf.ends a b e
    rwa [hq.vert, hq.vert, hv, hv] at this
  have htr : ∀ a b, Relation.TransGen (fun a b => c.g.hasEdge a b = true) a b →
      Relation.ReflTransGen (IsEdge cmds) a b ∧ (IsVertex cmds a ∧ f a = a) ∧ IsVertex cmds b ∧ f b = b := by
    intro a b e
    induction e with
    | single e => exact ⟨hpath _ _ e, hvert _ _ e⟩
    | tail _ e ih => exact ⟨ih.1.trans (hpath _ _ e), ih.2.1, (hvert _ _ e).2⟩
  refine ⟨c, f, h1, fun v => by rw [hq.vert, hv], hrepv, heq, hmut, ?_, ?_, ?_, ?_, ?_⟩
  · intro a b hab
    rw [hasEdge_iff hq.wf, hq.edge, hE]
    constructor
    · rintro ⟨-, -, ⟨-, e⟩ | ⟨e, -⟩⟩
      · exact e
      · exact absurd e hab
    · rintro ⟨x, y, rfl, rfl, e⟩
      obtain ⟨hx, hy⟩ := hends x y e
      exact ⟨hidem x hx, hidem y hy, Or.inl ⟨hab, x, y, rfl, rfl, e⟩⟩
  · intro a
    rw [hasEdge_iff hq.wf, hq.edge, hE]
    constructor
    · rintro ⟨-, -, ⟨h, -⟩ | ⟨-, e⟩⟩
      · exact absurd rfl h
      · exact e
    · intro e
      have ha := hloop a e (f a) (hmut a (hends a a e).1)
      exact ⟨ha, ha, Or.inr ⟨rfl, e⟩⟩
  · intro a b
    rw [edgesInto_iff hq.wf, hasEdge_iff hq.wf]
  · intro a b hab hba
    obtain ⟨r1, ⟨va, fa⟩, vb, fb⟩ := htr a b hab
    obtain ⟨r2, -⟩ := htr b a hba
    have := (heq a b va vb).2 ⟨r1, r2⟩
    rwa [fa, fb] at this
  · intro a ha
    obtain ⟨h5, h6⟩ := h2.cont a ha
    obtain ⟨va, fa⟩ := (hq.vert a).1 ha
    rw [hv] at va
    rw [holds_eq]
    refine ⟨h5, fun x => ?_⟩
    rw [h6, hv]
    constructor
    · rintro ⟨vx, rfl⟩
      exact ⟨vx, hmut x vx⟩
    · rintro ⟨vx, hx⟩
      have := (heq x a vx va).2 hx
      exact ⟨vx, this.trans fa⟩

example : ((condenseGraph (fun s _ => s) (build twoCycles) 6).map fun c =>
    (c.g.vertices, c.g.edgesOutOf 2, c.g.edgesOutOf 5, c.calls)) =
    some ([2, 3, 5], [3], [2, 3], [(3, 4), (0, 1), (2, 0)]) := by decide +kernel

/-- C134: in a graph without edges from a vertex to itself, nothing of the kind is left, so the
result has no cycle. -/
theorem C134_acyclic_partial (cmds : List (Cmd V)) {m : V → V → V} (hm : ∀ s t, m s t = s)
    (hloop : ∀ a, ¬ IsEdge cmds a a) {k : Nat} (hk : (build cmds).vertices.length ≤ k) :
    ∃ c : Cond V, condenseGraph m (build cmds) k = some c ∧
      ∀ a, ¬ Relation.TransGen (fun a b => c.g.hasEdge a b = true) a a := by
  obtain ⟨c, rep, h1, -, -, -, -, -, h2, -, h3, -⟩ :=
    C134_condense_partial cmds hm (fun a e => absurd e (hloop a)) hk
  refine ⟨c, h1, fun a h => ?_⟩
  rcases (Relation.TransGen.head'_iff.1 h) with ⟨b, e, r⟩
  rcases Relation.reflTransGen_iff_eq_or_transGen.1 r with e' | r
  · subst e'
    exact hloop _ ((h2 _).1 e)
  · have := h3 a b (.single e) r
    subst this
    exact hloop _ ((h2 _).1 e)

/-- C134 fails: a vertex alone in its component keeps its edge to itself, so the graph is not made
acyclic. -/
theorem C134_loop_violated :
    ∃ c, condenseGraph (fun s _ => s) (build [Cmd.vertex 0, .edge 0 0]) 1 = some c ∧
      c.g.hasEdge 0 0 = true ∧ c.g.topologicalSort = some none := by
  refine ⟨_, rfl, by decide +kernel, by decide +kernel⟩

/-- C134 fails: with an edge from a vertex to itself in a larger component, the vertex is deleted
and the others are left behind unmerged. -/
theorem C134_deleted_violated :
    ((condenseGraph (fun s _ => s) (build [Cmd.vertex 0, .vertex 1, .vertex 2, .edge 0 0, .edge 0 1,
      .edge 1 0, .edge 1 2, .edge 2 0, .edge 0 2]) 3).map fun c => (c.g.vertices, c.calls)) =
      some ([1, 2], [(0, 0)]) := by
  decide +kernel

/-- Vertex 0 has an edge to itself and one to 1, which leads to 2 and 3 and back. -/
def hanging : List (Cmd Nat) :=
  [.vertex 0, .vertex 1, .vertex 2, .vertex 3, .edge 0 0, .edge 0 1, .edge 1 2, .edge 1 3,
   .edge 2 0, .edge 3 0]

theorem passes_stuck {m : V → V → V} {c : Cond V} (hl : 1 < c.alive.length)
    (h : ∀ u ∈ c.alive, ∀ v ∈ c.g.edgesOutOf u, v ∉ c.alive) (k : Nat) :
    Cond.passes m k c = none := by
  have he : ∀ (u : V) (L : List V), (∀ v ∈ L, v ∉ c.alive) → L.foldl (Cond.edge m u) c = c := by
    intro u L
    induction L with
    | nil => intro _; rfl
    | cons v L ih =>
      intro hL
      rw [List.foldl_cons, Cond.edge, if_neg (hL v List.mem_cons_self)]
      exact ih fun w hw => hL w (List.mem_cons_of_mem _ hw)
  have hv : ∀ L : List V, L.foldl (Cond.vertex m) c = c := by
    intro L
    induction L with
    | nil => rfl
    | cons u L ih =>
      have : Cond.vertex m c u = c := by
        unfold Cond.vertex
        split
        · rename_i hu; exact he u _ (h u hu)
        · rfl
      rw [List.foldl_cons, this, ih]
  induction k with
  | zero => simp [Cond.passes, hl]
  | succ k ih =>
    rw [Cond.passes, if_pos hl]
    simp only [hv, ih]

/-- C134 fails: on a graph with four vertices `condenseGraph` does not end, whatever the number of
passes. -/
theorem C134_hang_violated (k : Nat) : condenseGraph (fun s _ => s) (build hanging) k = none := by
  have hs : (build hanging).getStronglyConnectedComponents = some [[0, 1, 2, 3]] := by decide +kernel
  unfold condenseGraph
  rw [hs, Option.bind_some, List.foldlM_cons]
  have : Cond.component (fun s _ => s) k ⟨build hanging, [], []⟩ [0, 1, 2, 3] = none := by
    unfold Cond.component
    rw [if_neg (by decide)]
    rcases k with _ | k
    · rfl
    · rw [Cond.passes, if_pos (by decide)]
      exact passes_stuck (by decide +kernel) (by decide +kernel) k
  rw [this]
  rfl

/-! ## C135: the critical path of the estimators -/

omit [LinearOrder V] in
theorem before_ne {l : List V} (hn : l.Nodup) {s t : V} (h : Before l s t) :
    (∀ a r, l = a :: r → t ≠ a) ∧ ∀ r b, l = r ++ [b] → s ≠ b := by
  obtain ⟨A, B, C, rfl⟩ := h
  constructor
  · rintro a r hr rfl
    rcases A with _ | ⟨x, A⟩
    · simp only [List.nil_append, List.cons.injEq] at hr
      obtain ⟨rfl, -⟩ := hr
      simp at hn
    · simp only [List.cons_append, List.cons.injEq] at hr
      obtain ⟨rfl, -⟩ := hr
      simp at hn
  · rintro r b hr rfl
    rw [show A ++ s :: (B ++ t :: C) = (A ++ s :: B) ++ (t :: C) by simp] at hr hn
    have hlast := congrArg List.getLast? hr
    rw [List.getLast?_append_of_ne_nil _ (by simp), List.getLast?_concat] at hlast
    have : s ∈ t :: C := List.mem_of_getLast? hlast
    exact (List.nodup_append.1 hn).2.2 s (by simp) s this rfl

/-- C135: on an acyclic graph with at least three vertices, `findApproximateCriticalPath` lists
every vertex that has both an edge into it and an edge out of it, once, in a topological order,
followed by one vertex with no edges out of it; so it is at least as long as every path without its
first vertex. -/
theorem C135_critical_partial (cmds : List (Cmd V)) (hac : Acyclic cmds)
    (hl : 3 ≤ (build cmds).vertices.length) :
    ∃ l b, (build cmds).findApproximateCriticalPath = some (some (l ++ [b])) ∧ (l ++ [b]).Nodup ∧
      (∀ v, v ∈ l ↔ IsVertex cmds v ∧ (∃ u, IsEdge cmds u v) ∧ ∃ w, IsEdge cmds v w) ∧
      (IsVertex cmds b ∧ ∀ w, ¬ IsEdge cmds b w) ∧
      ∀ s ∈ l, ∀ t ∈ l, IsEdge cmds s t → Before l s t := by
  have hd := build_describes cmds
  obtain ⟨o, h1, h2⟩ := (topologicalSort_ok hd).1 hac
  have hsrc : ∀ v, v ∈ (build cmds).getSources ↔ IsVertex cmds v ∧ ∀ u, ¬ IsEdge cmds u v := by
    intro v
    simp only [getSources, List.mem_filter, hd.vertex, decide_eq_true_eq, List.length_eq_zero_iff,
      List.eq_nil_iff_forall_not_mem, hd.wf.dual, hd.edge]
  have hsnk : ∀ v, v ∈ (build cmds).getSinks ↔ IsVertex cmds v ∧ ∀ u, ¬ IsEdge cmds v u := by
    intro v
    simp only [getSinks, List.mem_filter, hd.vertex, decide_eq_true_eq, List.length_eq_zero_iff,
      List.eq_nil_iff_forall_not_mem, hd.edge]
  have hlen : (build cmds).vertices.length ≤ o.length :=
    (List.subperm_of_subset (sorted_nodup hd.wf.vertices) fun v hv =>
      (h2.mem v).2 ((hd.vertex v).1 hv)).length_le
  obtain ⟨a, q, rfl⟩ : ∃ a q, o = a :: q := by
    rcases o with _ | ⟨a, q⟩
    · have h0 : (build cmds).vertices.length ≤ 0 := hlen
      omega
    · exact ⟨a, q, rfl⟩
  obtain ⟨mid, b, rfl⟩ : ∃ mid b, q = mid ++ [b] := by
    rcases List.eq_nil_or_concat q with rfl | ⟨mid, b, rfl⟩
    · have h0 : (build cmds).vertices.length ≤ 1 := hlen
      omega
    · exact ⟨mid, b, by simp⟩
  have hva : IsVertex cmds a := (h2.mem a).1 (by simp)
  have hvb : IsVertex cmds b := (h2.mem b).1 (by simp)
  have ha : ∀ u, ¬ IsEdge cmds u a := fun u e =>
    (before_ne h2.nodup (h2.forward u a e)).1 a _ rfl rfl
  have hb : ∀ u, ¬ IsEdge cmds b u := fun u e =>
    (before_ne h2.nodup (h2.forward b u e)).2 (a :: mid) b (by simp) rfl
  set p : V → Bool := fun v => decide (v ∉ (build cmds).getSources ∧ v ∉ (build cmds).getSinks)
    with hp
  have hpv : ∀ v, IsVertex cmds v →
      (p v = true ↔ (∃ u, IsEdge cmds u v) ∧ ∃ w, IsEdge cmds v w) := by
    intro v hv
    simp only [hp, decide_eq_true_eq, hsrc, hsnk, hv, true_and, not_forall, not_not]
  have hfa : p a = false := by
    rw [← Bool.not_eq_true, hpv a hva]; rintro ⟨⟨u, e⟩, -⟩; exact ha u e
  have hfb : p b = false := by
    rw [← Bool.not_eq_true, hpv b hvb]; rintro ⟨-, u, e⟩; exact hb u e
  have hfilter : (a :: (mid ++ [b])).filter p = mid.filter p := by
    simp [hfa, hfb]
  refine ⟨mid.filter p, b, ?_, ?_, ?_, ⟨hvb, hb⟩, ?_⟩
  · have hlen3 : ¬ (a :: (mid ++ [b])).length < 3 := by
      have := hl.trans hlen; omega
    have hgl : (a :: (mid ++ [b])).getLast? = some b := by
      rw [show a :: (mid ++ [b]) = (a :: mid) ++ [b] by simp, List.getLast?_concat]
    have hdl : (mid ++ [b]).dropLast = mid := by simp
    unfold findApproximateCriticalPath
    rw [h1]
    simp only [Option.map_some, Option.bind_some, criticalOf]
    rw [if_neg hlen3, hgl]
    simp only [List.head?_cons, List.tail_cons, hdl]
    rw [if_neg (by rw [not_not, hsrc]; exact ⟨hva, ha⟩), if_neg (by rw [not_not, hsnk]; exact ⟨hvb, hb⟩)]
  · have hsub : (mid.filter p ++ [b]).Sublist (mid ++ [b]) := List.filter_sublist.append (.refl _)
    exact hsub.nodup (List.nodup_cons.1 h2.nodup).2
  · intro v
    rw [← hfilter, List.mem_filter, h2.mem]
    constructor
    · rintro ⟨hv, h⟩; exact ⟨hv, (hpv v hv).1 h⟩
    · rintro ⟨hv, h⟩; exact ⟨hv, (hpv v hv).2 h⟩
  · intro s hs t ht e
    rw [← hfilter] at hs ht ⊢
    obtain ⟨A, B, C, hABC⟩ := h2.forward s t e
    have hs' := (List.mem_filter.1 hs).2
    have ht' := (List.mem_filter.1 ht).2
    exact ⟨A.filter p, B.filter p, C.filter p, by
      rw [hABC]; simp [hs', ht']⟩

/-- Four vertices; 1 and 2 both follow 0 and precede 3. -/
def square : List (Cmd Nat) :=
  [.vertex 0, .vertex 1, .vertex 2, .vertex 3, .edge 0 1, .edge 0 2, .edge 1 3, .edge 2 3]

/-- C135 fails: the vertices returned need not be a path.  In `square` both 1 and 2 are returned,
and neither leads to the other. -/
theorem C135_path_violated :
    (build square).findApproximateCriticalPath = some (some [2, 1, 3]) ∧
      ¬ Relation.TransGen (IsEdge square) 2 1 := by
  refine ⟨by decide +kernel, ?_⟩
  rw [← E_eq]
  have hout : (build square).out 2 = [3] ∧ (build square).out 3 = [] := by decide +kernel
  intro h
  have : ∀ z, Relation.TransGen (build square).E 2 z → z = 3 := by
    intro z hz
    induction hz with
    | single e => simpa [E, hout.1] using e
    | tail _ e ih => subst ih; simp [E, hout.2] at e
  exact absurd (this 1 h) (by decide)

example : Acyclic diamond ∧ 3 ≤ (build diamond).vertices.length := by
  refine ⟨?_, by decide +kernel⟩
  by_contra h
  have h1 := (topologicalSort_ok (build_describes diamond)).2 h
  have h2 : (build diamond).topologicalSort = some (some [4, 2, 1, 3]) := by decide +kernel
  rw [h2] at h1
  simp at h1

end Heir.Graph
