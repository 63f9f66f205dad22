import Mathlib.Order.Defs.LinearOrder
import Mathlib.Algebra.Order.Ring.Int
import Mathlib.Data.Nat.Init

/-!
# Model of the graph library

`lib/Utils/Graph/Graph.h`.  A `std::set` is the strictly increasing list of its elements (its
iteration order), a `std::map` a function; the integers `int64_t`, `int` that count vertices and
edges are unbounded.
-/

namespace Heir.Graph

variable {V : Type} [LinearOrder V]

/-- `std::set::insert`. -/
def ins (a : V) : List V → List V
  | [] => [a]
  | b :: l => if a < b then a :: b :: l else if a = b then b :: l else b :: ins a l

/-- `std::set::erase`. -/
def del (a : V) (l : List V) : List V := l.filter (· ≠ a)

/-- Assignment to an entry of a `std::map`. -/
def upd {W : Type} (f : V → W) (a : V) (w : W) : V → W := fun b => if b = a then w else f b

/-- `Graph<V>`, `Graph.h:496-504` (without the cache of the edges). -/
structure Graph (V : Type) where
  vertices : List V
  out : V → List V
  inn : V → List V
  weights : V → V → Option Int

/-- A new graph. -/
def Graph.empty : Graph V := ⟨[], fun _ => [], fun _ => [], fun _ _ => none⟩

namespace Graph

/-- `addVertex`, `Graph.h:31`. -/
def addVertex (g : Graph V) (v : V) : Graph V := { g with vertices := ins v g.vertices }

/-- `addEdge`, `Graph.h:44-53`. -/
def addEdge (g : Graph V) (s t : V) : Graph V × Bool :=
  if s ∉ g.vertices ∨ t ∉ g.vertices then (g, false)
  else ({ g with out := upd g.out s (ins t (g.out s)), inn := upd g.inn t (ins s (g.inn t)) }, true)

/-- `hasEdge`, `Graph.h:55-59`. -/
def hasEdge (g : Graph V) (s t : V) : Bool :=
  if s ∉ g.vertices ∨ t ∉ g.vertices then false else decide (t ∈ g.out s)

/-- `edgesOutOf`, `Graph.h:82-90`; the sets are already sorted. -/
def edgesOutOf (g : Graph V) (v : V) : List V := if v ∈ g.vertices then g.out v else []

/-- `edgesInto`, `Graph.h:93-101`. -/
def edgesInto (g : Graph V) (v : V) : List V := if v ∈ g.vertices then g.inn v else []

/-! ## Topological sort -/

/-- One successor in Kahn's algorithm, `Graph.h:333-338`.  The head of the list is the back of
`active`. -/
def decr (st : (V → Int) × List V) (t : V) : (V → Int) × List V :=
  let cnt := upd st.1 t (st.1 t - 1)
  (cnt, if cnt t = 0 then t :: st.2 else st.2)

/-- The loop `Graph.h:329-339`, with fuel (`none` if it runs out). -/
def kahn (g : Graph V) : Nat → List V → (V → Int) → List V → Option (List V)
  | _, [], _, res => some res
  | 0, _ :: _, _, _ => none
  | k + 1, s :: act, cnt, res =>
    let st := (g.edgesOutOf s).foldl decr (cnt, act)
    kahn g k st.2 st.1 (res ++ [s])

/-- `topologicalSort`, `Graph.h:316-346`.  The outer option is `none` if the loop does not end
within one iteration per vertex, the inner one is `FailureOr`. -/
def topologicalSort (g : Graph V) : Option (Option (List V)) :=
  let cnt : V → Int := fun v => (g.edgesInto v).length
  let active := (g.vertices.filter fun v => cnt v = 0).reverse
  (kahn g g.vertices.length active cnt []).map fun res =>
    if res.length ≠ g.vertices.length then none else some res

/-! ## Levels -/

/-- The level of a vertex from the levels of its successors, `Graph.h:380-384`. -/
def levelOf (g : Graph V) (levels : V → Option Int) (v : V) : Int :=
  1 + (g.edgesOutOf v).foldl (fun m e => max m ((levels e).getD 0)) (-1)

/-- The loop `Graph.h:379-386`: the levels and the largest one. -/
def levelLoop (g : Graph V) : List V → (V → Option Int) → Int → (V → Option Int) × Int
  | [], lv, mx => (lv, mx)
  | v :: vs, lv, mx => levelLoop g vs (upd lv v (some (levelOf g lv v))) (max (levelOf g lv v) mx)

/-- `output[i].push_back(v)`; out of bounds is undefined. -/
def pushAt (output : List (List V)) (i : Int) (v : V) : Option (List (List V)) :=
  if 0 ≤ i then (output[i.toNat]?).map fun l => output.set i.toNat (l ++ [v]) else none

/-- `sortGraphByLevels`, `Graph.h:361-396`.  The keys of `levels` are the vertices. The outer
option is undefined behaviour, the inner one `FailureOr`. -/
def sortGraphByLevels (g : Graph V) : Option (Option (List (List V))) :=
  match g.topologicalSort with
  | none => none
  | some none => some none
  | some (some order) =>
    let (lv, mx) := levelLoop g order.reverse (fun _ => none) 0
    (g.vertices.foldlM (fun output v => pushAt output (mx - (lv v).getD 0) v)
      (List.replicate (mx + 1).toNat [])).map some

/-! ## Shortest path -/

/-- State of the search. -/
structure Search (V : Type) where
  queue : List V
  visited : List V
  dist : V → BitVec 64
  link : V → Option V

/-- One successor, `Graph.h:471-479`. -/
def relax (w : V → V → BitVec 64) (curr : V) (s : Search V) (next : V) : Search V :=
  let s' := if s.dist next > s.dist curr + w curr next then
      { s with link := upd s.link curr (some next),
               dist := upd s.dist next (s.dist curr + w curr next) }
    else if s.dist curr = 0#64 then { s with link := upd s.link curr (some next) }
    else s
  { s' with queue := s'.queue ++ [next] }

/-- The loop `Graph.h:452-480`, with fuel. -/
def search (g : Graph V) (w : V → V → BitVec 64) (target : V) : Nat → Search V → Option (Search V)
  | 0, _ => none
  | k + 1, s =>
    match s.queue with
    | [] => some s
    | curr :: q =>
      if curr = target then some { s with queue := q, dist := upd s.dist curr 0#64 }
      else if curr ∈ s.visited then search g w target k { s with queue := q }
      else search g w target k
        ((g.out curr).foldl (relax w curr) { s with queue := q, visited := curr :: s.visited })

/-- The loop `Graph.h:485-488`; reading a missing entry gives `V()`.  `none` if it does not reach
the target within the fuel. -/
def follow (dflt : V) (link : V → Option V) (target : V) : Nat → V → Option (List V)
  | 0, _ => none
  | k + 1, curr =>
    if curr = target then some [target]
    else (follow dflt link target k ((link curr).getD dflt)).map (curr :: ·)

/-- Results of `getShortestPath`. -/
inductive PathResult (V : Type) where
  | failure
  | path (l : List V)
  | diverges
  deriving DecidableEq

/-- `getShortestPath`, `Graph.h:437-494`; `dflt` is `V()`.  The search pushes every edge at most
once; a reconstruction longer than the vertices, the default and the target revisits a vertex and
never ends. -/
def getShortestPath (g : Graph V) (dflt : V) (w : V → V → BitVec 64) (start target : V) :
    PathResult V :=
  let edges := (g.vertices.map fun v => (g.out v).length).sum
  match search g w target (edges + 2)
      ⟨[start], [], upd (fun _ => BitVec.allOnes 64) start 0#64, fun _ => none⟩ with
  | none => .diverges
  | some s =>
    if s.dist target ≠ BitVec.allOnes 64 then
      match follow dflt s.link target (g.vertices.length + 3) start with
      | some l => .path l
      | none => .diverges
    else .failure

/-- The default weight, `Graph.h:428-432`. -/
def unitWeight (g : Graph V) (s t : V) : BitVec 64 :=
  if g.hasEdge s t then 1#64 else BitVec.allOnes 64

end Graph

/-! ## Colouring -/

/-- `UndirectedGraph<V>`, `Graph.h:525-571`. -/
structure UGraph (V : Type) where
  vertices : List V
  edges : V → List V

namespace UGraph

/-- A new graph. -/
def empty : UGraph V := ⟨[], fun _ => []⟩

/-- `addVertex`, `Graph.h:529`. -/
def addVertex (g : UGraph V) (v : V) : UGraph V := { g with vertices := ins v g.vertices }

/-- `addEdge`, `Graph.h:540-547`. -/
def addEdge (g : UGraph V) (s t : V) : UGraph V × Bool :=
  if s ∉ g.vertices ∨ t ∉ g.vertices then (g, false)
  else
    let e := upd g.edges s (ins t (g.edges s))
    ({ g with edges := upd e t (ins s (e t)) }, true)

/-- `edgesIncidentTo`, `Graph.h:558-566`. -/
def incident (g : UGraph V) (v : V) : List V := if v ∈ g.vertices then g.edges v else []

/-- `VertexInfo`, `Graph.h:623-628`. -/
structure Info (V : Type) where
  vertex : V
  saturation : Nat
  uncolored : Nat
  deriving DecidableEq

/-- `VertexInfo::operator<`, `Graph.h:630-637`. -/
def Info.lt (a b : Info V) : Bool :=
  if a.saturation ≠ b.saturation then decide (a.saturation < b.saturation)
  else if a.uncolored ≠ b.uncolored then decide (a.uncolored < b.uncolored)
  else decide (b.vertex < a.vertex)

/-- `priority_queue::top` and `pop` on an unordered list. -/
def popMax : List (Info V) → Option (Info V × List (Info V))
  | [] => none
  | a :: l =>
    match popMax l with
    | none => some (a, l)
    | some (b, l') => if a.lt b then some (b, a :: l') else some (a, l)

/-- The fields of `GreedyGraphColoring`, `Graph.h:667-679`. -/
structure Colouring (V : Type) where
  colors : V → Option Nat
  neighborColors : V → List Nat
  saturations : V → Option (Info V)
  queue : List (Info V)

/-- `updateSaturationDegree`, `Graph.h:640-654`; `neighborColors` has no duplicates. -/
def updateSaturation (g : UGraph V) (c : Colouring V) (v : V) : Colouring V :=
  let info : Info V :=
    ⟨v, (c.neighborColors v).length, ((g.incident v).filter fun u => (c.colors u).isNone).length⟩
  { c with saturations := upd c.saturations v (some info), queue := info :: c.queue }

/-- The body of the loop in `updateNeighborSaturation`, `Graph.h:660-663`. -/
def updateNeighbor (g : UGraph V) (color : Nat) (c : Colouring V) (u : V) : Colouring V :=
  if (c.colors u).isNone then
    let nc := upd c.neighborColors u (ins color (c.neighborColors u))
    updateSaturation g { c with neighborColors := nc } u
  else c

/-- The smallest unused colour from `color` on, `Graph.h:609-613`, with fuel. -/
def firstFree (used : List Nat) : Nat → Nat → Nat
  | 0, color => color
  | k + 1, color => if color ∈ used then firstFree used k (color + 1) else color

/-- The information is outdated, `Graph.h:601-604` (a missing entry has zero degrees). -/
def stale (s : Option (Info V)) (cur : Info V) : Bool :=
  match s with
  | some s => decide (cur.saturation ≠ s.saturation) || decide (cur.uncolored ≠ s.uncolored)
  | none => decide (cur.saturation ≠ 0) || decide (cur.uncolored ≠ 0)

/-- The loop `Graph.h:591-617`, with fuel; `pop` is the priority queue. -/
def colorLoop (g : UGraph V) (pop : List (Info V) → Option (Info V × List (Info V))) :
    Nat → Colouring V → Option (Colouring V)
  | 0, _ => none
  | k + 1, c =>
    match pop c.queue with
    | none => some c
    | some (cur, q) =>
      let c := { c with queue := q }
      if (c.colors cur.vertex).isSome || stale (c.saturations cur.vertex) cur then colorLoop g pop k c
      else
        let used := c.neighborColors cur.vertex
        let color := firstFree used used.length 0
        colorLoop g pop k ((g.incident cur.vertex).foldl (updateNeighbor g color)
          { c with colors := upd c.colors cur.vertex (some color) })

/-- `GreedyGraphColoring::color`, `Graph.h:581-620`, on a new object.  Every vertex is pushed at
first and once per coloured neighbour. -/
def color (g : UGraph V) (pop : List (Info V) → Option (Info V × List (Info V))) :
    Option (V → Option Nat) :=
  let c := g.vertices.foldl (updateSaturation g) ⟨fun _ => none, fun _ => [], fun _ => none, []⟩
  let fuel := g.vertices.length + (g.vertices.map fun v => (g.incident v).length).sum + 1
  (colorLoop g pop fuel c).map (·.colors)

end UGraph

end Heir.Graph
