import Verif.Graph.Model

/-!
# Model of edge contraction, strong components and condensation

`lib/Utils/Graph/Graph.h:104-312`.  Same conventions as in `Model.lean`.
-/

namespace Heir.Graph

variable {V : Type} [LinearOrder V]

/-- Assignment to or removal of an entry of `weights`. -/
def updW (w : V → V → Option Int) (a b : V) (x : Option Int) : V → V → Option Int :=
  fun c d => if c = a ∧ d = b then x else w c d

namespace Graph

/-! ## Contraction -/

/-- One outgoing edge of the target, `Graph.h:125-134`. -/
def redirectOut (s t : V) (g : Graph V) (succ : V) : Graph V :=
  if succ ≠ s then
    let g := match g.weights t succ with
      | some w => { g with weights := updW (updW g.weights s succ (some w)) t succ none }
      | none => g
    (g.addEdge s succ).1
  else g

/-- One incoming edge of the target, `Graph.h:137-146`. -/
def redirectIn (s t : V) (g : Graph V) (pred : V) : Graph V :=
  if pred ≠ s then
    let g := match g.weights pred t with
      | some w => { g with weights := updW (updW g.weights pred s (some w)) pred t none }
      | none => g
    (g.addEdge pred s).1
  else g

/-- The removal of a vertex, `Graph.h:148-159`. -/
def removeTarget (s t : V) (g : Graph V) : Graph V :=
  let g := { g with out := upd g.out s (del t (g.out s)), weights := updW g.weights s t none }
  let g := (g.edgesOutOf t).foldl
    (fun g succ => { g with inn := upd g.inn succ (del t (g.inn succ)) }) g
  let g := (g.edgesInto t).foldl
    (fun g pred => { g with out := upd g.out pred (del t (g.out pred)) }) g
  { g with vertices := del t g.vertices, out := upd g.out t [], inn := upd g.inn t [] }

/-- `contractEdge`, `Graph.h:116-162`.  `source` is a parameter passed by value, and `mergeFn`
assigns to this copy; `merge` gives the copy after the call (with no `mergeFn`, or one that
changes what `source` points to, the copy is unchanged). -/
def contractEdge (merge : V → V → V) (g : Graph V) (s t : V) : Graph V × Bool :=
  if g.hasEdge s t then
    let s := merge s t
    let g := (g.edgesOutOf t).foldl (redirectOut s t) g
    let g := (g.edgesInto t).foldl (redirectIn s t) g
    (removeTarget s t g, true)
  else (g, false)

/-! ## Strongly connected components -/

/-- The variables of `getStronglyConnectedComponents`, `Graph.h:178-181`; the head of `stack` is
the back of the `SetVector`. -/
structure Scc (V : Type) where
  index : V → Option Nat
  low : V → Nat
  stack : List V
  cur : Nat
  result : List (List V)

/-- `Graph.h:184-185`. -/
def Scc.visit (v : V) (st : Scc V) : Scc V :=
  { st with index := upd st.index v (some st.cur), low := upd st.low v st.cur,
            stack := v :: st.stack, cur := st.cur + 1 }

/-- `lowlink[v] = std::min(lowlink[v], x)`. -/
def Scc.lower (v : V) (x : Nat) (st : Scc V) : Scc V := { st with low := upd st.low v (min (st.low v) x) }

/-- One successor, `Graph.h:187-194`. -/
def Scc.edge (dfs : V → Scc V → Option (Scc V)) (v : V) (st : Scc V) (w : V) : Option (Scc V) :=
  match st.index w with
  | none => (dfs w st).map fun st => st.lower v (st.low w)
  | some i => some (if w ∈ st.stack then st.lower v i else st)

/-- The loop that pops a component, `Graph.h:199-203`; `none` for `back` of an empty stack. -/
def popUntil (v : V) : List V → List V → Option (List V × List V)
  | [], _ => none
  | w :: st, scc => if w = v then some (ins w scc, st) else popUntil v st (ins w scc)

/-- `Graph.h:196-205`. -/
def Scc.close (v : V) (st : Scc V) : Option (Scc V) :=
  if some (st.low v) = st.index v then
    (popUntil v st.stack []).map fun r => { st with stack := r.2, result := st.result ++ [r.1] }
  else some st

/-- The lambda `dfs`, `Graph.h:183-206`.  The first argument bounds the depth of the recursion;
`none` if it is exceeded. -/
def dfs (g : Graph V) : Nat → V → Scc V → Option (Scc V)
  | 0, _, _ => none
  | f + 1, v, st => ((g.edgesOutOf v).foldlM (Scc.edge (dfs g f) v) (st.visit v)).bind (Scc.close v)

/-- One vertex of the outer loop, `Graph.h:208-209`. -/
def root (g : Graph V) (st : Scc V) (v : V) : Option (Scc V) :=
  match st.index v with
  | none => g.dfs g.vertices.length v st
  | some _ => some st

/-- `getStronglyConnectedComponents`, `Graph.h:177-212`. -/
def getStronglyConnectedComponents (g : Graph V) : Option (List (List V)) :=
  (g.vertices.foldlM (root g) ⟨fun _ => none, fun _ => 0, [], 0, []⟩).map (·.result)

/-! ## Condensation -/

/-- The variables of `condenseGraph`: the graph, the calls of `mergeFn` so far, and `alive`. -/
structure Cond (V : Type) where
  g : Graph V
  calls : List (V × V)
  alive : List V

/-- One edge, `Graph.h:247-252`; the result of `contractEdge` is ignored. -/
def Cond.edge (merge : V → V → V) (u : V) (c : Cond V) (v : V) : Cond V :=
  if v ∈ c.alive then
    let r := c.g.contractEdge merge u v
    ⟨r.1, if r.2 then c.calls ++ [(u, v)] else c.calls, del v c.alive⟩
  else c

/-- One vertex of the snapshot, `Graph.h:245-253`. -/
def Cond.vertex (merge : V → V → V) (c : Cond V) (u : V) : Cond V :=
  if u ∈ c.alive then (c.g.edgesOutOf u).foldl (Cond.edge merge u) c else c

/-- The passes over one component, `Graph.h:241-254`.  The first argument bounds their number;
`none` if it is exceeded. -/
def Cond.passes (merge : V → V → V) : Nat → Cond V → Option (Cond V)
  | k, c =>
    if 1 < c.alive.length then
      match k with
      | 0 => none
      | k + 1 => passes merge k (c.alive.foldl (Cond.vertex merge) c)
    else some c

/-- One component, `Graph.h:235-255`. -/
def Cond.component (merge : V → V → V) (k : Nat) (c : Cond V) (scc : List V) : Option (Cond V) :=
  if scc.length ≤ 1 then some c else Cond.passes merge k { c with alive := scc }

/-- `condenseGraph`, `Graph.h:232-256`, if no component needs more than `k` passes. -/
def condenseGraph (merge : V → V → V) (g : Graph V) (k : Nat) : Option (Cond V) :=
  g.getStronglyConnectedComponents.bind fun sccs => sccs.foldlM (Cond.component merge k) ⟨g, [], []⟩

/-! ## Critical path -/

/-- `getSources`, `Graph.h:399-405`. -/
def getSources (g : Graph V) : List V := g.vertices.filter fun v => (g.inn v).length = 0

/-- `getSinks`, `Graph.h:408-415`. -/
def getSinks (g : Graph V) : List V := g.vertices.filter fun v => (g.out v).length = 0

/-- The vertices kept after the order is known, `Graph.h:286-311`. -/
def criticalOf (g : Graph V) (l : List V) : Option (List V) :=
  if l.length < 3 then some l
  else match l.head?, l.getLast? with
    | some a, some b =>
      if a ∉ g.getSources then none
      else if b ∉ g.getSinks then none
      else some ((l.tail.dropLast.filter fun v => v ∉ g.getSources ∧ v ∉ g.getSinks) ++ [b])
    | _, _ => none

/-- `findApproximateCriticalPath`, `Graph.h:281-312`; the outer `Option` is that of
`topologicalSort`. -/
def findApproximateCriticalPath (g : Graph V) : Option (Option (List V)) :=
  g.topologicalSort.map fun r => r.bind (criticalOf g)

end Graph

end Heir.Graph
