import Verif.Graph.Model
import Mathlib.Logic.Relation

/-!
# Specification of the graph algorithms

Graphs are described by the calls that built them.
-/

namespace Heir.Graph

variable {V : Type}

/-- A call that builds a graph. -/
inductive Cmd (V : Type) where
  | vertex (v : V)
  | edge (s t : V)

/-- The vertex was added. -/
def IsVertex (cmds : List (Cmd V)) (v : V) : Prop := Cmd.vertex v ∈ cmds

/-- The edge was added after its ends. -/
def IsEdge (cmds : List (Cmd V)) (s t : V) : Prop :=
  ∃ pre post, cmds = pre ++ Cmd.edge s t :: post ∧ Cmd.vertex s ∈ pre ∧ Cmd.vertex t ∈ pre

/-- No vertex reaches itself. -/
def Acyclic (cmds : List (Cmd V)) : Prop := ∀ v, ¬ Relation.TransGen (IsEdge cmds) v v

/-- `s` occurs before `t`. -/
def Before (l : List V) (s t : V) : Prop := ∃ a b c, l = a ++ s :: (b ++ t :: c)

/-- Every vertex once, every edge forwards. -/
structure TopologicalOrder (cmds : List (Cmd V)) (l : List V) : Prop where
  nodup : l.Nodup
  mem : ∀ v, v ∈ l ↔ IsVertex cmds v
  forward : ∀ s t, IsEdge cmds s t → Before l s t

/-- A walk of the given length. -/
inductive Walk (E : V → V → Prop) : V → V → Nat → Prop
  | nil (v) : Walk E v v 0
  | cons {u v w n} : E u v → Walk E v w n → Walk E u w (n + 1)

/-- The length of the longest walk from a vertex. -/
def Height (E : V → V → Prop) (v : V) (n : Nat) : Prop :=
  (∃ w, Walk E v w n) ∧ ∀ w m, Walk E v w m → m ≤ n

/-- Two vertices joined by an edge. -/
def Adj (cmds : List (Cmd V)) (u v : V) : Prop := IsEdge cmds u v ∨ IsEdge cmds v u

variable [LinearOrder V]

/-- The directed graph after the calls. -/
def build (cmds : List (Cmd V)) : Graph V :=
  cmds.foldl (fun g c => match c with
    | .vertex v => g.addVertex v
    | .edge s t => (g.addEdge s t).1) Graph.empty

/-- The undirected graph after the calls. -/
def buildU (cmds : List (Cmd V)) : UGraph V :=
  cmds.foldl (fun g c => match c with
    | .vertex v => g.addVertex v
    | .edge s t => (g.addEdge s t).1) UGraph.empty

open UGraph in
/-- `pop` removes some element of a nonempty queue. -/
def Pops (pop : List (Info V) → Option (Info V × List (Info V))) : Prop :=
  pop [] = none ∧ ∀ q, q ≠ [] → ∃ x r, pop q = some (x, r) ∧ q.Perm (x :: r)

end Heir.Graph
