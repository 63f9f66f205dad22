import Verif.Graph.Spec

/-! # Specification of strong components and contraction -/

namespace Heir.Graph

variable {V : Type}

/-- Each of two vertices reaches the other. -/
def Mutual (E : V → V → Prop) (a b : V) : Prop :=
  Relation.ReflTransGen E a b ∧ Relation.ReflTransGen E b a

/-- The representatives of the vertices after merging the second vertex of each pair into the
first one. -/
def merged [DecidableEq V] (l : List (V × V)) : V → V :=
  l.foldl (fun f p x => if f x = p.2 then p.1 else f x) id

/-- What the vertices hold after the given calls `mergeFn(source, target)`, if each holds itself
at first and `mergeFn` appends what the target holds to what the source holds. -/
def holds [DecidableEq V] (calls : List (V × V)) : V → List V :=
  calls.foldl (fun f c x => if x = c.1 then f c.1 ++ f c.2 else f x) fun v => [v]

end Heir.Graph
