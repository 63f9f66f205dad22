import Verif.Vectorize.Model
import Mathlib.Logic.Relation

/-! # What vectorization must preserve -/

namespace Heir.Vectorize

variable {K : Type}

/-- A value is the result of an operation of the list. -/
def Defined (nodes : List (Node K)) (i : Nat) : Prop := ∃ n ∈ nodes, n.id = i

/-- The result of `u` is used by the operation with result `v`, in its operands or its regions. -/
def Uses (block : List (Node K)) (u v : Nat) : Prop :=
  Defined block u ∧ ∃ n ∈ block, n.id = v ∧ u ∈ n.refs

/-- A block before vectorization: each value has one definition, candidates have no regions, and the
numbers from `next` on are free. -/
structure Block (vec : K → Bool) (next : Nat) (block : List (Node K)) : Prop where
  nodup : (block.map Node.id).Nodup
  isOp : ∀ n ∈ block, ∃ i k args captured, n = .op i k args captured ∧ (vec k = true → captured = [])
  fresh : ∀ n ∈ block, n.id < next ∧ ∀ r ∈ n.refs, r < next

/-- The values given to a block: none of them defined by it or free. -/
def Outside {α : Type} (block : List (Node K)) (next : Nat) (env : Nat → Option (Val α)) : Prop :=
  (∀ i, Defined block i → env i = none) ∧ ∀ i, next ≤ i → env i = none

/-- The result of a candidate. -/
def IsVec (vec : K → Bool) (block : List (Node K)) (i : Nat) : Prop :=
  ∃ n ∈ block, n.isVec vec = true ∧ n.id = i

/-- No region uses a value that depends on a candidate. -/
def CapturesClear (vec : K → Bool) (block : List (Node K)) : Prop :=
  ∀ i k args captured, Node.op i k args captured ∈ block → ∀ r ∈ captured, ∀ u, IsVec vec block u →
    ¬ Relation.ReflTransGen (Uses block) u r

/-- Symmetric and transitive. -/
structure PartialEquiv {β : Type} (c : β → β → Bool) : Prop where
  symm : ∀ a b, c a b = true → c b a = true
  trans : ∀ a b d, c a b = true → c b d = true → c a d = true

end Heir.Vectorize
