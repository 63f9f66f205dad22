import Verif.Chain.Model
import Mathlib.Logic.Relation

/-! # What the ops compute

Independent of the pass: typing, executions without undefined behaviour, users. -/

namespace Heir.Chain

/-- Indices inside a tensor of a shape. -/
def InBounds : List Nat → List Int → Prop
  | [], [] => True
  | n :: sh, i :: idx => (0 ≤ i ∧ i < n) ∧ InBounds sh idx
  | _, _ => False

/-- Operands are defined earlier and have the right type; `tensor_ext.rotate` is used on vectors. -/
def Kind.WellTyped (shapeOf : Nat → List Nat) (v : Nat) (shape : List Nat) : Kind → Prop
  | .other => True
  | .extract src idx => src < v ∧ shape = [] ∧ idx.length = (shapeOf src).length
  | .insert scalar dest idx =>
    scalar < v ∧ dest < v ∧ shapeOf scalar = [] ∧ shape = shapeOf dest ∧ idx.length = shape.length
  | .rotate src _ => src < v ∧ shape = shapeOf src ∧ shape.length = 1

def Valid (prog : List Op) : Prop :=
  ∀ v (o : Op), prog[v]? = some o → o.kind.WellTyped (shapeAt prog) v o.shape

/-- The operands of an op. -/
def Kind.operands : Kind → List Nat
  | .other => []
  | .extract src _ => [src]
  | .insert scalar dest _ => [scalar, dest]
  | .rotate src _ => [src]

variable {α : Type}

/-- `tensor.extract`, `tensor.insert` and `tensor_ext.rotate` on run-time values: a tensor is a
function of the index tuple, a scalar is its value at the empty tuple. Indices outside the tensor are
undefined behaviour and are not executions. -/
def Kind.Holds (shapeOf : Nat → List Nat) (env : Nat → List Int → α) (v : Nat) : Kind → Prop
  | .other => True
  | .extract src idx =>
    InBounds (shapeOf src) (idx.map Idx.val) ∧ env v [] = env src (idx.map Idx.val)
  | .insert scalar dest idx =>
    InBounds (shapeOf dest) (idx.map Idx.val) ∧ ∀ j, InBounds (shapeOf dest) j →
      env v j = if j = idx.map Idx.val then env scalar [] else env dest j
  | .rotate src shift => ∀ n : Nat, shapeOf src = [n] → ∀ j : Int, 0 ≤ j → j < n →
      env v [j] = env src [(j + shift) % n]

/-- `env` gives the values of an execution of the program. The values of other ops are free. -/
def Run (prog : List Op) (env : Nat → List Int → α) : Prop :=
  ∀ v (o : Op), prog[v]? = some o → o.kind.Holds (shapeAt prog) env v

/-- `users` lists the users of every value, in some order. Ops of kind `other` may use anything that
comes before them. -/
def IsUsers (prog : List Op) (users : Nat → List Nat) : Prop :=
  ∀ v u, u ∈ users v → v < u ∧ ∀ o : Op, prog[u]? = some o → o.kind ≠ .other → v ∈ o.kind.operands

/-- Not branching: at most one op inserts an extracted element into a value. -/
def Linear (prog : List Op) : Prop :=
  ∀ (u u' : Nat) (o o' : Op) (s s' d : Nat) (i i' : List Idx), prog[u]? = some o → prog[u']? = some o' → o.kind = .insert s d i →
    o'.kind = .insert s' d i' → (∃ t j, (prog[s]?.map Op.kind) = some (.extract t j)) →
    (∃ t j, (prog[s']?.map Op.kind) = some (.extract t j)) → u = u'

/-- One application of the pattern of the pass, at any op and with any order of the use lists. -/
def Rewrites (prog prog' : List Op) : Prop :=
  ∃ users k, IsUsers prog users ∧ matchAndRewrite prog users k = some prog'

end Heir.Chain
