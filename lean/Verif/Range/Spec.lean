import Verif.Range.Model

/-! # What ranges are for

Values are tensors of rationals, given as functions of the position that are zero beyond the last one; a scalar is a
tensor with one element. -/

namespace Heir.Range

/-- The elements of a constant; integers are signed. -/
def Const.elems : Const → List ℚ
  | .float c => [c]
  | .int c => [(c.toInt : ℚ)]
  | .denseFloat cs => cs
  | .denseInt cs => cs.map fun c => (c.toInt : ℚ)
  | .resource cs => cs

/-- The elements of `r` come from `srcs`, perhaps negated, or are zero: what slicing, rotating, reshaping, selecting,
concatenating and all ciphertext management do. -/
def MadeOf (V : Nat → Nat → ℚ) (srcs : List Nat) (r : Nat → ℚ) : Prop :=
  ∀ i, r i = 0 ∨ ∃ a ∈ srcs, ∃ j, r i = V a j ∨ r i = - V a j

/-- What an operation does. -/
def Performs (V : Nat → Nat → ℚ) (op : Op) : Prop :=
  let a := V (op.args.getD 0 0)
  let b := V (op.args.getD 1 0)
  let r := V op.res
  match op.kind with
  | .add => ∀ i, r i = a i + b i
  | .mul => ∀ i, r i = a i * b i
  | .sub => ∀ i, r i = a i - b i
  | .const c => ∀ i, r i = c.elems.getD i 0
  | .init => ∀ i, r i = a i
  | .insert => ∃ k, ∀ i, r i = if i = k then a 0 else b i
  | .other _ srcs => MadeOf V srcs r

/-- A run of the program on inputs of at most the given magnitude. -/
structure Runs (input : ℚ) (V : Nat → Nat → ℚ) (g : Prog) : Prop where
  args : ∀ v, v < g.nargs → ∀ i, |V v i| ≤ input
  ops : ∀ op ∈ g.ops, Performs V op

/-- Each value is defined once, before its uses, with the operands its kind needs. -/
def SSA : (Nat → Prop) → List Op → Prop
  | _, [] => True
  | P, op :: ops =>
    (∀ a ∈ op.args, P a) ∧ ¬ P op.res ∧
      (match op.kind with
        | .add | .mul | .sub | .insert => op.args.length = 2
        | .const _ => op.args.length = 0
        | .init => op.args.length = 1
        | .other _ srcs => ∀ a ∈ srcs, a ∈ op.args) ∧
      SSA (fun v => P v ∨ v = op.res) ops

/-- What the analysis gets right: no subtractions, no negative elements of integer tensors, and other operations take
their elements from their first operand, which is no constant whose elements the analysis does not know. -/
def Covered (t : Nat → Option ℚ) (g : Prog) : Prop :=
  ∀ op ∈ g.ops, match op.kind with
    | .sub => False
    | .const (.denseInt cs) => ∀ c ∈ cs, 0 ≤ c.toInt
    | .other _ srcs => (∀ a ∈ srcs, a = op.args.headD 0) ∧ (t (op.args.headD 0) = none → firstInit t op.args = none)
    | _ => True

/-- A value of the program. -/
def Prog.Value (g : Prog) (v : Nat) : Prop := v < g.nargs ∨ ∃ op ∈ g.ops, op.res = v

end Heir.Range
