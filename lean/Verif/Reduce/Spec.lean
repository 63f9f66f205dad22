import Verif.Reduce.Model
import Mathlib.Algebra.BigOperators.Group.Finset.Basic

/-! # Meaning of the programs and of reductions -/

namespace Heir.Reduce

variable {R : Type} [CommRing R]

/-- The four ops on elements (floats are taken as a ring). -/
def Name.apply : Name → R → R → R
  | .addi, x, y => x + y
  | .addf, x, y => x + y
  | .muli, x, y => x * y
  | .mulf, x, y => x * y

/-- The reduction of `f 0, …, f (n-1)`, each once. -/
def Name.total : Name → Nat → (Nat → R) → R
  | .addi, n, f => ∑ i ∈ Finset.range n, f i
  | .addf, n, f => ∑ i ∈ Finset.range n, f i
  | .muli, n, f => ∏ i ∈ Finset.range n, f i
  | .mulf, n, f => ∏ i ∈ Finset.range n, f i

/-- Type of the result of an op, from the types of the values before it. -/
def typeOf (ts : List Ty) : Inst → Ty
  | .other ty => ty
  | .rotate src _ _ => ts.getD src .scalar
  | .extract _ _ _ => .scalar
  | .arith _ a _ => ts.getD a .scalar

/-- Types of the values of a program that follows values of types `ts`. -/
def types : List Inst → List Ty → List Ty
  | [], ts => ts
  | i :: is, ts => types is (ts ++ [typeOf ts i])

/-- An op is well typed when its operands come before it and have the right types. -/
def WellTyped (ts : List Ty) (v : Nat) : Inst → Prop
  | .other ty => ∀ n, ty = .vec n → 0 < n
  | .rotate src _ _ => src < v ∧ ∃ n, ts[src]? = some (.vec n)
  | .extract src i _ => src < v ∧ ∃ n, ts[src]? = some (.vec n) ∧ 0 ≤ i ∧ i < n
  | .arith _ a b => a < v ∧ b < v ∧ ts[a]? = ts[b]?

/-- `env v j` is element `j` of tensor `v`, and `env v 0` the value of a scalar `v`. The environment
is a run of the program if every op computes its result from its operands. -/
def Holds (ts : List Ty) (env : Nat → Nat → R) (v : Nat) : Inst → Prop
  | .other _ => True
  | .rotate src s _ =>
    ∀ n, ts[src]? = some (.vec n) → ∀ j < n, env v j = env src (((j : Int) + s) % n).toNat
  | .extract src i _ => env v 0 = env src i.toNat
  | .arith op a b => ∀ j, env v j = op.apply (env a j) (env b j)

/-- Well-typed program (all rotations of one-dimensional tensors). -/
def Valid (prog : List Inst) : Prop :=
  ∀ v i, prog[v]? = some i → WellTyped (types prog []) v i

/-- A run of the program. -/
def Run (prog : List Inst) (env : Nat → Nat → R) : Prop :=
  ∀ v i, prog[v]? = some i → Holds (types prog []) env v i

/-- No rotation amount is negative. -/
def NonNeg (prog : List Inst) : Prop :=
  ∀ src s known, Inst.rotate src s known ∈ prog → 0 ≤ s

end Heir.Reduce
