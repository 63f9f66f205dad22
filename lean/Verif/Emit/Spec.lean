import Verif.Emit.Model
import Verif.Dag.Spec

/-!
# What the operations mean

`exec` runs a block: names are set once they are defined, and what a region defines is gone when
the region ends.  `visibleAfter` is the rule of the MLIR verifier that a value is used where it is
visible; it does not run anything.
-/

namespace Heir.Emit

open Heir.Dag (Kind Heap Env LoopNode Sem setVar setVars)

variable {V O : Type}

/-- The values of names. -/
def readAll (ρ : Nat → Option V) : List Nat → Option (List V)
  | [] => some []
  | x :: xs => (ρ x).bind fun v => (readAll ρ xs).map fun vs => v :: vs

/-- The induction values of `scf.for`; a step that is not positive is undefined unless nothing is
run. -/
def inductionValues (lower upper step : Int) : Option (List Int) :=
  if upper ≤ lower then some []
  else if step ≤ 0 then none
  else some ((List.range ((upper - lower + step - 1) / step).toNat).map
    fun (j : Nat) => lower + j * step)

/-- Carry values through the iterations. -/
def carry (f : Int → List V → Option (List V)) : List Int → List V → Option (List V)
  | [], vals => some vals
  | i :: is, vals => (f i vals).bind (carry f is)

/-- Run a block from the names `ρ`. -/
def exec (S : Sem V O) : Code O → Env V → Option (Env V)
  | .nil, ρ => some ρ
  | .seq a b, ρ => (exec S a ρ).bind (exec S b)
  | .op res o args, ρ => (readAll ρ args).bind fun vs => (S.pure o vs).map (setVar ρ res)
  | .ite res c t ty e ey, ρ =>
    (ρ c).bind fun v => (S.truth v).bind fun b =>
      if b then (exec S t ρ).bind fun ρ' => (readAll ρ' ty).map (setVars ρ res)
      else (exec S e ρ).bind fun ρ' => (readAll ρ' ey).map (setVars ρ res)
  | .loop res iv lower upper step inits args body ys, ρ =>
    (readAll ρ inits).bind fun vals => (inductionValues lower upper step).bind fun is =>
      (carry (fun i vals =>
        (exec S body (setVars (setVar ρ iv (S.ofInt i)) args vals)).bind fun ρ' => readAll ρ' ys)
        is vals).map (setVars ρ res)

/-- The names visible after a block, if every name is used where it is visible and yields have the
right number of operands. -/
def visibleAfter : Code O → List Nat → Option (List Nat)
  | .nil, vis => some vis
  | .seq a b, vis => (visibleAfter a vis).bind (visibleAfter b)
  | .op res _ args, vis => if args ⊆ vis then some (res :: vis) else none
  | .ite res c t ty e ey, vis =>
    if c ∈ vis then
      (visibleAfter t vis).bind fun vt => (visibleAfter e vis).bind fun ve =>
        if ty ⊆ vt ∧ ey ⊆ ve ∧ ty.length = res.length ∧ ey.length = res.length then
          some (res ++ vis)
        else none
    else none
  | .loop res iv _ _ _ inits args body ys, vis =>
    if inits ⊆ vis ∧ args.length = inits.length ∧ res.length = inits.length then
      (visibleAfter body (iv :: args ++ vis)).bind fun vb =>
        if ys ⊆ vb ∧ ys.length = inits.length then some (res ++ vis) else none
    else none

/-- `c` is read or run by `q`. -/
def Edge (D : Heap O) (q c : Nat) : Prop :=
  c ∈ Heir.Dag.scopeChildren (D q) ∨ ∃ l, D q = .loop l ∧ c = l.body

/-- `b` is the body of a region of `p`. -/
def Region (D : Heap O) (p b : Nat) : Prop :=
  (∃ l, D p = .loop l ∧ b = l.body) ∨ ∃ c t e, D p = .ifElse c t e ∧ (b = t ∨ b = e)

/-- What is computed in a region is used in that region only; variables may be used anywhere. -/
structure Private (D : Heap O) (roots : List Nat) : Prop where
  own : ∀ p b m q, Heir.Dag.Below D roots p → Region D p b → Heir.Dag.Reach D b m → D m ≠ .var →
    Heir.Dag.Below D roots q → Edge D q m → Heir.Dag.Reach D b q ∨ (q = p ∧ m = b)
  branches : ∀ p c t e, Heir.Dag.Below D roots p → D p = .ifElse c t e → t ≠ e

/-- The number of operations of a block, with those in regions. -/
def ops : Code O → Nat
  | .nil => 0
  | .seq a b => ops a + ops b
  | .op .. => 1
  | .ite _ _ t _ e _ => ops t + ops e + 1
  | .loop _ _ _ _ _ _ _ body _ => ops body + 1

/-- Nodes that stand for an operation. -/
def Emits : Kind O → Prop
  | .pure .. => True
  | .ifElse .. => True
  | .loop _ => True
  | _ => False

/-- The body of a loop yields as many values as the loop carries. -/
def Arity (D : Heap O) (roots : List Nat) : Prop :=
  ∀ p l cs, Heir.Dag.Below D roots p → D p = .loop l → D l.body = .yield cs →
    cs.length = l.inits.length

end Heir.Emit
