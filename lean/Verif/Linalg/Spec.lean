import Verif.Linalg.Model
import Verif.Fold.Spec

/-! # What the element-wise ops and maps compute -/

namespace Heir.Linalg

variable {V ι : Type}

/-- A value of the body, given the elements of the block arguments, the outer values and the results
so far. -/
def Val.eval (args : List V) (outer : Nat → V) (rs : List V) : Val → Option V
  | .arg i => args[i]?
  | .outer v => some (outer v)
  | .res n => rs[n]?

/-- The results of the ops of a body, after those in `rs`; `sem` is what an op computes on scalars. -/
def evalBody (sem : Nat → Nat → List V → V) (args : List V) (outer : Nat → V) :
    List (Op Val) → List V → Option (List V)
  | [], rs => some rs
  | op :: ops, rs => (op.operands.mapM (Val.eval args outer rs)).bind fun xs =>
    evalBody sem args outer ops (rs ++ [sem op.name op.attrs xs])

/-- The yielded elements. -/
def evalYield (sem : Nat → Nat → List V → V) (args : List V) (outer : Nat → V)
    (body : List (Op Val)) (yielded : List Val) : Option (List V) :=
  (evalBody sem args outer body []).bind fun rs => yielded.mapM (Val.eval args outer rs)

/-- A tensor of the new code. -/
def TVal.eval (tensors : List (ι → V)) (outer : Nat → V) (rs : List (ι → V)) : TVal → Option (ι → V)
  | .operand i => tensors[i]?
  | .splat v => some fun _ => outer v
  | .res n => rs[n]?

/-- The new ops: every op works element by element. -/
def evalOps (sem : Nat → Nat → List V → V) (tensors : List (ι → V)) (outer : Nat → V) :
    List (Op TVal) → List (ι → V) → Option (List (ι → V))
  | [], rs => some rs
  | op :: ops, rs => (op.operands.mapM (TVal.eval tensors outer rs)).bind fun xs =>
    evalOps sem tensors outer ops (rs ++ [fun i => sem op.name op.attrs (xs.map (· i))])

/-- The tensors that replace the results. -/
def evalNew (sem : Nat → Nat → List V → V) (tensors : List (ι → V)) (outer : Nat → V)
    (ops : List (Op TVal)) (results : List TVal) : Option (List (ι → V)) :=
  (evalOps sem tensors outer ops []).bind fun rs => results.mapM (TVal.eval tensors outer rs)

/-- The op that replaces a `linalg.map`, element by element. -/
def evalElementwise (sem : Nat → Nat → List V → V) (tensors : List (ι → V)) (op : Op Nat) (i : ι) :
    Option V :=
  (op.operands.mapM fun k => tensors[k]?).map fun xs => sem op.name op.attrs (xs.map (· i))

/-- The index of an operand at an iteration. -/
def Expr.eval (other : Nat → List Nat → Nat) (idx : List Nat) : Expr → Nat
  | .dim i => idx.getD i 0
  | .const c => c
  | .other e => other e idx

end Heir.Linalg
