import Verif.Static.Model

/-! # What the loops compute

Run relations for `scf.for`/`affine.for` and `scf.while`, independent of the conversions. -/

namespace Heir.Static

/-- `for iv = iv; iv < ub; iv += step`: from state `st` the loop ends in `out`. -/
inductive ForRun {σ : Type} (ub : Int) (step : Nat) (body : Int → σ → σ) : Int → σ → σ → Prop
  | stop {iv st} : ub ≤ iv → ForRun ub step body iv st st
  | next {iv st out} : iv < ub → ForRun ub step body (iv + step) (body iv st) out →
      ForRun ub step body iv st out

/-- The results of a `scf.for` from its initial values. -/
def ForOp.Runs {σ : Type} (f : ForOp σ) (init out : σ) : Prop :=
  ∃ step, f.step = some step ∧ 0 < step ∧ ForRun f.ub step f.body f.lb init out

def AffineFor.Runs {σ : Type} (f : AffineFor σ) (init out : σ) : Prop :=
  ForRun f.ub f.step f.body f.lb init out

/-- The values `scf.condition` passes on. -/
def WhileOp.Forwards {α : Type} (w : WhileOp α) (st fw : List α) : Prop :=
  w.fwd.map (Fwd.value st) = fw.map some

/-- A `scf.while` that leaves after exactly `k` executions of its `after` region. -/
inductive WhileRun {α : Type} (w : WhileOp α) : Nat → List α → List α → Prop
  | stop {st out} : w.cond st = false → w.Forwards st out → WhileRun w 0 st out
  | next {k st fw out} : w.cond st = true → w.Forwards st fw → WhileRun w k (w.after fw) out →
      WhileRun w (k + 1) st out

/-- The tensor has the shape in its type. -/
def HasShape {α : Type} (t : List α) : Option Nat → Prop
  | some n => t.length = n
  | none => True

end Heir.Static
