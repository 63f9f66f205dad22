import Mathlib.Data.Real.Basic

/-! # Specification notions for the arithmetic of logarithms -/

namespace Heir.LogArith

/-- Formulas of the noise models: nonnegative constants, sums and products. -/
inductive Expr
  | const (v : ℝ)
  | add (a b : Expr)
  | mul (a b : Expr)

/-- The value of a formula. -/
def Expr.eval : Expr → ℝ
  | .const v => v
  | .add a b => a.eval + b.eval
  | .mul a b => a.eval * b.eval

/-- No constant is negative. -/
def Expr.NonNeg : Expr → Prop
  | .const v => 0 ≤ v
  | .add a b => a.NonNeg ∧ b.NonNeg
  | .mul a b => a.NonNeg ∧ b.NonNeg

/-- The number of sums. -/
def Expr.sums : Expr → Nat
  | .const _ => 0
  | .add a b => a.sums + b.sums + 1
  | .mul a b => a.sums + b.sums

end Heir.LogArith
