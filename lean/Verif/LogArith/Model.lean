import Verif.LogArith.Spec
import Mathlib.Analysis.SpecialFunctions.Pow.Real
import Mathlib.Analysis.SpecialFunctions.Log.Base

/-! # Model of `lib/Utils/LogArithmetic.h` and `lib/Utils/LogArithmetic.cpp`

Doubles are real numbers, with `none` for negative infinity; rounding, overflow to positive
infinity and NaN (logarithms of negative numbers) are left out. -/

namespace Heir.LogArith

/-- `Log2Arithmetic`: the field `log2value`, `LogArithmetic.h:10-64`. -/
abbrev Log2 := Option ℝ

open Classical in
/-- `Log2Arithmetic::of`, `LogArithmetic.h:14-22`. -/
noncomputable def of (v : ℝ) : Log2 := if v = 0 then none else some (Real.logb 2 v)

/-- `getValue`, `LogArithmetic.h:48-53`. -/
noncomputable def getValue : Log2 → ℝ
  | none => 0
  | some x => (2 : ℝ) ^ x

open Classical in
/-- `operator+` after the exchange that makes `a ≥ b`, `LogArithmetic.cpp:17-35`, of finite `b`
(then `a` is finite too). -/
noncomputable def addOrdered (a b : ℝ) : ℝ :=
  if a - b > 512 then a
  else if a = b then 1 + a
  else a + Real.log (1 + (2 : ℝ) ^ (b - a)) / Real.log 2

open Classical in
/-- `operator+`, `LogArithmetic.cpp:9-36`. -/
noncomputable def add : Log2 → Log2 → Log2
  | none, b => b
  | some a, none => some a
  | some a, some b => some (if b > a then addOrdered b a else addOrdered a b)

/-- `operator*`, `LogArithmetic.cpp:38-45`. -/
noncomputable def mul : Log2 → Log2 → Log2
  | some a, some b => some (a + b)
  | _, _ => none

/-- `operator<`, `LogArithmetic.h:34-42`. -/
def lt : Log2 → Log2 → Prop
  | none, b => b ≠ none
  | some _, none => False
  | some a, some b => a < b

/-- A formula of a noise model computed with `Log2Arithmetic`, as in
`lib/Analysis/NoiseAnalysis/Noise.cpp:27-44`. -/
noncomputable def run : Expr → Log2
  | .const v => of v
  | .add a b => add (run a) (run b)
  | .mul a b => mul (run a) (run b)

end Heir.LogArith
