import Verif.BfvNoise.Spec
import Mathlib.Analysis.SpecialFunctions.Log.Base

/-! # Model of the BFV noise analysis with the worst-case coefficient bound

`lib/Analysis/NoiseAnalysis/BFV/NoiseByBoundCoeffModel.cpp` and `NoiseAnalysis.cpp`.  Numbers are
reals; `Verif/LogArith` says what computing with their logarithms adds.  Products (`evalMul`) are
not modelled. -/

namespace Heir.BfvNoise

/-- The scheme parameters that the model reads. -/
structure Param where
  ringDim : Nat
  std0 : ℝ
  level : Nat
  dnum : Nat
  extended : Bool
  publicKey : Bool

/-- `getExpansionFactor` and `getExpansionFactorForModulusSwitching`, variant `WORST_CASE`,
`NoiseByBoundCoeffModel.cpp:42-79`. -/
def expansionFactor (p : Param) : ℝ := p.ringDim

/-- `getBoundErr`, `NoiseByBoundCoeffModel.cpp:81-87`. -/
def boundErr (p : Param) : ℝ := p.std0 * 6

/-- `getBoundKey`, `NoiseByBoundCoeffModel.cpp:89-93`. -/
def boundKey : ℝ := 1

/-- `evalEncryptPk`, `NoiseByBoundCoeffModel.cpp:95-107`. -/
noncomputable def evalEncryptPk (p : Param) : ℝ := boundErr p * (1 + 2 * expansionFactor p * boundKey)

/-- `evalEncryptSk`, `NoiseByBoundCoeffModel.cpp:109-118`. -/
def evalEncryptSk (p : Param) : ℝ := boundErr p

/-- `evalEncrypt`, `NoiseByBoundCoeffModel.cpp:120-138`. -/
noncomputable def evalEncrypt (p : Param) : ℝ :=
  if p.extended then (1 + expansionFactor p * boundKey) / 2
  else if p.publicKey then evalEncryptPk p else evalEncryptSk p

/-- `evalAdd`, `NoiseByBoundCoeffModel.cpp:147-153`. -/
noncomputable def evalAdd (a b : ℝ) : ℝ := a + b + 1

/-- Digits of a key switch, `NoiseByBoundCoeffModel.cpp:203`. -/
noncomputable def numDigit (p : Param) : ℝ := (⌈((p.level + 1 : Nat) : ℝ) / p.dnum⌉ : ℝ) + 1

/-- What `evalRelinearizeHYBRID` adds, `NoiseByBoundCoeffModel.cpp:182-223`. -/
noncomputable def keySwitchNoise (p : Param) : ℝ :=
  numDigit p * expansionFactor p * boundErr p / 2 + (1 + expansionFactor p * boundKey) / 2

/-- `evalRelinearize`, `NoiseByBoundCoeffModel.cpp:225-232`. -/
noncomputable def evalRelinearize (p : Param) (a : ℝ) : ℝ := a + keySwitchNoise p

/-- `visitOperation`, `BFV/NoiseAnalysis.cpp:83-99,114-122,139-178`: plaintext operands count as `evalConstant`, zero. -/
noncomputable def analyse (p : Param) : Prog → ℝ
  | .input _ => evalEncrypt p
  | .plain _ => 0
  | .add a b | .sub a b => evalAdd (analyse p a) (analyse p b)
  | .keySwitch _ _ a => evalRelinearize p (analyse p a)

/-- `toLogTotal`, `NoiseByBoundCoeffModel.cpp:32-40`, with the sum of the logarithms of the moduli as that of
`Q`. -/
noncomputable def toLogTotal (Q t : Nat) : ℝ := Real.logb 2 Q - Real.logb 2 t - 1

/-- `toLogBudget`, `NoiseByBoundCoeffModel.cpp:27-30`. -/
noncomputable def toLogBudget (Q t : Nat) (noise : ℝ) : ℝ := toLogTotal Q t - Real.logb 2 noise

end Heir.BfvNoise
