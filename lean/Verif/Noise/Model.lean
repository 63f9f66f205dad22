import Mathlib.Algebra.Order.Field.Rat
import Mathlib.Algebra.BigOperators.Group.List.Basic

/-! # Model of the noise analysis for BGV

`lib/Analysis/NoiseAnalysis/BGV` with the model `NoiseByBoundCoeffModel`, and `--validate-noise`.  Programs are
straight lines of operations with levels and dimensions from `mgmt` attributes.  The code keeps logarithms to base
two in doubles; here the numbers themselves are kept as rationals and rounding of doubles is left out. -/

namespace Heir.Noise

/-- `lib/Analysis/NoiseAnalysis/Noise.h:22-25`. -/
inductive Variant where
  | worst | average
  deriving DecidableEq, Repr

/-- `lib/Parameters/RLWEParams.h:14-74` and `lib/Parameters/BGV/Params.h:17-26`.  `root` is the square root of the
ring dimension, used by the average-case variant only.  `std0` is 3.2 in the code. -/
structure Params where
  ringDim : Nat
  root : ℚ
  t : Nat
  qi : List Nat
  pi : List Nat
  dnum : Nat
  std0 : ℚ
  usePublicKey : Bool
  extended : Bool

/-- `lib/Parameters/BGV/Params.cpp:51`: the number of digits from the attribute, the quotient rounded up. -/
def dnumFromAttr (qi pi : List Nat) : Nat := (qi.length + pi.length - 1) / pi.length

/-- `lib/Parameters/RLWEParams.cpp:20-28`. -/
def computeDnum (level : Nat) : Nat := if level > 3 then 3 else if level > 0 then 2 else 1

/-- `lib/Analysis/NoiseAnalysis/BGV/NoiseByBoundCoeffModel.cpp:46-62`. -/
def expansion (p : Params) : Variant → ℚ
  | .worst => p.ringDim
  | .average => 2 * p.root

/-- `NoiseByBoundCoeffModel.cpp:64-81`. -/
def expansionMS (p : Params) : Variant → ℚ
  | .worst => p.ringDim
  | .average => 4 * p.root

/-- `NoiseByBoundCoeffModel.cpp:83-89`. -/
def boundErr (p : Params) : ℚ := p.std0 * 6

/-- `NoiseByBoundCoeffModel.cpp:91-95`. -/
def boundKey : ℚ := 1

/-- `NoiseByBoundCoeffModel.cpp:97-110`. -/
def evalEncryptPk (v : Variant) (p : Params) : ℚ := boundErr p * (1 + 2 * expansion p v * boundKey)

/-- `NoiseByBoundCoeffModel.cpp:112-121`. -/
def evalEncryptSk (p : Params) : ℚ := boundErr p

/-- The noise modulus switching adds: `NoiseByBoundCoeffModel.cpp:196`, `241`. -/
def addedMS (v : Variant) (p : Params) : ℚ := (1 + expansionMS p v * boundKey) / 2

/-- `NoiseByBoundCoeffModel.cpp:173-199`.  `none` is the failed assertion on the dimension or an access beyond the
moduli. -/
def evalModReduce (v : Variant) (p : Params) (lvl dim : Nat) (input : ℚ) : Option ℚ :=
  if dim = 2 then p.qi[lvl]?.map (fun q : Nat => input * (1 / (q : ℚ)) + addedMS v p) else none

/-- `NoiseByBoundCoeffModel.cpp:123-137`. -/
def evalEncrypt (v : Variant) (p : Params) (lvl dim : Nat) : Option ℚ :=
  if p.extended then evalModReduce v p lvl dim (evalEncryptPk v p)
  else if p.usePublicKey then some (evalEncryptPk v p)
  else some (evalEncryptSk p)

/-- `NoiseByBoundCoeffModel.cpp:139-144`. -/
def evalConstant : ℚ := 0

/-- `NoiseByBoundCoeffModel.cpp:146-152`. -/
def evalAdd (l r : ℚ) : ℚ := l + r + 1

/-- `NoiseByBoundCoeffModel.cpp:154-171`.  The product of ring dimension and plaintext modulus is an `int64_t`
halved with an integer division; `none` when it overflows. -/
def evalMul (v : Variant) (p : Params) (l r : ℚ) : Option ℚ :=
  if p.ringDim * p.t < 2 ^ 63 then
    some (l * r * expansion p v * p.t + (l + r + 1) * ((p.ringDim * p.t / 2 : Nat) : ℚ))
  else none

/-- The number of digits in `evalRelinearizeHYBRID`: `NoiseByBoundCoeffModel.cpp:219-221`. -/
def numDigits (p : Params) (lvl : Nat) : Nat := (lvl + 1 + p.dnum - 1) / p.dnum + 1

/-- `NoiseByBoundCoeffModel.cpp:201-254`. -/
def evalRelinearize (v : Variant) (p : Params) (lvl : Nat) (input : ℚ) : ℚ :=
  input + numDigits p lvl * expansion p v * boundErr p / 2 + addedMS v p

/-- The operations the analysis distinguishes.  `pick` stands for the ones that inherit the noise of their first
secret operand: `tensor.extract_slice`, `tensor.insert_slice`, `arith.extsi`, `arith.extui`. -/
inductive Kind where
  | add | sub | mul | rotate (by' : Nat) | adjust | modReduce | levelReduce | relinearize | pick
  deriving DecidableEq, Repr

/-- An operation with one result; values are numbers, level and dimension are those of the result. -/
structure Op where
  kind : Kind
  args : List Nat
  res : Nat
  lvl : Nat
  dim : Nat
  deriving DecidableEq, Repr

/-- A straight-line program; the arguments are the values below `nargs`. -/
structure Prog where
  nargs : Nat
  secArg : Nat → Bool
  argLvl : Nat → Nat
  argDim : Nat → Nat
  ops : List Op

/-- What is known of a value: secretness, level, dimension and the state of the noise analysis.  `none` is an
uninitialised state; reading one is a failed assertion, which leaves the result without a state as well. -/
structure Fact where
  sec : Bool := false
  lvl : Nat := 0
  dim : Nat := 0
  noise : Option ℚ := none
  deriving DecidableEq

/-- Replaces the table at one value. -/
def upd {α : Type} (t : Nat → α) (v : Nat) (a : α) : Nat → α := fun u => if u = v then a else t u

/-- A sweep over the operations. -/
def run {α : Type} (step : (Nat → α) → Op → α) : List Op → (Nat → α) → Nat → α
  | [], t => t
  | op :: ops, t => run step ops (upd t op.res (step t op))

/-- `lib/Analysis/NoiseAnalysis/BGV/NoiseAnalysis.cpp:85-101`: the noises of the secret operands, then the noises
of the plaintext ones. -/
def operandNoises (t : Nat → Fact) (args : List Nat) : List (Option ℚ) :=
  (args.filter fun a => (t a).sec).map (fun a => (t a).noise) ++
    (args.filter fun a => !(t a).sec).map fun _ => some evalConstant

/-- `NoiseAnalysis.cpp:103-239`: the noise of the result of an operation with a secret operand. -/
def noiseStep (v : Variant) (p : Params) (t : Nat → Fact) (op : Op) : Option ℚ :=
  let ns := operandNoises t op.args
  let a := op.args.headD 0
  match op.kind with
  | .mul => do evalMul v p (← ns.getD 0 none) (← ns.getD 1 none)
  | .add | .sub => do pure (evalAdd (← ns.getD 0 none) (← ns.getD 1 none))
  | .rotate _ | .relinearize => (t a).noise.map (evalRelinearize v p (t a).lvl)
  | .adjust => (t a).noise.bind fun e => evalMul v p e evalConstant
  | .modReduce => (t a).noise.bind (evalModReduce v p (t a).lvl (t a).dim)
  | .levelReduce => (t a).noise
  | .pick => ns.headD none

/-- One visit of an operation by the secretness and the noise analysis. -/
def step (v : Variant) (p : Params) (t : Nat → Fact) (op : Op) : Fact where
  sec := op.args.any fun a => (t a).sec
  lvl := op.lvl
  dim := op.dim
  noise := if op.args.any fun a => (t a).sec then noiseStep v p t op else none

/-- The states of the arguments: `NoiseAnalysis.cpp:35-53`, `117-125`. -/
def entry (v : Variant) (p : Params) (g : Prog) (x : Nat) : Fact :=
  if x < g.nargs then
    ⟨g.secArg x, g.argLvl x, g.argDim x, if g.secArg x then evalEncrypt v p (g.argLvl x) (g.argDim x) else none⟩
  else {}

/-- The solver run on the program. -/
def facts (v : Variant) (p : Params) (g : Prog) : Nat → Fact := run (step v p) g.ops (entry v p g)

/-- The product of the moduli up to a level, `none` for an access beyond them:
`NoiseByBoundCoeffModel.cpp:37-44`. -/
def modulusAt (p : Params) (lvl : Nat) : Option Nat :=
  if lvl < p.qi.length then some (p.qi.take (lvl + 1)).prod else none

/-- `NoiseByBoundCoeffModel.cpp:21-35` and `lib/Transforms/ValidateNoise/ValidateNoise.cpp:91-93`: a non-negative
budget, that is `t * e` is at most half the modulus. -/
def validValue (p : Params) (f : Fact) : Bool :=
  !f.sec ||
    match f.noise, modulusAt p f.lvl with
    | some e, some q => e * p.t ≤ q / 2
    | _, _ => false

/-- `ValidateNoise.cpp:114-131`: all values of the program. -/
def validate (v : Variant) (p : Params) (g : Prog) : Bool :=
  (List.range g.nargs).all (fun x => validValue p (facts v p g x)) &&
    g.ops.all fun op => validValue p (facts v p g op.res)

end Heir.Noise
