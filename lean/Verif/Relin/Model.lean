import Mathlib.Algebra.Order.Field.Rat
import Verif.Mgmt.Model

/-! # Model of the optimization of relinearizations

`--optimize-relinearization` on the straight line of operations of one `secret.generic`
(`lib/Transforms/OptimizeRelinearization`, `lib/Analysis/OptimizeRelinearizationAnalysis`).  The integer linear program
is built as in the code; the solver (OR-Tools) is not modelled, what it returns is any solution.  Its doubles are
rationals here, so a variable that has to be zero or one is so exactly. -/

namespace Heir.Relin
open Heir.Mgmt

/-- `lib/Transforms/OptimizeRelinearization/OptimizeRelinearization.cpp:40-43`: removes all relinearizations; `σ` is
the renaming `replaceAllUsesWith` amounts to for the operations still to be visited. -/
def strip : (Nat → Nat) → List Op → (Nat → Nat) × List Op
  | σ, [] => (σ, [])
  | σ, op :: ops =>
    if op.kind = .relinearize then strip (upd σ op.res (σ (op.args.headD 0))) ops
    else
      let r := strip σ ops
      (r.1, { op with args := op.args.map σ } :: r.2)

/-- The program without relinearizations. -/
def stripProg (p : Prog) : Prog :=
  let r := strip id p.ops
  { p with ops := r.2, yields := p.yields.map r.1 }

/-! ## The linear program -/

/-- The variables: the decision for an operation, named by its result, the degree of a value after the decision
(`keyBasisVars`) and before it (`beforeRelinVars`).
`lib/Analysis/OptimizeRelinearizationAnalysis/OptimizeRelinearizationAnalysis.cpp:81-96`. -/
inductive Var where
  | dec (v : Nat) | deg (v : Nat) | before (v : Nat)
  deriving DecidableEq

/-- A linear constraint: the sum on the left is equal to, or at most, the constant on the right. -/
structure Con where
  terms : List (ℚ × Var)
  isEq : Bool
  bound : ℚ

/-- The value of the left side. -/
def Con.lhs (c : Con) (s : Var → ℚ) : ℚ := (c.terms.map fun x => x.1 * s x.2).sum

/-- The constraint is met. -/
def Con.Holds (c : Con) (s : Var → ℚ) : Prop := if c.isEq then c.lhs s = c.bound else c.lhs s ≤ c.bound

/-- `x == y`, `x == c`, `x <= y + c`. -/
def eqVar (x y : Var) : Con := ⟨[(1, x), (-1, y)], true, 0⟩
def eqConst (x : Var) (c : ℚ) : Con := ⟨[(1, x)], true, c⟩
def leVar (x y : Var) (c : ℚ) : Con := ⟨[(1, x), (-1, y)], false, c⟩

/-- `OptimizeRelinearizationAnalysis.cpp:46-47`. -/
def maxDegree : ℚ := 2
def ifThenAux : ℚ := 100

/-- What the analysis is given: the secretness and the dimension of the values of the program it started from, which
operations are rotations, and the option `allow-mixed-degree-operands`. -/
structure Ctx where
  sec : Nat → Bool
  dim : Nat → Option Nat
  rot : Nat → Bool
  mixed : Bool

/-- The degrees of the arguments: `OptimizeRelinearizationAnalysis.cpp:157-166`. -/
def argCons (c : Ctx) (nargs : Nat) : List Con :=
  ((List.range nargs).filter c.sec).map fun v => eqConst (.deg v) (((c.dim v).getD 2 : Nat) - 1 : ℚ)

/-- The operands of an operation have one degree: `OptimizeRelinearizationAnalysis.cpp:175-216`. -/
def equalCons (c : Ctx) (args : List Nat) : List Con :=
  if c.mixed then []
  else
    match args.filter c.sec with
    | [] => []
    | a :: as => (as.filter fun b => b != a).map fun b => eqVar (.deg b) (.deg a)

/-- The operations with `PlaintextOperandInterface` in a `secret.generic`, `lib/Dialect/HEIRInterfaces.cpp:68-83`;
their first two operands may be plaintexts. -/
def mayBePlain : Kind → Bool
  | .add | .sub | .mul | .insert => true
  | _ => false

/-- `OptimizeRelinearizationAnalysis.cpp:229-241`: the operands have to be linear. -/
def requireLinear (c : Ctx) (op : Op) : Bool :=
  match op.kind with
  | .other t => c.rot t
  | .modReduce => true
  | k => mayBePlain k && op.args.any c.sec && (op.args.take 2).any fun a => !c.sec a

/-- `OptimizeRelinearizationAnalysis.cpp:243-263`: the secret operands have degree one. -/
def linearCons (c : Ctx) (args : List Nat) : List Con := (args.filter c.sec).map fun a => eqConst (.deg a) 1

/-- The degree of the result before the decision: `OptimizeRelinearizationAnalysis.cpp:274-382`. -/
def beforeCons (c : Ctx) (op : Op) : List Con :=
  if c.sec op.res then
    let so := op.args.filter c.sec
    if op.kind = .mul then
      match op.args with
      | [a, b] =>
        if c.sec a && c.sec b then
          if a = b then [⟨[(1, .before op.res), (-2, .deg a)], true, 0⟩]
          else [⟨[(1, .before op.res), (-1, .deg b), (-1, .deg a)], true, 0⟩]
        else [eqVar (.before op.res) (.deg (so.headD 0))]
      | _ => []
    else if c.mixed then so.map fun a => leVar (.deg a) (.before op.res) 0
    else [eqVar (.before op.res) (.deg (so.headD 0))]
  else []

/-- The effect of the decision: `OptimizeRelinearizationAnalysis.cpp:394-447`. -/
def decisionCons (c : Ctx) (op : Op) : List Con :=
  if c.sec op.res then
    [⟨[(1, .dec op.res), (-1, .deg op.res)], false, 0⟩,
     ⟨[(1, .deg op.res), (ifThenAux, .dec op.res)], false, 1 + ifThenAux⟩,
     ⟨[(1, .before op.res), (-ifThenAux, .dec op.res), (-1, .deg op.res)], false, 0⟩,
     ⟨[(1, .deg op.res), (-ifThenAux, .dec op.res), (-1, .before op.res)], false, 0⟩]
  else []

/-- All constraints. -/
def constraints (c : Ctx) (p : Prog) : List Con :=
  argCons c p.nargs ++
  (p.ops.flatMap fun op => equalCons c op.args) ++ equalCons c p.yields ++
  (p.ops.flatMap fun op => if requireLinear c op then linearCons c op.args else []) ++ linearCons c p.yields ++
  (p.ops.flatMap (beforeCons c)) ++ (p.ops.flatMap (decisionCons c))

/-- The bounds of the variables: `OptimizeRelinearizationAnalysis.cpp:108,126-133,150`. -/
structure InBox (c : Ctx) (p : Prog) (s : Var → ℚ) : Prop where
  dec : ∀ op ∈ p.ops, c.sec op.res = true → s (.dec op.res) = 0 ∨ s (.dec op.res) = 1
  before : ∀ op ∈ p.ops, c.sec op.res = true → 0 ≤ s (.before op.res) ∧ s (.before op.res) ≤ maxDegree
  deg : ∀ op ∈ p.ops, c.sec op.res = true → 0 ≤ s (.deg op.res) ∧ s (.deg op.res) ≤ maxDegree
  arg : ∀ v < p.nargs, c.sec v = true → 0 ≤ s (.deg v) ∧ s (.deg v) ≤ maxDegree

/-- A solution: what the solver returns when it ends with `kFeasible` or `kOptimal`. -/
structure Feasible (c : Ctx) (p : Prog) (s : Var → ℚ) : Prop where
  box : InBox c p s
  cons : ∀ k ∈ constraints c p, k.Holds s

/-- The number of relinearizations: `OptimizeRelinearizationAnalysis.cpp:384-392`. -/
def objective (c : Ctx) (p : Prog) (s : Var → ℚ) : ℚ :=
  ((p.ops.filter fun op => c.sec op.res).map fun op => s (.dec op.res)).sum

/-- A solution with the least objective: `kOptimal`. -/
structure Optimal (c : Ctx) (p : Prog) (s : Var → ℚ) : Prop extends Feasible c p s where
  least : ∀ s', Feasible c p s' → objective c p s ≤ objective c p s'

/-! ## The pass -/

/-- The analyses the pass runs before it removes the relinearizations: `OptimizeRelinearization.cpp:70-80`. -/
def context (cfg : Cfg) (rot : Nat → Bool) (mixed : Bool) (p : Prog) : Ctx where
  sec := fun v => (facts cfg p v).sec
  dim := fun v => (facts cfg p v).dim
  rot := rot
  mixed := mixed

/-- `OptimizeRelinearization.cpp:54-66` with `shouldInsertRelin`. -/
def insertRelins (c : Ctx) (s : Var → ℚ) (p : Prog) : Prog :=
  afterProg .relinearize (fun op => c.sec op.res && decide (s (.dec op.res) ≠ 0)) p

/-- The program the pass leaves when the solver has returned `s` for `stripProg p`. -/
def optimized (cfg : Cfg) (rot : Nat → Bool) (mixed : Bool) (s : Var → ℚ) (p : Prog) : Prog :=
  insertRelins (context cfg rot mixed p) s (stripProg p)

end Heir.Relin
