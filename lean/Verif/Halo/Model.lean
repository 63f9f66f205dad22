import Mathlib.Data.List.Basic
import Mathlib.Data.Nat.Log

/-!
# Model of the level analysis and of the passes on loops over ciphertexts

Sources: `lib/Analysis/LevelAnalysis/LevelAnalysis.{h,cpp}` and `lib/Transforms/Halo`
(`--reconcile-mixed-secretness-iter-args`, `--bootstrap-loop-iter-args`,
`--partial-unroll-for-level-consumption`).

A program is a list of operations with structured control flow.  Values are numbered by
definition: an operation, a loop or a conditional adds its results at the end of the list of
values.  Inside a loop the induction variable comes after the outer values, and then the
iteration arguments.
-/

namespace Heir.Halo

/-! ### the analysis -/

/-- `LevelState`, `LevelAnalysis.h:59-123`. -/
inductive LS | uninit | int (n : Nat) | max | invalid
  deriving DecidableEq, Repr

/-- `LevelState::join`, `LevelAnalysis.h:99-123`. -/
def LS.join : LS → LS → LS
  | .invalid, _ => .invalid
  | .uninit, b => b
  | .max, .invalid => .invalid
  | .max, _ => .max
  | .int _, .max => .max
  | .int a, .uninit => .int a
  | .int _, .invalid => .invalid
  | .int a, .int b => .int (Max.max a b)

/-- Operations.  `pure` are all operations without an interface for levels. -/
inductive Op
  | pure (fn : Nat) (xs : List Nat)
  | reduce (k : Nat) (x : Nat)
  | reduceMin (x : Nat)
  | bootstrap (x : Nat)

/-- `transferForward(ReducesLevelOpInterface)`, `LevelAnalysis.cpp:59-81`, for `mgmt.modreduce`
(one level) and `mgmt.level_reduce`. -/
def LS.reduce (k : Nat) : LS → LS
  | .max => .invalid
  | .uninit => .uninit
  | .invalid => .invalid
  | .int v => .int (v + k)

/-- `transferForward(ReducesAllLevelsOpInterface)`, `LevelAnalysis.cpp:83-98`. -/
def LS.reduceMin : LS → LS
  | .max => .max
  | .uninit => .uninit
  | .invalid => .invalid
  | .int _ => .max

/-- `transferForward(ResetsLevelOpInterface)`, `LevelAnalysis.cpp:100-122`; `L0` is
`bootstrapLevelsConsumed`. -/
def LS.bootstrap (L0 : Nat) : LS → LS
  | .max => .int L0
  | .uninit => .uninit
  | .invalid => .invalid
  | .int _ => .int L0

/-- The level budget, `LevelAnalysis::visitOperation`, `LevelAnalysis.cpp:163-165`. -/
def LS.clip (B : Nat) : LS → LS
  | .int n => if B < n then .invalid else .int n
  | s => s

/-- The result of `deriveResultLevel` (`LevelAnalysis.cpp:124-144`) and the budget. -/
def absOp (L0 B : Nat) (env : List LS) : Op → Option LS
  | .pure _ xs => (xs.mapM fun x => env[x]?).map fun ss => (ss.foldl LS.join .uninit).clip B
  | .reduce k x => (env[x]?).map fun s => (s.reduce k).clip B
  | .reduceMin x => (env[x]?).map fun s => s.reduceMin.clip B
  | .bootstrap x => (env[x]?).map fun s => (s.bootstrap L0).clip B

/-! ### programs -/

/-- Constant bounds of a loop; the step is positive. -/
structure Bounds where
  lb : Int
  ub : Int
  step : Int
  deriving DecidableEq

/-- `getStaticTripCount`: the number of iterations. -/
def Bounds.trips (b : Bounds) : Nat := ((b.ub - b.lb + b.step - 1) / b.step).toNat

/-- The values of the induction variable. -/
def Bounds.ivs (b : Bounds) : List Int := (List.range b.trips).map fun t : Nat => b.lb + t * b.step

/-- Programs.  `loop` has a flag for each iteration argument that says whether
`BootstrapIterArgsPattern` has been applied to it (`Patterns.h:54-110`): the initial value and
the yielded value are reduced to the lowest level, and the argument is bootstrapped before any
other use.  Loops without flags are loops as written. -/
inductive Prog
  | ret (ys : List Nat)
  | op (o : Op) (rest : Prog)
  | loop (b : Bounds) (flags : List Bool) (inits : List Nat) (body : Prog) (rest : Prog)
  | ite (c : Nat) (t e : Prog) (rest : Prog)

/-! ### running -/

/-- What operations compute. -/
structure Sem (V : Type) where
  fn : Nat → List V → V
  iv : Int → V
  cond : V → Bool

/-- A value and its level: the number of moduli left; public values have none. -/
abbrev CV (V : Type) := V × Option Nat

/-- The lower of two levels: operands are brought to the lower level. -/
def lower : Option Nat → Option Nat → Option Nat
  | none, b => b
  | some a, none => some a
  | some a, some b => some (min a b)

variable {V : Type}

/-- Reduce by `k` levels; `none` when there are not enough. -/
def CV.reduce (k : Nat) (v : CV V) : Option (CV V) :=
  match v.2 with
  | none => some v
  | some l => if k ≤ l then some (v.1, some (l - k)) else none

/-- Reduce to the lowest level. -/
def CV.reduceMin (v : CV V) : CV V := (v.1, v.2.map fun _ => 0)

/-- Bootstrap: `L0` levels below the top level `top`. -/
def CV.bootstrap (L0 top : Nat) (v : CV V) : Option (CV V) :=
  match v.2 with
  | none => some v
  | some _ => if L0 ≤ top then some (v.1, some (top - L0)) else none

/-- One operation. -/
def evalOp (m : Sem V) (L0 top : Nat) (env : List (CV V)) : Op → Option (CV V)
  | .pure fn xs => (xs.mapM fun x => env[x]?).map fun vs =>
      (m.fn fn (vs.map Prod.fst), (vs.map Prod.snd).foldl lower none)
  | .reduce k x => (env[x]?).bind (CV.reduce k)
  | .reduceMin x => (env[x]?).map CV.reduceMin
  | .bootstrap x => (env[x]?).bind (CV.bootstrap L0 top)

/-- Bootstrap the flagged arguments; `none` when the numbers differ. -/
def bootAll (L0 top : Nat) : List Bool → List (CV V) → Option (List (CV V))
  | [], [] => some []
  | f :: fs, v :: vs =>
    (if f then v.bootstrap L0 top else some v).bind fun v => (bootAll L0 top fs vs).map (v :: ·)
  | _, _ => none

/-- Reduce the flagged values to the lowest level. -/
def minAll : List Bool → List (CV V) → Option (List (CV V))
  | [], [] => some []
  | f :: fs, v :: vs => (minAll fs vs).map ((if f then v.reduceMin else v) :: ·)
  | _, _ => none

/-- One run of a loop body: the value of the induction variable, whether flagged arguments are
bootstrapped before it and whether flagged results are reduced after it. -/
structure Seg where
  iv : Int
  boot : Bool
  min : Bool
  deriving DecidableEq

/-- No flags. -/
def off (flags : List Bool) : List Bool := flags.map fun _ => false

/-- Run a body for each segment. -/
def runSegs (L0 top : Nat) (flags : List Bool) (f : Int → List (CV V) → Option (List (CV V))) :
    List Seg → List (CV V) → Option (List (CV V))
  | [], st => some st
  | g :: gs, st =>
    (bootAll L0 top (if g.boot then flags else off flags) st).bind fun st =>
    (f g.iv st).bind fun st =>
    (minAll (if g.min then flags else off flags) st).bind fun st => runSegs L0 top flags f gs st

/-- The segments of a loop that is not unrolled. -/
def Bounds.segs (b : Bounds) : List Seg := b.ivs.map fun i => ⟨i, true, true⟩

/-- Run a program. -/
def eval (m : Sem V) (L0 top : Nat) : Prog → List (CV V) → Option (List (CV V))
  | .ret ys, env => ys.mapM fun y => env[y]?
  | .op o rest, env => (evalOp m L0 top env o).bind fun v => eval m L0 top rest (env ++ [v])
  | .loop b flags inits body rest, env =>
    (inits.mapM fun x => env[x]?).bind fun st =>
    (minAll flags st).bind fun st =>
    (runSegs L0 top flags
      (fun i st => eval m L0 top body (env ++ (m.iv i, none) :: st)) b.segs st).bind
    fun st => eval m L0 top rest (env ++ st)
  | .ite c t e rest, env =>
    (env[c]?).bind fun v =>
    (if m.cond v.1 then eval m L0 top t env else eval m L0 top e env).bind fun st =>
    eval m L0 top rest (env ++ st)

/-! ### `--reconcile-mixed-secretness-iter-args` -/

/-- A positive integer as a single-precision float: 24 bits, to nearest, ties to even. -/
def flt (n : Nat) : Nat :=
  if n < 2 ^ 24 then n
  else
    let u := 2 ^ (Nat.log 2 n - 23)
    let q := n / u
    let r := n % u
    if 2 * r < u then q * u
    else if u < 2 * r then (q + 1) * u
    else if q % 2 = 0 then q * u else (q + 1) * u

/-- `ceil(float(ub - lb) / step) <= 1`, `Patterns.cpp:108-111`.  The quotient of two floats is at
most 1 after rounding if and only if the first is not the larger one. -/
def fewIterations (b : Bounds) : Bool :=
  if b.ub - b.lb ≤ 0 then true else decide (flt (b.ub - b.lb).toNat ≤ flt b.step.toNat)

/-- `PeelPlaintextAffineForInit`, `Patterns.cpp:86-133`, on a loop whose initial values and
yielded values differ in secretness: the first iteration and the others. -/
def peel (b : Bounds) : Option (Bounds × Bounds) :=
  if fewIterations b then none
  else some ({ b with ub := b.lb + b.step }, { b with lb := b.lb + b.step })

/-! ### `--bootstrap-loop-iter-args` -/

/-- `BootstrapIterArgsPattern`, `Patterns.h:54-110`: an initial value that is the result of
`mgmt.level_reduce` is replaced by the operand (`strip`). -/
def bootstrapLoop (strip : Nat → Nat) (secret : List Bool) : Prog → Prog
  | .loop b _ inits body rest =>
    if secret.any id then
      .loop b secret (List.zipWith (fun s x => if s then strip x else x) secret inits) body rest
    else .loop b secret inits body rest
  | p => p

/-! ### `--partial-unroll-for-level-consumption` -/

/-- The factor for one argument, `Patterns.cpp:247-299`: C++ division. -/
def factor (M L0 e : Int) : Int := (M - L0).tdiv (e - L0)

/-- The end level as an integer. -/
def LS.toInt : LS → Option Int
  | .int n => some n
  | _ => none

/-- The chosen factor, `Patterns.cpp:233-312`, from the level after a bootstrap (`M`), the levels
at the ends of the body for the secret arguments and the trip count. -/
def plan (M L0 : Nat) (ends : List LS) (trips : Nat) : Option Nat :=
  if ends.isEmpty then none
  else
    (ends.mapM LS.toInt).bind fun es =>
    if es.any fun e => e - L0 = 0 then none
    else
      ((es.map (factor M L0)).filter fun f => decide (1 < f)).min?.map fun f =>
        (if (trips : Int) < f then (trips : Int) else f).toNat

/-- One iteration of the unrolled loop, which starts at `i`: `k` copies of the body, of which the
first bootstraps and the last reduces (`Patterns.cpp:346-380`, `DeleteAnnotatedOps`). -/
def chunk (step : Int) (k : Nat) (i : Int) : List Seg :=
  (List.range k).map fun j : Nat => ⟨i + j * step, decide (j = 0), decide (j + 1 = k)⟩

/-- The loop after `loopUnrollByFactor`: the main loop of step `k * step` and the loop for the
remaining iterations.  If that has one iteration only it is inlined, and then the reduction at
its end is removed (`Patterns.cpp:384-396`). -/
def unroll (b : Bounds) (k : Nat) : List Seg :=
  let q := b.trips / k
  let rest : Bounds := { b with lb := b.lb + q * k * b.step }
  ((List.range q).flatMap fun t : Nat => chunk b.step k (b.lb + t * (k * b.step))) ++
    if b.trips % k = 1 then [⟨rest.lb, true, false⟩] else rest.segs

/-- The segments the pass leaves: unrolled if the factor is more than one. -/
def partialUnroll (M L0 : Nat) (ends : List LS) (b : Bounds) : List Seg :=
  match plan M L0 ends b.trips with
  | some k => if 1 < k then unroll b k else b.segs
  | none => b.segs

end Heir.Halo
