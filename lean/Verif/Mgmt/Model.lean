/-! # Model of the insertion of ciphertext management operations

The passes `--secret-insert-mgmt-bgv`, `--secret-insert-mgmt-ckks` and `--secret-insert-mgmt-bfv` on the
body of one `secret.generic` without regions, that is on a straight line of operations.  Loops, branches,
bootstrap placement and the `kernel.eval_chebyshev` operation are not modelled.

Sparse forward analyses on a straight line reach their fixpoint in one sweep, so a solver is a fold over the
operations.  `walkAndApplyPatterns` visits the operations of a block in order, once, and does not visit the
operations it inserts; `lib/Transforms/SecretInsertMgmt/SecretInsertMgmtPatterns.cpp:40-44` relies on it. -/

namespace Heir.Mgmt

/-! ## Operations and programs -/

/-- The kinds of operations.  `add`, `sub` and `mul` stand for the integer and the float operation alike,
`insert` for `tensor.insert` and `tensor.insert_slice`, `extract` for `tensor.extract_slice`; `other` is any
other operation with operands and one result.  The remaining ones are the operations of
`lib/Dialect/Mgmt/IR/MgmtOps.td`. -/
inductive Kind where
  | add | sub | mul | insert | extract
  | other (tag : Nat)
  | init | modReduce | levelReduce (k : Nat) | levelReduceMin | relinearize
  | adjustScale (id : Nat) | bootstrap
  deriving DecidableEq, Repr

/-- The operations of the `mgmt` dialect. -/
def Kind.isMgmt : Kind → Bool
  | .init | .modReduce | .levelReduce _ | .levelReduceMin | .relinearize | .adjustScale _ | .bootstrap => true
  | _ => false

/-- An operation with one result; values are numbers. -/
structure Op where
  kind : Kind
  args : List Nat
  res : Nat
  deriving DecidableEq, Repr

/-- A straight-line program: the block arguments are the values below `nargs`, `next` is above all values. -/
structure Prog where
  nargs : Nat
  secArg : Nat → Bool
  ops : List Op
  yields : List Nat
  next : Nat

/-- Replaces the table at one value. -/
def upd {α : Type} (t : Nat → α) (v : Nat) (a : α) : Nat → α := fun u => if u = v then a else t u

/-- A sparse forward analysis on a straight line. -/
def run {α : Type} (step : (Nat → α) → Op → α) : List Op → (Nat → α) → Nat → α
  | [], t => t
  | op :: ops, t => run step ops (upd t op.res (step t op))

/-! ## Secretness, level and dimension -/

/-- `lib/Analysis/LevelAnalysis/LevelAnalysis.h:52-86`: a level. -/
inductive Level where
  | uninit
  | int (n : Nat)
  | maxLevel
  | invalid
  deriving DecidableEq, Repr

/-- `lib/Analysis/LevelAnalysis/LevelAnalysis.h:103-128`. -/
def Level.join : Level → Level → Level
  | .invalid, _ => .invalid
  | .uninit, b => b
  | .maxLevel, .invalid => .invalid
  | .maxLevel, _ => .maxLevel
  | .int _, .maxLevel => .maxLevel
  | .int a, .uninit => .int a
  | .int _, .invalid => .invalid
  | .int a, .int b => .int (max a b)

/-- `lib/Analysis/LevelAnalysis/LevelAnalysis.cpp:64-74`: one operand of an operation dropping `k` levels. -/
def Level.reduce (k : Nat) : Level → Level
  | .maxLevel => .invalid
  | .uninit => .uninit
  | .invalid => .invalid
  | .int v => .int (v + k)

/-- `lib/Analysis/LevelAnalysis/LevelAnalysis.cpp:83-93`. -/
def Level.reduceAll : Level → Level
  | .maxLevel => .maxLevel
  | .uninit => .uninit
  | .invalid => .invalid
  | .int _ => .maxLevel

/-- `lib/Analysis/LevelAnalysis/LevelAnalysis.cpp:110-118`. -/
def Level.reset (consumed : Nat) : Level → Level
  | .maxLevel => .int consumed
  | .uninit => .uninit
  | .invalid => .invalid
  | .int _ => .int consumed

/-- `lib/Analysis/LevelAnalysis/LevelAnalysis.cpp:122-140`: `deriveResultLevel`.  `consumed` is the
`bootstrapLevelsConsumed` of the target. -/
def deriveLevel (consumed : Nat) (k : Kind) (ls : List Level) : Level :=
  match k with
  | .bootstrap => (ls.headD .uninit).reset consumed
  | .levelReduceMin => (ls.headD .uninit).reduceAll
  | .modReduce => Level.join .uninit ((ls.headD .uninit).reduce 1)
  | .levelReduce d => Level.join .uninit ((ls.headD .uninit).reduce d)
  | _ => ls.foldl Level.join .uninit

/-- What the solvers know of a value: `lib/Analysis/SecretnessAnalysis`, `lib/Analysis/LevelAnalysis` and
`lib/Analysis/DimensionAnalysis`.  A value without any state is not secret. -/
structure Fact where
  sec : Bool := false
  lvl : Level := .uninit
  dim : Option Nat := none
  deriving DecidableEq, Repr

/-- The level budget and the levels a bootstrap consumes. -/
structure Cfg where
  budget : Nat
  consumed : Nat

/-- `lib/Analysis/LevelAnalysis/LevelAnalysis.cpp:163-166`. -/
def clamp (budget : Nat) : Level → Level
  | .int n => if n > budget then .invalid else .int n
  | l => l

/-- `lib/Analysis/DimensionAnalysis/DimensionAnalysis.cpp:58-82`: the dimension of the secret result of an
operation that is not a relinearization, from the dimensions of its secret operands; `none` when one of them
is not known yet. -/
def deriveDim (isMul : Bool) (ds : List (Option Nat)) : Option Nat :=
  (ds.foldl (fun (acc : Option Nat) d =>
      match acc, d with
      | some a, some d => some (if isMul then a + d else max a d)
      | _, _ => none) (some (if isMul then 0 else 2))).map
    fun r => if isMul && ds.length == 2 then r - 1 else r

/-- One visit of an operation by the three analyses:
`lib/Analysis/SecretnessAnalysis/SecretnessAnalysis.cpp:74-130` (the result is secret if an operand is),
`lib/Analysis/LevelAnalysis/LevelAnalysis.cpp:142-194` (the level is set for secret results and for
`mgmt.init`) and `lib/Analysis/DimensionAnalysis/DimensionAnalysis.cpp:33-88`. -/
def factStep (cfg : Cfg) (t : Nat → Fact) (op : Op) : Fact where
  sec := op.args.any fun a => (t a).sec
  lvl :=
    if op.kind = .init ∨ (op.args.any fun a => (t a).sec) then
      clamp cfg.budget (deriveLevel cfg.consumed op.kind (op.args.map fun a => (t a).lvl))
    else .uninit
  dim :=
    if op.kind = .relinearize then some 2
    else if op.args.any fun a => (t a).sec then
      deriveDim (op.kind = .mul) ((op.args.filter fun a => (t a).sec).map fun a => (t a).dim)
    else none

/-- The states of the block arguments: `lib/Analysis/SecretnessAnalysis/SecretnessAnalysis.cpp:34-72`,
`lib/Analysis/LevelAnalysis/LevelAnalysis.h:202-204` (level 0 for every argument) and
`lib/Analysis/DimensionAnalysis/DimensionAnalysis.h:92-98`. -/
def factEntry (p : Prog) (v : Nat) : Fact :=
  if v < p.nargs then ⟨p.secArg v, .int 0, if p.secArg v then some 2 else none⟩ else {}

/-- The solver with the secretness, the level and the dimension analysis, run on the program. -/
def facts (cfg : Cfg) (p : Prog) : Nat → Fact := run (factStep cfg) p.ops (factEntry p)

/-! ## Multiplicative depth -/

/-- `lib/Analysis/MulDepthAnalysis/MulDepthAnalysis.h:33-62`. -/
inductive Depth where
  | uninit
  | int (n : Nat)
  | invalid
  deriving DecidableEq, Repr

/-- `lib/Analysis/MulDepthAnalysis/MulDepthAnalysis.h:64-85`. -/
def Depth.join : Depth → Depth → Depth
  | .invalid, _ => .invalid
  | .uninit, b => b
  | .int _, .invalid => .invalid
  | .int a, .uninit => .int a
  | .int a, .int b => .int (max a b)

/-- The operations with `IncreasesMulDepthOpInterface`: `lib/Dialect/HEIRInterfaces.cpp:50-55`,
`lib/Dialect/Mgmt/IR/MgmtOps.td:126`. -/
def Kind.increasesDepth : Kind → Bool
  | .mul | .adjustScale _ => true
  | _ => false

/-- `lib/Analysis/MulDepthAnalysis/MulDepthAnalysis.cpp:38-57`: `deriveResultMulDepth` (a join with an
uninitialized state is the same as skipping it). -/
def deriveDepth (k : Kind) (ds : List Depth) : Depth :=
  if k = .bootstrap then .int 0
  else
    match ds.foldl Depth.join (.int 0) with
    | .int d => .int (d + if k.increasesDepth then 1 else 0)
    | r => r

/-- What the secretness and the depth analysis know of a value. -/
structure DFact where
  sec : Bool := false
  dep : Depth := .uninit
  deriving DecidableEq, Repr

/-- `lib/Analysis/MulDepthAnalysis/MulDepthAnalysis.h:98`: the default depth budget; every caller uses it. -/
def depthBudget : Nat := 40

/-- `lib/Analysis/MulDepthAnalysis/MulDepthAnalysis.cpp:59-99`. -/
def depthStep (t : Nat → DFact) (op : Op) : DFact where
  sec := op.args.any fun a => (t a).sec
  dep :=
    if op.args.any fun a => (t a).sec then
      match deriveDepth op.kind ((op.args.filter fun a => (t a).sec).map fun a => (t a).dep) with
      | .int d => if d > depthBudget then .invalid else .int d
      | r => r
    else .uninit

/-- The arguments of the generic have depth 0: `MulDepthAnalysis.cpp:69-76`. -/
def depthEntry (p : Prog) (v : Nat) : DFact :=
  if v < p.nargs then ⟨p.secArg v, .int 0⟩ else {}

/-- The solver with the secretness and the depth analysis, run on the program. -/
def depths (p : Prog) : Nat → DFact := run depthStep p.ops (depthEntry p)

/-- `lib/Analysis/MulDepthAnalysis/MulDepthAnalysis.cpp:111-129`: `getMaxMulDepth`.  `none` is the failed
assertion of `getMulDepth` (`MulDepthAnalysis.h:47-50`) on an invalid state. -/
def maxMulDepth (t : Nat → DFact) : List Op → Option Nat
  | [] => some 0
  | op :: ops =>
    match (t op.res).dep with
    | .uninit => maxMulDepth t ops
    | .int d => (maxMulDepth t ops).map fun m => max d m
    | .invalid => none

/-! ## Inserting operations before an operation -/

/-- The state of a pattern at an operation: the next free value, the counter of the scale adjustments, the
operations inserted before the operation so far and the current operands of the operation. -/
structure St where
  next : Nat
  id : Nat
  pre : List Op
  args : List Nat

/-- The chain of operations `ks`, each with one operand, starting at `v` with results from `n` on. -/
def chain : List Kind → Nat → Nat → List Op
  | [], _, _ => []
  | k :: ks, v, n => ⟨k, [v], n⟩ :: chain ks n (n + 1)

/-- The value at the end of the chain. -/
def chainRes : List Kind → Nat → Nat → Nat
  | [], v, _ => v
  | _ :: ks, _, n => chainRes ks n (n + 1)

/-- Creates the chain `ks` on the value `v` before the operation. -/
def St.emit (s : St) (ks : List Kind) (v : Nat) : St :=
  { s with next := s.next + ks.length, pre := s.pre ++ chain ks v s.next }

/-- `Operation::replaceUsesOfWith`. -/
def replaceUses (args : List Nat) (v m : Nat) : List Nat := args.map fun a => if a = v then m else a

/-- A walk whose pattern inserts operations before the visited operation and rewires its operands; `σ` is
what the walk carries along.  `none` is a dereferenced null pointer. -/
def before {σ : Type} (f : σ → St → Op → Option (σ × St)) :
    σ → Nat → Nat → List Op → Option (σ × Nat × Nat × List Op)
  | t, n, i, [] => some (t, n, i, [])
  | t, n, i, op :: ops =>
    (f t ⟨n, i, [], op.args⟩ op).bind fun (t', s) =>
      (before f t' s.next s.id ops).map fun (t'', n', i', ops') =>
        (t'', n', i', s.pre ++ { op with args := s.args } :: ops')

/-- The same without state and failure. -/
def beforeT (f : St → Op → St) : Nat → Nat → List Op → Nat × Nat × List Op
  | n, i, [] => (n, i, [])
  | n, i, op :: ops =>
    let s := f ⟨n, i, [], op.args⟩ op
    let r := beforeT f s.next s.id ops
    (r.1, r.2.1, s.pre ++ { op with args := s.args } :: r.2.2)

/-! ### Plaintext initialisation -/

/-- Whether the value is the result of an `mgmt.init` of the program. -/
def initted (ops : List Op) (v : Nat) : Bool := ops.any fun o => o.kind = .init && o.res = v

/-- `SecretInsertMgmtPatterns.cpp:406-417`: one operand. -/
def initStep (sec isInit : Nat → Bool) (s : St) (i : Nat) : St :=
  let v := s.args.getD i 0
  if sec v || isInit v then s else { s.emit [.init] v with args := s.args.set i s.next }

/-- The operations `insertMgmtInitForPlaintexts` has patterns for, `Pipeline.cpp:232-247`. -/
def Kind.takesInit : Kind → Bool
  | .add | .sub | .mul | .insert | .extract => true
  | _ => false

/-- `SecretInsertMgmtPatterns.cpp:389-422`: `UseInitOpForPlaintextOperand`; the operations of the model are
pure. -/
def useInit (sec isInit : Nat → Bool) (s : St) (op : Op) : St :=
  if op.kind.takesInit && sec op.res then (List.range op.args.length).foldl (initStep sec isInit) s else s

/-- `Pipeline.cpp:226-250`: `insertMgmtInitForPlaintexts`. -/
def insertInit (cfg : Cfg) (p : Prog) : Prog :=
  let t := facts cfg p
  let r := beforeT (useInit (fun v => (t v).sec) (initted p.ops)) p.next 0 p.ops
  { p with ops := r.2.2, next := r.1 }

/-! ### Modulus reduction before multiplications -/

/-- `SecretInsertMgmtPatterns.cpp:142-163`: the depth of the operation; `none` when an operand has no state. -/
def effDepth (ds : List Depth) : Option Nat :=
  ds.foldl (fun acc d =>
    match acc, d with
    | some m, .int d => some (max m d)
    | some m, .invalid => some (max m 1)
    | _, _ => none) (some 0)

/-- `SecretInsertMgmtPatterns.cpp:171-187`: wraps the operands; a second occurrence of a value gets a
modulus reduction of its own that has no use. -/
def modReduceStep (s : St) (v : Nat) : St :=
  { s.emit [.modReduce] v with args := replaceUses s.args v s.next }

/-- `SecretInsertMgmtPatterns.cpp:124-187`: `ModReduceBefore`. -/
def modReduceOperands (t : Nat → DFact) (includeFirst : Bool) (s : St) (args : List Nat) : St :=
  let secret := args.filter fun a => (t a).sec
  match effDepth (secret.map fun a => (t a).dep) with
  | none => s
  | some d => if !includeFirst && d == 0 then s else secret.foldl modReduceStep s

/-- `ModReduceBefore` for multiplications. -/
def modReduceMul (t : Nat → DFact) (includeFirst : Bool) (s : St) (op : Op) : St :=
  if op.kind = .mul && (t op.res).sec then modReduceOperands t includeFirst s op.args else s

/-- `Pipeline.cpp:252-286`, the branch `!afterMul`; the `secret.yield` never counts the first
multiplication. -/
def modReduceBefore (includeFirst : Bool) (p : Prog) : Prog :=
  let t := depths p
  let r := beforeT (modReduceMul t includeFirst) p.next 0 p.ops
  let s := modReduceOperands t false ⟨r.1, 0, [], p.yields⟩ p.yields
  { p with ops := r.2.2 ++ s.pre, yields := s.args, next := s.next }

/-! ### Operations after an operation -/

/-- A walk whose pattern inserts an operation after the visited one and makes all other users of its result
use the new value.  `σ` is the renaming this amounts to for the operations still to be visited. -/
def after (k : Kind) (hit : Op → Bool) : Nat → (Nat → Nat) → List Op → Nat × (Nat → Nat) × List Op
  | n, σ, [] => (n, σ, [])
  | n, σ, op :: ops =>
    let op' := { op with args := op.args.map σ }
    if hit op' then
      let r := after k hit (n + 1) (upd σ op.res n) ops
      (r.1, r.2.1, op' :: ⟨k, [op.res], n⟩ :: r.2.2)
    else
      let r := after k hit n σ ops
      (r.1, r.2.1, op' :: r.2.2)

/-- The program after such a walk. -/
def afterProg (k : Kind) (hit : Op → Bool) (p : Prog) : Prog :=
  let r := after k hit p.next id p.ops
  { p with ops := r.2.2, yields := p.yields.map r.2.1, next := r.1 }

/-- `SecretInsertMgmtPatterns.cpp:108-122`: `ModReduceAfterMult`. -/
def modReduceAfter (cfg : Cfg) (p : Prog) : Prog :=
  let t := facts cfg p
  afterProg .modReduce (fun op => op.kind = .mul && (t op.res).sec) p

/-- `SecretInsertMgmtPatterns.cpp:84-106`: `MultRelinearize`.  The operands are looked up as they are when
the walk arrives; the solver has no state for a value the walk has created. -/
def relinearize (cfg : Cfg) (p : Prog) : Prog :=
  let t := facts cfg p
  afterProg .relinearize (fun op => op.kind = .mul && (t op.res).sec && op.args.all fun a => (t a).sec) p

/-! ### Matching levels -/

/-- The operations `handleCrossLevelOps` and `handleCrossMulDepthOps` have patterns for,
`Pipeline.cpp:300-337`. -/
def Kind.matched : Kind → Bool
  | .add | .sub | .mul | .insert => true
  | _ => false

/-- `SecretInsertMgmtPatterns.cpp:241-256`: the operations inserted to bring an operand at level `l` to
level `r`. -/
def crossChain (ckks : Bool) (id l r : Nat) : List Kind :=
  (if r - l > 1 then [.levelReduce (r - l - 1)] else []) ++
    (if ckks then [] else [.adjustScale id]) ++ [.modReduce]

/-- `SecretInsertMgmtPatterns.cpp:206-264`: one secret operand, by position.  `base` is the first value the
walk has created: for those `lookupState` returns null, which is dereferenced.  (An operand whose level is
not initialized makes the pattern return; no secret value is.) -/
def crossStep (ckks : Bool) (base : Nat) (t : Nat → Fact) (R : Level) (s : St) (i : Nat) : Option St :=
  let v := s.args.getD i 0
  if base ≤ v then none
  else
    match R, (t v).lvl with
    | .int r, .int l =>
      if l < r then
        let ks := crossChain ckks s.id l r
        some { s.emit ks v with
          id := if ckks then s.id else s.id + 1
          args := replaceUses s.args v (chainRes ks v s.next) }
      else some s
    | .maxLevel, .int _ =>
      some { s.emit [.levelReduceMin] v with args := replaceUses s.args v s.next }
    | _, _ => some s

/-- The positions of the secret operands. -/
def secretPos (t : Nat → Fact) (args : List Nat) : List Nat :=
  (List.range args.length).filter fun i => (t (args.getD i 0)).sec

/-- `SecretInsertMgmtPatterns.cpp:192-272`: `MatchCrossLevel`, with `updateResultLevelLattice` (lines 39-62),
which recomputes the level of the result from the states of the new operands. -/
def crossOp (ckks : Bool) (cfg : Cfg) (base : Nat) (t : Nat → Fact) (s : St) (op : Op) :
    Option ((Nat → Fact) × St) :=
  if op.kind.matched && (t op.res).sec && (t op.res).lvl != .uninit then
    ((secretPos t op.args).foldlM (crossStep ckks base t (t op.res).lvl) s).map fun s' =>
      if s'.pre.isEmpty then (t, s')
      else
        (upd t op.res { t op.res with
          lvl := deriveLevel cfg.consumed op.kind (s'.args.map fun a => (t a).lvl) }, s')
  else some (t, s)

/-- `Pipeline.cpp:300-314`: `handleCrossLevelOps`. -/
def crossLevel (ckks : Bool) (cfg : Cfg) (p : Prog) : Option (Prog × Nat) :=
  (before (crossOp ckks cfg p.next) (facts cfg p) p.next 0 p.ops).map fun r =>
    ({ p with ops := r.2.2.2, next := r.2.1 }, r.2.2.1)

/-! ### Matching the first multiplicative depth -/

/-- `SecretInsertMgmtPatterns.cpp:316-331`: one secret operand with its depth. -/
def depthOne (s : St) (x : Nat × Depth) : St :=
  let v := s.args.getD x.1 0
  if x.2 = .int 0 then
    { s.emit [.adjustScale s.id] v with id := s.id + 1, args := replaceUses s.args v s.next }
  else s

/-- The condition of `SecretInsertMgmtPatterns.cpp:291-312`: all depths are integers and the first two are
0 and 1 in some order. -/
def depthMismatch : List Depth → Bool
  | .int 0 :: .int 1 :: ds => ds.all fun d => match d with | .int _ => true | _ => false
  | .int 1 :: .int 0 :: ds => ds.all fun d => match d with | .int _ => true | _ => false
  | _ => false

/-- `SecretInsertMgmtPatterns.cpp:275-335`: `MatchCrossMulDepth`.  The solver is run again after each
insertion, so what it knows at an operation is the analysis `t` of the operations emitted before it. -/
def depthOp (t : Nat → DFact) (s : St) (op : Op) : Option ((Nat → DFact) × St) :=
  let pos := (List.range op.args.length).filter fun i => (t (op.args.getD i 0)).sec
  let ds := pos.map fun i => (t (op.args.getD i 0)).dep
  let s' := if op.kind.matched && depthMismatch ds then (pos.zip ds).foldl depthOne s else s
  some (run depthStep (s'.pre ++ [{ op with args := s'.args }]) t, s')

/-- `Pipeline.cpp:319-337`: `handleCrossMulDepthOps`. -/
def crossDepth (i : Nat) (p : Prog) : Option Prog :=
  (before depthOp (depthEntry p) p.next i p.ops).map fun r => { p with ops := r.2.2.2, next := r.2.1 }

/-! ## The passes -/

/-- The options of `lib/Transforms/SecretInsertMgmt/Pipeline.h` that matter on a straight line. -/
structure Opts where
  afterMul : Bool
  includeFirst : Bool
  ckks : Bool

/-- `lib/Transforms/SecretInsertMgmt/Pipeline.cpp:100-224`: `runInsertMgmtPipeline` on a straight line without
bootstrap placement, up to the cleanup of the inserted operations. -/
def insertMgmt (o : Opts) (cfg : Cfg) (p : Prog) : Option Prog :=
  let p := insertInit cfg p
  let p := if o.afterMul then modReduceAfter cfg p else modReduceBefore o.includeFirst p
  let p := relinearize cfg p
  (crossLevel o.ckks cfg p).bind fun (p, i) => if o.ckks then some p else crossDepth i p

/-- `lib/Transforms/SecretInsertMgmt/SecretInsertMgmtBFV.cpp:74-75`: what the B/FV pass inserts.  The pass
does not include the float patterns for relinearization; the multiplications of the model are integer ones
here. -/
def insertMgmtBFV (cfg : Cfg) (p : Prog) : Prog := relinearize cfg (insertInit cfg p)

end Heir.Mgmt
