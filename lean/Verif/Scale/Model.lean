/-! # Model of the population and the validation of CKKS scales

`--populate-scale-ckks` and `--validate-scale` on the body of one `secret.generic` without regions, that is on
a straight line of operations.  Loops and branches are not modelled.  A sparse forward analysis on a straight
line reaches its fixpoint in one sweep, so a solver is a fold over the operations. -/

namespace Heir.Scale

/-- The kinds of operations.  `add`, `sub` and `mul` are the operations of `arith` on floats, `insert` is
`tensor.insert` and `tensor.insert_slice`; `other` is any operation without a case of its own in the analysis,
such as `mgmt.relinearize`, `mgmt.level_reduce`, `tensor_ext.rotate` or `tensor.extract_slice`. -/
inductive Kind where
  | add | sub | mul | insert
  | other (tag : Nat)
  | init | modReduce | adjust | bootstrap
  deriving DecidableEq, Repr

/-- The additive and container operations: `lib/Transforms/PopulateScale/PopulateScaleCKKS.cpp:155-156`,
`lib/Analysis/ScaleAnalysis/ScaleAnalysis.cpp:304-305`, `lib/Transforms/ValidateScale/ValidateScale.cpp:104-106`. -/
def Kind.additive : Kind → Bool
  | .add | .sub | .insert => true
  | _ => false

/-- An operation with one result; values are numbers.  `lvl` is the level in the `mgmt` attribute of the result,
`ann` the scale in it, `none` standing for -1. -/
structure Op where
  kind : Kind
  args : List Nat
  res : Nat
  lvl : Int
  ann : Option Int
  deriving DecidableEq, Repr

/-- A straight-line program: the block arguments are the values below `nargs`, `next` is above all values. -/
structure Prog where
  nargs : Nat
  secArg : Nat → Bool
  argLvl : Nat → Int
  ops : List Op
  next : Nat

/-- The scheme parameters: `lib/Parameters/CKKS/Params.h`.  `logq` holds the rounded logarithms
`llround(logqi[level])`; `input` is the scale of the arguments, twice the default one for
`before-mul-include-first-mul` (`PopulateScaleCKKS.cpp:69-73`). -/
structure Cfg where
  dflt : Int
  logq : List Int
  input : Int

/-- The logarithm of the prime at a level, the default scale if there is none:
`lib/Analysis/ScaleAnalysis/ScaleAnalysis.cpp:128-138`, `147-157`. -/
def Cfg.qAt (cfg : Cfg) (level : Int) : Int :=
  if 0 ≤ level ∧ level < cfg.logq.length then cfg.logq.getD level.toNat 0 else cfg.dflt

/-- `ScaleAnalysis.cpp:147-157`: `evalMulTargetScale`. -/
def Cfg.target (cfg : Cfg) (level : Int) : Int := cfg.dflt + cfg.qAt level

/-- What the solver and the attributes know of a value: whether it is secret, whether it is the result of an
`mgmt.init`, its level and its scale. -/
structure Fact where
  sec : Bool := false
  ini : Bool := false
  lvl : Int := 0
  scale : Option Int := none
  deriving DecidableEq, Repr

/-- Secret or the result of an `mgmt.init`: the operands `getSecretOrInittedOperands` collects,
`ScaleAnalysis.cpp:184-200`. -/
def Fact.scaled (f : Fact) : Bool := f.sec || f.ini

/-- Replaces the table at one value. -/
def upd {α : Type} (t : Nat → α) (v : Nat) (a : α) : Nat → α := fun u => if u = v then a else t u

/-- A sweep over the operations. -/
def run {α : Type} (step : (Nat → α) → Op → α) : List Op → (Nat → α) → Nat → α
  | [], t => t
  | op :: ops, t => run step ops (upd t op.res (step t op))

/-- `ScaleAnalysis.cpp:202-226`: the scales of the secret or initialised operands in order; `none` when one has
no scale yet.  (Such an operand is skipped when it goes back to an `mgmt.adjust_scale` without annotation; CKKS
programs do not have those, `lib/Transforms/SecretInsertMgmt/SecretInsertMgmtPatterns.cpp:254`,
`Pipeline.cpp:321`.) -/
def operandScales (t : Nat → Fact) (args : List Nat) : Option (List Int) :=
  (args.filter fun a => (t a).scaled).mapM fun a => (t a).scale

/-- The largest element: `ScaleAnalysis.cpp:112-119`, `evalAddScale` for CKKS. -/
def maxScale : List Int → Option Int
  | [] => none
  | s :: ss => some (ss.foldl max s)

/-- `ScaleAnalysis.cpp:229-264`: the scale of a product; `assume` is `assumeTargetScaleForMul`. -/
def mulScale (assume : Bool) (cfg : Cfg) (op : Op) : List Int → Option Int
  | [] => none
  | s :: ss =>
    let sum := s + ss.headD s
    if assume && sum < cfg.target op.lvl then
      if op.args.getD 0 0 = op.args.getD 1 0 then some (2 * (cfg.target op.lvl + 1).tdiv 2)
      else some (cfg.target op.lvl)
    else some sum

/-- `ScaleAnalysis.cpp:228-336`: the scale of the result of an operation. -/
def scaleStep (assume : Bool) (cfg : Cfg) (t : Nat → Fact) (op : Op) : Option Int :=
  match op.kind with
  | .mul => (operandScales t op.args).bind (mulScale assume cfg op)
  | .modReduce =>
    (operandScales t op.args).bind fun ss => ss.head?.map fun s => s - cfg.qAt (t (op.args.headD 0)).lvl
  | .adjust => op.ann
  | .init => some (op.ann.getD cfg.input)
  | .bootstrap => some cfg.input
  | .add | .sub | .insert => (operandScales t op.args).bind maxScale
  | .other _ =>
    if op.args.any fun a => (t a).sec then (operandScales t op.args).bind List.head? else none

/-- One visit of an operation by the secretness and the scale analysis. -/
def step (assume : Bool) (cfg : Cfg) (t : Nat → Fact) (op : Op) : Fact where
  sec := op.args.any fun a => (t a).sec
  ini := op.kind = .init
  lvl := op.lvl
  scale := scaleStep assume cfg t op

/-- The states of the block arguments: `lib/Analysis/ScaleAnalysis/ScaleAnalysis.h:164-171`. -/
def entry (cfg : Cfg) (p : Prog) (v : Nat) : Fact :=
  if v < p.nargs then ⟨p.secArg v, false, p.argLvl v, if p.secArg v then some cfg.input else none⟩ else {}

/-- The solver run on the program. -/
def facts (assume : Bool) (cfg : Cfg) (p : Prog) : Nat → Fact := run (step assume cfg) p.ops (entry cfg p)

/-! ## Step 2: inserting scale adjustments -/

/-- An `mgmt.adjust_scale` of the value `v` to the scale `m` with the result `n`, with the `mgmt` attribute of
its operand: `PopulateScaleCKKS.cpp:178-190`. -/
def adjustOp (t : Nat → Fact) (v : Nat) (m : Int) (n : Nat) : Op := ⟨.adjust, [v], n, (t v).lvl, some m⟩

/-- `PopulateScaleCKKS.cpp:173-192`: adjusts each operand whose scale is below `m`.  Returns the adjustments, the
new operands and the next free value. -/
def raiseArgs (t : Nat → Fact) (m : Int) : List Nat → Nat → List Op × List Nat × Nat
  | [], n => ([], [], n)
  | a :: as, n =>
    if (t a).scaled && (t a).scale.getD 0 < m then
      let r := raiseArgs t m as (n + 1)
      (adjustOp t a m n :: r.1, n :: r.2.1, r.2.2)
    else
      let r := raiseArgs t m as n
      (r.1, a :: r.2.1, r.2.2)

/-- `PopulateScaleCKKS.cpp:154-194`: an additive or container operation.  `none` is the failed assertion of
`getScale`. -/
def raiseAdditive (t : Nat → Fact) (op : Op) (n : Nat) : Option (List Op × Nat) :=
  if (op.args.filter fun a => (t a).scaled).length > 1 then
    (operandScales t op.args).bind maxScale |>.map fun m =>
      let r := raiseArgs t m op.args n
      (r.1 ++ [{ op with args := r.2.1 }], r.2.2)
  else some ([op], n)

/-- `Operation::replaceUsesOfWith`. -/
def replaceUses (args : List Nat) (v m : Nat) : List Nat := args.map fun a => if a = v then m else a

/-- Adjusts the value `v` to the scale `m` before the operation. -/
def raiseUse (t : Nat → Fact) (op : Op) (v : Nat) (m : Int) (n : Nat) : List Op × Nat :=
  ([adjustOp t v m n, { op with args := replaceUses op.args v n }], n + 1)

/-- `PopulateScaleCKKS.cpp:196-239`: a multiplication. -/
def raiseMul (cfg : Cfg) (t : Nat → Fact) (op : Op) (n : Nat) : Option (List Op × Nat) :=
  let l := op.args.getD 0 0
  let r := op.args.getD 1 0
  if (t l).sec || (t r).sec then
    match (t l).scale, (t r).scale with
    | some sl, some sr =>
      if sl + sr < cfg.target op.lvl then
        if l = r then some (raiseUse t op l ((cfg.target op.lvl + 1).tdiv 2) n)
        else if sl < sr then some (raiseUse t op l (cfg.target op.lvl - sr) n)
        else some (raiseUse t op r (cfg.target op.lvl - sl) n)
      else some ([op], n)
    | _, _ => none
  else some ([op], n)

/-- `PopulateScaleCKKS.cpp:241-272`: a modulus reduction. -/
def raiseModReduce (cfg : Cfg) (t : Nat → Fact) (op : Op) (n : Nat) : Option (List Op × Nat) :=
  let v := op.args.headD 0
  if (t v).sec then
    (t v).scale.map fun s =>
      if s - cfg.qAt (t v).lvl < cfg.dflt then raiseUse t op v (cfg.target (t v).lvl) n
      else ([op], n)
  else some ([op], n)

/-- `PopulateScaleCKKS.cpp:148-396`: the walk at one operation, with the states `t` of the first solver. -/
def raiseOp (cfg : Cfg) (t : Nat → Fact) (op : Op) (n : Nat) : Option (List Op × Nat) :=
  if op.kind.additive then raiseAdditive t op n
  else if op.kind = .mul then raiseMul cfg t op n
  else if op.kind = .modReduce then raiseModReduce cfg t op n
  else some ([op], n)

/-- The walk.  It does not visit the operations it inserts before the visited one. -/
def raiseAll (cfg : Cfg) (t : Nat → Fact) : List Op → Nat → Option (List Op × Nat)
  | [], n => some ([], n)
  | op :: ops, n =>
    (raiseOp cfg t op n).bind fun (l, n') => (raiseAll cfg t ops n').map fun (l', n'') => (l ++ l', n'')

/-! ## Step 3: plaintexts are encoded at the adjusted scale -/

/-- Sweep: the operand of the `mgmt.init` that defines the value. -/
def initSource (_ : Nat → Option Nat) (op : Op) : Option Nat :=
  if op.kind = .init then op.args.head? else none

/-- `PopulateScaleCKKS.cpp:82-123`: `MergeAdjustScaleIntoInit` at one operation: an adjustment of an initialised
plaintext becomes an initialisation at the wanted scale.  The pass moves the new `mgmt.init` up to the old one,
reusing that if it has no other use; here it stays in place and an unused old one is kept. -/
def mergeOp (src : Nat → Option Nat) (op : Op) : Op :=
  match op.kind, op.ann, src (op.args.headD 0) with
  | .adjust, some m, some c => ⟨.init, [c], op.res, op.lvl, some m⟩
  | _, _, _ => op

/-- `MergeAdjustScaleIntoInit` at all operations. -/
def mergeAll : (Nat → Option Nat) → List Op → List Op
  | _, [] => []
  | src, op :: ops => mergeOp src op :: mergeAll (upd src op.res (initSource src op)) ops

/-- `PopulateScaleCKKS.cpp:125-429`: the pass up to the materialization of the adjustments.  The scales it
annotates are those of the second solver, `facts false`. -/
def populate (cfg : Cfg) (p : Prog) : Option Prog :=
  (raiseAll cfg (facts true cfg p) p.ops p.next).map fun r =>
    { p with ops := mergeAll (fun _ => none) r.1, next := r.2 }

/-- `lib/Transforms/PopulateScale/PopulateScalePatterns.cpp:16-63`: an adjustment from the scale `s` to the scale
`r` is dropped (`some none`), or becomes a multiplication with ones encoded at a scale (`some (some d)`), or is an
error (`none`). -/
def materialize (s r : Int) : Option (Option Int) :=
  if r = s then some none else if r - s < 0 then none else some (some (r - s))

/-! ## Validation -/

/-- The scale in the `mgmt` attribute: `lib/Transforms/ValidateScale/ValidateScale.cpp:40-47`.
`annotateScale` sets it for secret values and results of `mgmt.init`
(`lib/Analysis/ScaleAnalysis/ScaleAnalysis.cpp:589-611`). -/
def attrScale (t : Nat → Fact) (v : Nat) : Option Int := if (t v).scaled then (t v).scale else none

/-- `llvm::all_equal`. -/
def allEqual : List Int → Bool
  | [] => true
  | s :: ss => ss.all (· = s)

/-- `ValidateScale.cpp:100-198`: the check of one operation, with the attributes `sc` and the levels `lv`. -/
def validOp (cfg : Cfg) (sc : Nat → Option Int) (lv : Nat → Int) (op : Op) : Bool :=
  match op.kind with
  | .add | .sub | .insert => allEqual ((op.args ++ [op.res]).filterMap sc)
  | .mul =>
    match sc (op.args.getD 0 0), sc (op.args.getD 1 0), sc op.res with
    | some a, some b, some r => r = a + b
    | _, _, _ => true
  | .modReduce =>
    match sc (op.args.headD 0), sc op.res with
    | some a, some r => r = a - cfg.qAt (lv (op.args.headD 0))
    | _, _ => true
  | .adjust =>
    match sc (op.args.headD 0), sc op.res with
    | some a, some r => a ≤ r
    | _, _ => true
  | .bootstrap =>
    match sc (op.args.headD 0), sc op.res with
    | some a, some r => !cfg.logq.isEmpty && a ≤ cfg.logq.headD 0 - 1 && r = cfg.dflt
    | _, _ => true
  | .init | .other _ => true

/-- `ValidateScale.cpp:97-199`: `runCKKSValidation`. -/
def validate (cfg : Cfg) (sc : Nat → Option Int) (lv : Nat → Int) (ops : List Op) : Bool :=
  ops.all (validOp cfg sc lv)

end Heir.Scale
