import Mathlib.Data.Rat.Floor
import Mathlib.Algebra.Order.Field.Rat
import Verif.Mgmt.Model

/-! # Model of the placement of bootstraps and rescalings by a linear program

`--ilp-bootstrap-placement` on the straight line of operations of one `secret.generic`
(`lib/Analysis/ILPBootstrapPlacementAnalysis`, `lib/Transforms/ILPBootstrapPlacement`).  The integer linear program is
built as in the code; the solver (OR-Tools) is not modelled, what it returns is any solution.  Its doubles are
rationals here, so a variable that has to be an integer is one exactly.  The `int`s of the code are integers, they do not
overflow.  Operations have one result. -/

namespace Heir.Place
open Heir.Mgmt

/-- The options of the pass and whether the module has CKKS attributes
(`lib/Transforms/ILPBootstrapPlacement/ILPBootstrapPlacement.td:36-72`, `ILPBootstrapPlacement.cpp:168-183`). -/
structure Opts where
  ckks : Bool
  waterline : Int
  sw : Int
  factorBits : Int
  lower : Int

/-- `ILPBootstrapPlacement.cpp:185-191`: the bits one rescaling drops. -/
def Opts.sf (o : Opts) : Int := if o.ckks then o.factorBits else o.sw

/-- `ILPBootstrapPlacementAnalysis.cpp:115`. -/
def Opts.scaleMax (o : Opts) : Int := if o.ckks then o.sf + 2 * o.sw else o.sw

/-- `ILPBootstrapPlacementAnalysis.cpp:116-117`. -/
def Opts.bigM (o : Opts) : Int := o.waterline + 1
def Opts.scaleBigM (o : Opts) : Int := 4 * o.scaleMax + o.sf * (o.waterline + 1)

/-- What a `mgmt.mgmt` attribute says; no scale is the scale -1. -/
structure Attr where
  level : Int
  scale : Option Int
  deriving DecidableEq, Repr

/-- The operations the pass erases before it starts. -/
def erased : Kind → Bool
  | .relinearize | .modReduce | .levelReduce _ | .adjustScale _ | .bootstrap => true
  | _ => false

/-- `ILPBootstrapPlacement.cpp:193-205`: `eraseExistingPlacementMgmtOps`; `σ` is the renaming `replaceAllUsesWith`
amounts to for the operations still to be visited. -/
def erase : (Nat → Nat) → List Op → (Nat → Nat) × List Op
  | σ, [] => (σ, [])
  | σ, op :: ops =>
    if erased op.kind then erase (upd σ op.res (σ (op.args.headD 0))) ops
    else
      let r := erase σ ops
      (r.1, { op with args := op.args.map σ } :: r.2)

/-- The program without them. -/
def eraseProg (p : Prog) : Prog :=
  let r := erase id p.ops
  { p with ops := r.2, yields := p.yields.map r.1 }

/-- What the analysis is given: the secretness of the values, which values are results of `arith.constant`, the
attributes of the arguments of the `secret.generic` and of its results. -/
structure Ctx where
  sec : Nat → Bool
  const : Nat → Bool
  argAttr : Nat → Option Attr
  resAttr : Nat → Option Attr

/-! ## The linear program -/

/-- The variables; an operation is named by its result (`ILPBootstrapPlacementAnalysis.cpp:155-162`). -/
inductive Var where
  | level (v : Nat) | scale (v : Nat)
  | inLevel (v : Nat) | inScale (v : Nat) | rescale (v : Nat) | boot (v : Nat)
  | edgeScale (v i : Nat) | edgeRescale (v i : Nat)
  deriving DecidableEq

/-- A linear constraint: the sum on the left is equal to, or at most, the constant on the right. -/
structure Con where
  terms : List (Int × Var)
  isEq : Bool
  bound : Int

/-- The value of the left side. -/
def Con.lhs (c : Con) (s : Var → ℚ) : ℚ := (c.terms.map fun x => (x.1 : ℚ) * s x.2).sum

/-- The constraint is met. -/
def Con.Holds (c : Con) (s : Var → ℚ) : Prop := if c.isEq then c.lhs s = c.bound else c.lhs s ≤ c.bound

/-- `x == b`. -/
def isConst (x : Var) (b : Int) : Con := ⟨[(1, x)], true, b⟩

/-- `ILPBootstrapPlacementAnalysis.cpp:170-177`: the level of an argument. -/
def initLevel (o : Opts) (c : Ctx) (v : Nat) : Int :=
  match c.argAttr v with
  | some a => a.level
  | none => o.waterline

/-- `ILPBootstrapPlacementAnalysis.cpp:170-177`: the scale of an argument. -/
def initScale (o : Opts) (c : Ctx) (v : Nat) : Int :=
  match c.argAttr v with
  | some ⟨_, some s⟩ => if o.ckks then s else o.sw
  | _ => o.sw

/-- `ILPBootstrapPlacementAnalysis.cpp:179-194`: otherwise the analysis reports an error. -/
def argOk (o : Opts) (c : Ctx) (v : Nat) : Bool :=
  decide (0 ≤ initLevel o c v) && decide (initLevel o c v ≤ o.waterline) &&
    decide (o.sw ≤ initScale o c v) && decide (initScale o c v ≤ o.scaleMax)

/-- `ILPBootstrapPlacementAnalysis.cpp:207-212`. -/
def argCons (o : Opts) (c : Ctx) (v : Nat) : List Con :=
  [isConst (.level v) (initLevel o c v), isConst (.scale v) (initScale o c v)]

/-- `ILPBootstrapPlacementAnalysis.cpp:240-243,261-265`: without CKKS all scales are the waterline. -/
def flatCons (o : Opts) (op : Op) : List Con :=
  if o.ckks then [] else [isConst (.inScale op.res) o.sw, isConst (.scale op.res) o.sw]

/-- `ILPBootstrapPlacementAnalysis.cpp:302-306`: the variable for the scale of an operand. -/
def edgeVar (o : Opts) (op : Op) (i : Nat) : Var :=
  if o.ckks && op.kind = .mul then .edgeScale op.res i else .inScale op.res

/-- `ILPBootstrapPlacementAnalysis.cpp:308-318`: the operand `a` at position `i`. -/
def edgeCons (o : Opts) (op : Op) (i a : Nat) : List Con :=
  [⟨[(1, .inLevel op.res), (-1, .level a), (1, .edgeRescale op.res i)], false, 0⟩,
   ⟨[(1, .scale a), (-o.sf, .edgeRescale op.res i), (-1, edgeVar o op i)], false, 0⟩] ++
  if o.ckks then [] else [isConst (edgeVar o op i) o.sw]

/-- The positions of an operation with their operands. -/
def positions (op : Op) : List (Nat × Nat) := op.args.zipIdx.map fun x => (x.2, x.1)

/-- `ILPBootstrapPlacementAnalysis.cpp:285-291,345-353`: the edges of an operation.  All secret values of the body
have variables. -/
def edgesCons (o : Opts) (c : Ctx) (op : Op) : List Con :=
  ((positions op).filter fun x => c.sec x.2).flatMap fun x => edgeCons o op x.1 x.2

/-- `ILPBootstrapPlacementAnalysis.cpp:326-343`: the scale of a product before it is managed. -/
def mulCons (o : Opts) (c : Ctx) (op : Op) : List Con :=
  if o.ckks && op.kind = .mul then
    [⟨(1, .inScale op.res) :: ((positions op).filter fun x => c.sec x.2).map fun x => (-1, .edgeScale op.res x.1), true,
      o.sw * ((op.args.filter fun a => !c.sec a && c.const a).length : Int)⟩]
  else []

/-- `ILPBootstrapPlacementAnalysis.cpp:359-401`: the yielded value `y` at position `i`. -/
def yieldCons (o : Opts) (c : Ctx) (i y : Nat) : List Con :=
  match c.resAttr i with
  | none => []
  | some a =>
    isConst (.level y) a.level ::
      match a.scale with
      | some s => if o.ckks then [isConst (.scale y) s] else []
      | none => []

/-- `ILPBootstrapPlacementAnalysis.cpp:372-379,387-394`: otherwise the analysis reports an error. -/
def yieldOk (o : Opts) (c : Ctx) (i : Nat) : Bool :=
  match c.resAttr i with
  | none => true
  | some a =>
    decide (0 ≤ a.level) && decide (a.level ≤ o.waterline) &&
      match a.scale with
      | some s => !o.ckks || (decide (o.sw ≤ s) && decide (s ≤ o.scaleMax))
      | none => true

/-- `ILPBootstrapPlacementAnalysis.cpp:415-416`. -/
def intrinsic (o : Opts) (op : Op) : Int := if !o.ckks && op.kind = .mul then 1 else 0

/-- `ILPBootstrapPlacementAnalysis.cpp:430-452`: from the operands of an operation to its managed result. -/
def nodeCons (o : Opts) (op : Op) : List Con :=
  let v := op.res
  [⟨[(1, .level v), (-1, .inLevel v), (1, .rescale v), (-o.bigM, .boot v)], false, -intrinsic o op⟩,
   ⟨[(1, .inScale v), (-o.sf, .rescale v), (-o.scaleBigM, .boot v), (-1, .scale v)], false, 0⟩,
   ⟨[(1, .inScale v), (-o.sf, .inLevel v), (o.scaleBigM, .boot v)], false, o.sf * (1 - o.lower) + o.scaleBigM⟩,
   ⟨[(-1, .level v), (o.bigM, .boot v)], false, o.bigM - (o.lower + 1)⟩,
   ⟨[(-1, .scale v), (o.scaleBigM, .boot v)], false, o.scaleBigM - o.sf⟩]

/-- The operations with variables: `ILPBootstrapPlacementAnalysis.cpp:217-225,269-278`. -/
def tracked (c : Ctx) (p : Prog) : List Op := p.ops.filter fun op => c.sec op.res

/-- The yielded secret values with their positions. -/
def secretYields (c : Ctx) (p : Prog) : List (Nat × Nat) :=
  (p.yields.zipIdx.map fun x => (x.2, x.1)).filter fun x => c.sec x.2

/-- The secret arguments. -/
def secretArgs (c : Ctx) (p : Prog) : List Nat := (List.range p.nargs).filter c.sec

/-- All constraints, `ILPBootstrapPlacementAnalysis.cpp:539-543`. -/
def constraints (o : Opts) (c : Ctx) (p : Prog) : List Con :=
  (secretArgs c p).flatMap (argCons o c) ++
  (tracked c p).flatMap (flatCons o) ++
  (tracked c p).flatMap (edgesCons o c) ++
  (tracked c p).flatMap (mulCons o c) ++
  (secretYields c p).flatMap (fun x => yieldCons o c x.1 x.2) ++
  (tracked c p).flatMap (nodeCons o)

/-- The analysis reports no error before it solves. -/
def inputsOk (o : Opts) (c : Ctx) (p : Prog) : Bool :=
  (secretArgs c p).all (argOk o c) && (secretYields c p).all fun x => yieldOk o c x.1

/-- An integer variable with its bounds. -/
def IntIn (x : ℚ) (lo hi : Int) : Prop := ∃ n : Int, x = n ∧ lo ≤ n ∧ n ≤ hi

/-- The bounds of the variables, `ILPBootstrapPlacementAnalysis.cpp:119-131,198-205,229-238,253-260,298-306`: the
levels of values are the only continuous ones. -/
structure InBox (o : Opts) (c : Ctx) (p : Prog) (s : Var → ℚ) : Prop where
  arg : ∀ v ∈ secretArgs c p, 0 ≤ s (.level v) ∧ s (.level v) ≤ o.waterline ∧ IntIn (s (.scale v)) o.sw o.scaleMax
  level : ∀ op ∈ tracked c p, 0 ≤ s (.level op.res) ∧ s (.level op.res) ≤ o.waterline
  scale : ∀ op ∈ tracked c p, IntIn (s (.scale op.res)) o.sw o.scaleMax
  inLevel : ∀ op ∈ tracked c p, IntIn (s (.inLevel op.res)) 0 o.waterline
  inScale : ∀ op ∈ tracked c p, IntIn (s (.inScale op.res)) o.sw o.scaleMax
  rescale : ∀ op ∈ tracked c p, IntIn (s (.rescale op.res)) 0 o.waterline
  boot : ∀ op ∈ tracked c p, IntIn (s (.boot op.res)) 0 1
  edgeRescale : ∀ op ∈ tracked c p, ∀ x ∈ positions op, c.sec x.2 = true →
    IntIn (s (.edgeRescale op.res x.1)) 0 o.waterline
  edgeScale : ∀ op ∈ tracked c p, ∀ x ∈ positions op, c.sec x.2 = true →
    IntIn (s (edgeVar o op x.1)) o.sw o.scaleMax

/-- A solution: what the solver returns when it ends with `kFeasible` or `kOptimal`. -/
structure Feasible (o : Opts) (c : Ctx) (p : Prog) (s : Var → ℚ) : Prop where
  box : InBox o c p s
  cons : ∀ k ∈ constraints o c p, k.Holds s

/-- The costs: of a bootstrap, of a rescaling, and slope and intercept of the latency of an operation
(`ILPBootstrapPlacementAnalysis.cpp:87-98`). -/
structure Cost where
  boot : ℚ
  rescale : ℚ
  latency : Op → Option (ℚ × ℚ)

/-- The edges with variables. -/
def edges (c : Ctx) (op : Op) : List (Nat × Nat) := (positions op).filter fun x => c.sec x.2

/-- The objective, `ILPBootstrapPlacementAnalysis.cpp:457-488`. -/
def objective (c : Ctx) (k : Cost) (p : Prog) (s : Var → ℚ) : ℚ :=
  ((tracked c p).map fun op => k.boot * s (.boot op.res)).sum +
  ((tracked c p).map fun op => k.rescale * s (.rescale op.res)).sum +
  ((tracked c p).flatMap fun op => (edges c op).map fun x => k.rescale * s (.edgeRescale op.res x.1)).sum +
  ((tracked c p).map fun op =>
    match k.latency op with
    | some l => l.1 * s (.inLevel op.res) + l.2
    | none => 0).sum +
  ((secretArgs c p ++ (tracked c p).map (·.res)).map fun v => -(1 / 1000) * s (.level v)).sum

/-! ## Decoding a solution -/

/-- `std::round`, `ILPBootstrapPlacementAnalysis.cpp:100-103`. -/
def rounded (x : ℚ) : Int := if 0 ≤ x then ⌊x + 1 / 2⌋ else ⌈x - 1 / 2⌉

/-- `ILPBootstrapPlacementAnalysis.cpp:501`. -/
def boots (s : Var → ℚ) (v : Nat) : Bool := decide (1 / 2 < s (.boot v))

/-- The operations inserted.  `adjust` keeps the scale the code reckons with afterwards
(`ILPBootstrapPlacement.cpp:312,331`), which is not written into the operation. -/
inductive Mg where
  | drop (k : Int) | adjust (scale : Int) | rescale | boot
  deriving DecidableEq, Repr

/-- `ILPBootstrapPlacement.cpp:263-266`; the denominator is positive, see DESIGN.md. -/
def ceilDivPositive (num den : Int) : Int := if num ≤ 0 then 0 else Int.tdiv (num + den - 1) den

/-- `ILPBootstrapPlacement.cpp:302-322`: the loop for `i` from `n - 1` down to zero at the scale `cur`; returns what it
inserts and the scale after it. -/
def rescaleLoop (o : Opts) (out : Int) : Nat → Int → List Mg × Int
  | 0, cur => ([], cur)
  | i + 1, cur =>
    let target := min (o.sf + 2 * o.sw - o.sf) (out + i * o.sf)
    if cur < target + o.sf then
      let r := rescaleLoop o out i (target + o.sf - o.sf)
      (.adjust (target + o.sf) :: .rescale :: r.1, r.2)
    else
      let r := rescaleLoop o out i (cur - o.sf)
      (.rescale :: r.1, r.2)

/-- `ILPBootstrapPlacement.cpp:289-291`. -/
def rescaleCount (o : Opts) (inScale outScale : Int) : Int :=
  if o.ckks then ceilDivPositive (inScale - outScale) o.sf else 0

/-- `ILPBootstrapPlacement.cpp:278-342`: `decodeDirectTransitionAfter`, and the same in
`decodeDirectTransitionBefore` (`:344-395`); `none` is the error at the end. -/
def decodeDirect (o : Opts) (inLevel inScale outLevel outScale : Int) : Option (List Mg) :=
  let n := rescaleCount o inScale outScale
  let r := rescaleLoop o outScale n.toNat inScale
  let pre := if outLevel + n < inLevel then [Mg.drop (inLevel - outLevel - n)] else []
  let level := (if outLevel + n < inLevel then inLevel - (inLevel - outLevel - n) else inLevel) - n
  let post := if o.ckks && decide (r.2 < outScale) then [Mg.adjust outScale] else []
  let scale := if o.ckks && decide (r.2 < outScale) then outScale else r.2
  if level ≠ outLevel ∨ scale ≠ outScale then none else some (pre ++ r.1 ++ post)

/-- `ILPBootstrapPlacement.cpp:397-452`: `decodeNodeTransition`. -/
def decodeNode (o : Opts) (inLevel inScale outLevel outScale : Int) (boot : Bool) : Option (List Mg) :=
  if !boot then decodeDirect o inLevel inScale outLevel outScale
  else
    (decodeDirect o inLevel inScale o.lower o.sf).bind fun pre =>
      let n := if o.ckks then ceilDivPositive (o.sf - outScale) o.sf else 0
      let target := outLevel + n
      if target > o.waterline then none
      else
        let drop := if target < o.waterline then [Mg.drop (o.waterline - target)] else []
        let level := if target < o.waterline then target else o.waterline
        (decodeDirect o level o.sf outLevel outScale).map fun post => pre ++ [.boot] ++ drop ++ post

/-- The operations the decoded ones become; `id` counts the scale adjustments. -/
def kinds : Nat → List Mg → Nat × List Kind
  | id, [] => (id, [])
  | id, .drop k :: ms => let r := kinds id ms; (r.1, .levelReduce k.toNat :: r.2)
  | id, .adjust _ :: ms => let r := kinds (id + 1) ms; (r.1, .adjustScale id :: r.2)
  | id, .rescale :: ms => let r := kinds id ms; (r.1, .modReduce :: r.2)
  | id, .boot :: ms => let r := kinds id ms; (r.1, .bootstrap :: r.2)

/-- `ILPBootstrapPlacementAnalysis.cpp:517-529` and `ILPBootstrapPlacement.cpp:454-468`: the management of the operand
`a` at position `i`. -/
def edgeOf (o : Opts) (c : Ctx) (s : Var → ℚ) (op : Op) (i a : Nat) : Option (List Mg) :=
  if c.sec op.res && c.sec a then
    decodeDirect o (rounded (s (.level a))) (rounded (s (.scale a))) (rounded (s (.inLevel op.res)))
      (rounded (s (edgeVar o op i)))
  else some []

/-- `ILPBootstrapPlacementAnalysis.cpp:500-515`: the management of the result. -/
def nodeOf (o : Opts) (c : Ctx) (s : Var → ℚ) (op : Op) : Option (List Mg) :=
  if c.sec op.res then
    decodeNode o (rounded (s (.inLevel op.res))) (rounded (s (.inScale op.res))) (rounded (s (.level op.res)))
      (rounded (s (.scale op.res))) (boots s op.res)
  else some []

/-- `lib/Transforms/SecretInsertMgmt/SecretInsertMgmtPatterns.cpp:84-106`: `MultRelinearize`, run by
`ILPBootstrapPlacement.cpp:508`; `followMgmtChain` (`:247-261`) puts the rest after it. -/
def relinOf (c : Ctx) (op : Op) : List Kind :=
  if op.kind = .mul && c.sec op.res && op.args.all c.sec then [.relinearize] else []

/-- The operands at the positions from `i` on, as they are after the results have been managed: the operations inserted
before the operation and the operands afterwards. -/
def placeEdges (o : Opts) (c : Ctx) (s : Var → ℚ) (op : Op) (σ : Nat → Nat) :
    Nat → Nat → Nat → List Nat → Option (Nat × Nat × List Op × List Nat)
  | n, id, _, [] => some (n, id, [], [])
  | n, id, i, a :: as =>
    (edgeOf o c s op i a).bind fun ms =>
      let k := kinds id ms
      (placeEdges o c s op σ (n + k.2.length) k.1 (i + 1) as).map fun r =>
        (r.1, r.2.1, chain k.2 (σ a) n ++ r.2.2.1, chainRes k.2 (σ a) n :: r.2.2.2)

/-- `ILPBootstrapPlacement.cpp:507-522` in one sweep: the code inserts after all results first and before all operands
then, which numbers the scale adjustments differently.  `σ` is the renaming the `replaceAllUsesExcept` of
`insertAfterCurrent` (`:268-276`) amount to for the operations still to be visited. -/
def placeOps (o : Opts) (c : Ctx) (s : Var → ℚ) :
    Nat → Nat → (Nat → Nat) → List Op → Option (Nat × (Nat → Nat) × List Op)
  | n, _, σ, [] => some (n, σ, [])
  | n, id, σ, op :: ops =>
    (placeEdges o c s op σ n id 0 op.args).bind fun e =>
      (nodeOf o c s op).bind fun ms =>
        let k := kinds e.2.1 ms
        let ks := relinOf c op ++ k.2
        (placeOps o c s (e.1 + ks.length) k.1 (upd σ op.res (chainRes ks op.res e.1)) ops).map fun r =>
          (r.1, r.2.1, e.2.2.1 ++ { op with args := e.2.2.2 } :: (chain ks op.res e.1 ++ r.2.2))

/-- The program with the operations placed; `none` when decoding fails. -/
def placeProg (o : Opts) (c : Ctx) (s : Var → ℚ) (p : Prog) : Option Prog :=
  (placeOps o c s p.next 0 id p.ops).map fun r =>
    { p with ops := r.2.2, yields := p.yields.map r.2.1, next := r.1 }

/-- What the analysis is given in the pass, `ILPBootstrapPlacement.cpp:480-490`; the secretness is that of the program
after erasing. -/
def context (p : Prog) (const : Nat → Bool) (argAttr resAttr : Nat → Option Attr) : Ctx where
  sec := fun v => (facts ⟨0, 0⟩ p v).sec
  const := const
  argAttr := argAttr
  resAttr := resAttr

/-- The pass when the solver has returned `s`, without the canonicalizer, the elimination of common subexpressions and
the annotation at the end. -/
def place (o : Opts) (const : Nat → Bool) (argAttr resAttr : Nat → Option Attr) (s : Var → ℚ) (p : Prog) :
    Option Prog :=
  placeProg o (context (eraseProg p) const argAttr resAttr) s (eraseProg p)

end Heir.Place
