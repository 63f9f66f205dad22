import Mathlib.Data.Int.Notation

/-! # Conversions of secret loops and accesses to static ones

Model of `lib/Transforms/ConvertSecretForToStaticFor`, `ConvertSecretWhileToStaticFor`,
`ConvertSecretExtractToStaticExtract` and `ConvertSecretInsertToStaticInsert`.

Loop bodies are cloned with their block arguments remapped, so a region is the function from block
arguments to yielded values. Index arithmetic is on unbounded integers. -/

namespace Heir.Static

/-- State of the secretness lattice, SecretnessAnalysis.h:23-97: `none` is "unknown". -/
abbrev Secretness := Option Bool

/-- `isSecret`, SecretnessAnalysis.cpp:242-250. -/
def isSecret (s : Secretness) : Bool := s == some true

/-- Outcome of a pattern: the new op, no match (or a diagnostic), or undefined behaviour / failed
assertion in the compiler. -/
inductive Out (β : Type) where
  | new (b : β)
  | fail
  | ub
  deriving DecidableEq

/-- A `scf.for` with the run-time values of its bounds. `step` is `getConstantStep`, `lower` and
`upper` the annotations read at ConvertSecretForToStaticFor.cpp:92 and :105. -/
structure ForOp (σ : Type) where
  lb : Int
  ub : Int
  step : Option Nat
  lower : Option Int
  upper : Option Int
  body : Int → σ → σ

/-- An `affine.for` with the run-time values of its bounds. -/
structure AffineFor (σ : Type) where
  lb : Int
  ub : Int
  step : Nat
  body : Int → σ → σ

/-- The new bound of one side, ConvertSecretForToStaticFor.cpp:87-114. -/
def newBound (secret : Bool) (bound : Int) (attr : Option Int) : Option Int :=
  if secret then attr else some bound

/-- The condition guarding the cloned body, ConvertSecretForToStaticFor.cpp:153-178. Only built when
some bound is secret. -/
def guardCond (lowSecret upSecret : Bool) (lb ub iv : Int) : Bool :=
  if lowSecret then (if upSecret then decide (iv ≥ lb) && decide (iv < ub) else decide (iv ≥ lb))
  else decide (iv < ub)

/-- `SecretForToStaticForConversion::matchAndRewrite`, ConvertSecretForToStaticFor.cpp:40-205.
Bounds of a signless integer type are cast to `index` first (:79-86); here bounds are integers from
the start. -/
def convertFor {σ : Type} (convertAll : Bool) (sl su : Secretness) (f : ForOp σ) :
    Out (AffineFor σ) :=
  if !convertAll && !isSecret sl && !isSecret su then .fail
  else match f.step, newBound (isSecret sl) f.lb f.lower, newBound (isSecret su) f.ub f.upper with
    | some step, some lb', some ub' =>
      .new ⟨lb', ub', step, if !isSecret sl && !isSecret su then f.body
        else fun iv st => if guardCond (isSecret sl) (isSecret su) f.lb f.ub iv then f.body iv st
          else st⟩
    | _, _, _ => .fail

/-- What `scf.condition` forwards in one position: an argument of the `before` region, an argument
of an enclosing block, or the result of an op. -/
inductive Fwd (α : Type) where
  | arg (i : Nat)
  | outer (v : α)
  | computed (f : List α → α)

/-- The value forwarded, given the arguments of the `before` region. -/
def Fwd.value {α : Type} (st : List α) : Fwd α → Option α
  | .arg i => st[i]?
  | .outer v => some v
  | .computed f => some (f st)

/-- `arg.getDefiningOp() == beforeRegionArgs[counter].getDefiningOp()`,
ConvertSecretWhileToStaticFor.cpp:55-56: the right side is always null, so this asks for a block
argument, no matter which. -/
def Fwd.isBlockArg {α : Type} : Fwd α → Bool
  | .computed _ => false
  | _ => true

/-- A `scf.while` with `arity` loop variables. `condInside`: the condition is defined in the
`before` region or is one of its arguments. -/
structure WhileOp (α : Type) where
  arity : Nat
  condInside : Bool
  cond : List α → Bool
  fwd : List (Fwd α)
  after : List α → List α
  maxIter : Option Int

/-- `SecretWhileToStaticForConversion::matchAndRewrite`, ConvertSecretWhileToStaticFor.cpp:37-150.
`beforeRegionArgs[counter]` is read past its end when more values are forwarded than there are loop
variables, and `replaceOp` (:147) asserts that the numbers of results agree. `mp.lookup` (:120)
asserts that the condition was cloned. `lattice` is the analysis state of the
condition if there is one; `getSecretness` (:77) asserts that it is initialized. -/
def convertWhile {α : Type} (lattice : Option Secretness) (w : WhileOp α) :
    Out (AffineFor (List α)) :=
  if w.fwd.length > w.arity then .ub
  else if !(w.fwd.all Fwd.isBlockArg) then .fail
  else match lattice with
    | none => .fail
    | some none => .ub
    | some (some false) => .fail
    | some (some true) => match w.maxIter with
      | none => .fail
      | some n =>
        if w.fwd.length ≠ w.arity || !w.condInside then .ub
        else .new ⟨0, n, 1, fun _ st => if w.cond st then w.after st else st⟩

/-- Conversion of `int64_t` to `int`: `int size = ...getShape().front()`,
ConvertSecretExtractToStaticExtract.cpp:88 and ConvertSecretInsertToStaticInsert.cpp:73. -/
def toInt32 (z : Int) : Int := (z + 2147483648) % 4294967296 - 2147483648

/-- The size in the tensor type: a dynamic dimension is `ShapedType::kDynamic`, the least
`int64_t`. -/
def shapeFront : Option Nat → Int
  | some n => n
  | none => -9223372036854775808

/-- The value the new op starts with, and its loop. -/
structure Scan (σ : Type) where
  init : σ
  loop : AffineFor σ

/-- `SecretExtractToStaticExtractConversion::matchAndRewrite`,
ConvertSecretExtractToStaticExtract.cpp:41-145. `t` is the run-time tensor, `shape` the extents in its type
(`none` for a dynamic one). Extraction outside the tensor is undefined behaviour of the new program:
`none` in the value of the loop. -/
def convertExtract {α : Type} (s : Secretness) (shape : List (Option Nat)) (t : List α)
    (index : Int) : Out (Scan (Option α)) :=
  match shape with
  | [dim] =>
    if s = some false then .fail
    else .new ⟨t[0]?, 0, toInt32 (shapeFront dim), 1, fun iv acc =>
      acc.bind fun old => (t[iv.toNat]?).bind fun new => if iv = index then some new else some old⟩
  | _ => .fail

/-- `tensor.insert` at a position: `none` outside the tensor. -/
def insertAt {α : Type} (t : List α) (i : Nat) (x : α) : Option (List α) :=
  if i < t.length then some (t.set i x) else none

/-- `SecretInsertToStaticInsertConversion::matchAndRewrite`,
ConvertSecretInsertToStaticInsert.cpp:41-130. -/
def convertInsert {α : Type} (s : Secretness) (shape : List (Option Nat)) (t : List α)
    (x : α) (index : Int) : Out (Scan (Option (List α))) :=
  match shape with
  | [dim] =>
    if s = some false then .fail
    else .new ⟨some t, 0, toInt32 (shapeFront dim), 1, fun iv acc =>
      acc.bind fun old => (insertAt old iv.toNat x).bind fun new =>
        if iv = index then some new else some old⟩
  | _ => .fail

end Heir.Static
