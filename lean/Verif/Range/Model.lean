import Mathlib.Algebra.Order.Field.Rat
import Mathlib.Data.Int.Log
import Mathlib.Data.Rat.Floor

/-! # Model of the range analysis and of the first modulus of CKKS

`lib/Analysis/RangeAnalysis` and its use in `--generate-param-ckks`.  The code keeps logarithms to base two in
doubles; here the numbers themselves are kept as rationals and rounding of doubles is left out. -/

namespace Heir.Range

/-- The attributes of `arith.constant`.  `resource` is a `DenseResourceElementsAttr` with its elements, which the
analysis does not read. -/
inductive Const where
  | float (c : ℚ)
  | int {w : Nat} (c : BitVec w)
  | denseFloat (cs : List ℚ)
  | denseInt {w : Nat} (cs : List (BitVec w))
  | resource (cs : List ℚ)

/-- `std::abs(value.getSExtValue())`: `none` when the value does not fit, which is a failed assertion, and for the
smallest `int64_t`, whose absolute value is undefined. -/
def intRange {w : Nat} (c : BitVec w) : Option ℚ :=
  if -2 ^ 63 < c.toInt ∧ c.toInt < 2 ^ 63 then some (c.toInt.natAbs : ℚ) else none

/-- `APInt::clearSignBit`. -/
def clearSign {w : Nat} (c : BitVec w) : BitVec w := BitVec.ofNat w (c.toNat % 2 ^ (w - 1))

/-- The body of the loop over the elements of integers: `lib/Analysis/RangeAnalysis/RangeAnalysis.cpp:109-112`. -/
def bumpCleared {w : Nat} (m : Option (BitVec w)) (c : BitVec w) : BitVec w :=
  match m with
  | none => clearSign c
  | some b => if b.ule (clearSign c) then clearSign c else b

/-- `RangeAnalysis.cpp:106-113`. -/
def maxCleared {w : Nat} : Option (BitVec w) → List (BitVec w) → Option (BitVec w)
  | m, [] => m
  | m, c :: cs => maxCleared (some (bumpCleared m c)) cs

/-- The body of the loop over the elements of floats: `RangeAnalysis.cpp:95-99`. -/
def bumpAbs (m : Option ℚ) (c : ℚ) : ℚ :=
  match m with
  | none => |c|
  | some b => if b < |c| then |c| else b

/-- `RangeAnalysis.cpp:93-100`. -/
def maxAbs : Option ℚ → List ℚ → Option ℚ
  | m, [] => m
  | m, c :: cs => maxAbs (some (bumpAbs m c)) cs

/-- `RangeAnalysis.cpp:78-124`.  The outer `none` is undefined: the value of an empty optional, or an integer that
does not fit. The inner `none` leaves the result without a state. -/
def constRange : Const → Option (Option ℚ)
  | .float c => some (some |c|)
  | .int c => (intRange c).map some
  | .denseFloat cs => some (maxAbs none cs)
  | .denseInt cs =>
    match maxCleared none cs with
    | none => none
    | some m => if m.toInt < 2 ^ 63 then some (some (m.toInt : ℚ)) else none
  | .resource _ => some none

/-- The operations the analysis distinguishes.  `sub` stands for `arith.subf` and `arith.subi`, which it does not, and
`other` for everything else; `srcs` are the operands its result is made of, `id` tells operations apart. -/
inductive Kind where
  | add | mul | const (c : Const) | init | insert | sub | other (id : Nat) (srcs : List Nat)

/-- An operation with one result; `atZero` tells whether the result has a `mgmt` attribute with level zero. -/
structure Op where
  kind : Kind
  args : List Nat
  res : Nat
  atZero : Bool

/-- A straight-line program; the arguments are the values below `nargs`. -/
structure Prog where
  nargs : Nat
  ops : List Op

/-- Replaces the table at one value. -/
def upd {α : Type} (t : Nat → α) (v : Nat) (a : α) : Nat → α := fun u => if u = v then a else t u

/-- A sweep over the operations. -/
def run {α : Type} (step : (Nat → α) → Op → α) : List Op → (Nat → α) → Nat → α
  | [], t => t
  | op :: ops, t => run step ops (upd t op.res (step t op))

/-- `lib/Analysis/RangeAnalysis/RangeAnalysis.h:41-46`. -/
def join : Option ℚ → Option ℚ → Option ℚ
  | none, r => r
  | l, none => l
  | some l, some r => some (max l r)

/-- The first operand with a state: `RangeAnalysis.cpp:149-157`. -/
def firstInit (t : Nat → Option ℚ) : List Nat → Option ℚ
  | [] => none
  | a :: as => if (t a).isSome then t a else firstInit t as

/-- `RangeAnalysis.cpp:47-162`: the state an operation gives to its result; the undefined outcomes of constants are
left to `defined`. -/
def step (t : Nat → Option ℚ) (op : Op) : Option ℚ :=
  match op.kind with
  | .add => op.args.foldlM (fun r a => (t a).map (r + ·)) 0
  | .mul => op.args.foldlM (fun r a => (t a).map (r * ·)) 1
  | .const c => (constRange c).getD none
  | .init => t (op.args.getD 0 0)
  | .insert =>
    let s := t (op.args.getD 0 0)
    let d := t (op.args.getD 1 0)
    if s.isSome && d.isSome then join s d else none
  | .sub | .other _ _ => firstInit t op.args

/-- The analysis reads no constant in an undefined way. -/
def defined (g : Prog) : Bool :=
  g.ops.all fun op => match op.kind with
    | .const c => (constRange c).isSome
    | _ => true

/-- The solver run on the program: arguments are at the input range, `RangeAnalysis.h:83-86`. -/
def ranges (input : ℚ) (g : Prog) : Nat → Option ℚ :=
  run step g.ops fun v => if v < g.nargs then some input else none

/-- The body of the walk for the largest range at level zero:
`lib/Transforms/GenerateParam/GenerateParamCKKS.cpp:78-89`. -/
def bumpZero (t : Nat → Option ℚ) (op : Op) (m : Option ℚ) : Option ℚ :=
  if op.atZero then
    match t op.res, m with
    | some r, none => some r
    | some r, some b => if b < r then some r else some b
    | none, m => m
  else m

/-- `GenerateParamCKKS.cpp:76-90`. -/
def maxZero (t : Nat → Option ℚ) : List Op → Option ℚ → Option ℚ
  | [], m => m
  | op :: ops, m => maxZero t ops (bumpZero t op m)

/-- `GenerateParamCKKS.cpp:62-99`: the bits the first modulus has beyond the scaling modulus.  The outer `none` is
undefined, the conversion of minus infinity to an `int`; the inner one is a failure of the pass. -/
def extraBits (input : ℚ) (g : Prog) : Option (Option Int) :=
  match maxZero (ranges input g) g.ops none with
  | none => some none
  | some r => if r = 0 then none else some (some (Int.clog 2 r + 2))

/-- `GenerateParamCKKS.cpp:105-127`: the bits of the first modulus and whether there is a warning; `given` is the
option `first-mod-bits` and `validate` the option `validate-first-mod-bits`. -/
def firstMod (given scaling : Int) (validate : Bool) (input : ℚ) (g : Prog) : Option (Option (Int × Bool)) :=
  if given = 0 || validate then
    (extraBits input g).map fun e => e.map fun e =>
      if given = 0 then (scaling + e, false) else (given, decide (given - scaling < e))
  else some (some (given, false))

/-- The states of the argument of a loop body while the solver runs: the entry state joined with the one of the
yielded value (`visitRegionSuccessors` of MLIR's sparse forward analysis). -/
def loopStates (input : ℚ) (body : List Op) (arg res : Nat) : Nat → Option ℚ
  | 0 => some input
  | n + 1 => join (loopStates input body arg res n)
      (run step body (upd (fun _ => none) arg (loopStates input body arg res n)) res)

end Heir.Range
