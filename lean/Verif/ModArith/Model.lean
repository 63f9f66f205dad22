import Verif.Arith
import Mathlib.Data.Nat.Size

/-!
# Model of `mod_arith` types, folders and lowering to `arith`

Sources: `lib/Dialect/ModArith/IR/ModArithTypes.cpp`, `ModArithOps.cpp`,
`ModArithCanonicalization.td`, `lib/Dialect/ModArith/Conversions/ModArithToArith/`.

A value of type `!mod_arith.int<q : iW>` lowers to an `iW`, here a `BitVec W`.  Only the
scalar case is modelled; tensors are elementwise (`ElementwiseMappable`).
-/

namespace Heir.ModArith

open Heir.Arith

variable {w : Nat}

/-- `ModArithType::verify`, `lib/Dialect/ModArith/IR/ModArithTypes.cpp:42-54`: the modulus
must have at most `bitWidth - 1` active bits.  The verifier does not reject modulus `0`.
`getActiveBits v` is the length of the binary expansion, `Nat.size`. -/
def typeVerify (q : BitVec w) : Bool := decide (q.toNat.size ≤ w - 1)

/-- `ConvertAdd`, `ModArithToArith.cpp:346-365`. -/
def lowerAdd (q a b : BitVec w) : Option (BitVec w) := remui (a + b) q

/-- `ConvertSub`, `ModArithToArith.cpp:367-387`. -/
def lowerSub (q a b : BitVec w) : Option (BitVec w) := remui (a - b + q) q

/-- `ConvertMul`, `ModArithToArith.cpp:389-416`: operands are zero-extended to twice the
storage width, the remainder is truncated back. -/
def lowerMul (q a b : BitVec w) : Option (BitVec w) := do
  let cmod := q.setWidth (2 * w)
  let r ← remui (a.setWidth (2 * w) * b.setWidth (2 * w)) cmod
  pure (r.setWidth w)

/-- `ConvertMac`, `ModArithToArith.cpp:418-449`. -/
def lowerMac (q x y acc : BitVec w) : Option (BitVec w) := do
  let cmod := q.setWidth (2 * w)
  let r ← remui (x.setWidth (2 * w) * y.setWidth (2 * w) + acc.setWidth (2 * w)) cmod
  pure (r.setWidth w)

/-- `ConvertReduce`, `ModArithToArith.cpp:321-342`: signed remainder, add the modulus,
unsigned remainder. -/
def lowerReduce (q a : BitVec w) : Option (BitVec w) := do
  let rems ← remsi a q
  remui (rems + q) q

/-- `ConvertLift`, `ModArithToArith.cpp:172-212`, without the `CENTERED` part. -/
def lowerLiftStandard (q a : BitVec w) : Option (BitVec w) := do
  let rems ← remsi a q
  pure (select (rems.slt 0#w) (rems + q) rems)

/-- `ConvertLift`, `ModArithToArith.cpp:172-212`, with the `CENTERED` part (198-208). -/
def lowerLiftCentered (q a : BitVec w) : Option (BitVec w) := do
  let rPos ← lowerLiftStandard q a
  let bound ← divsi (q + 1#w) 2#w
  pure (select (bound.sle rPos) (rPos - q) rPos)

/-- `ConvertModSwitch`, integer to integer, `ModArithToArith.cpp:471-502`.  `wo`/`wn` are
the old and new storage widths; all constants live at width `max wo wn`. -/
def lowerModSwitch {wo wn : Nat} (qOld : BitVec wo) (qNew : BitVec wn) (a : BitVec wo) :
    Option (BitVec wn) := do
  let width := max wo wn
  let old := qOld.setWidth width
  let new := qNew.setWidth width
  let input := a.setWidth width
  let remu ← remui input new
  let cmp : Bool := (input).ult (old >>> 1)
  -- `newModulus - oldModulus.urem(newModulus)` is computed at compile time
  let diffConst := new - old.umod new
  let remuAddMod ← remui (remu + diffConst) new
  pure ((select cmp remu remuAddMod).setWidth wn)

/-- `ConvertSubIfGE`, `ModArithToArith.td:28-35`. -/
def lowerSubIfGE (x y : BitVec w) : BitVec w := select (y.ule x) (x - y) x

/-- Number of active bits of `mod - 1`, used by `ConvertBarrettReduce`
(`ModArithToArith.cpp:592`) and by `BarrettReduceOp::verify` (`ModArithOps.cpp:211`). -/
def barrettBits {wa : Nat} (m : BitVec wa) : Nat := (m - 1#wa).toNat.size

/-- `BarrettReduceOp::verify`, `ModArithOps.cpp:199-223`: `w` is the input bit width and
`m` the modulus attribute (of its own width `wa`). -/
def barrettVerify {wa : Nat} (w : Nat) (m : BitVec wa) : Bool :=
  decide (barrettBits m ≤ w ∧ w ≤ 2 * barrettBits m) && decide (0 ≤ m.toInt)

/-- `ConvertBarrettReduce`, `ModArithToArith.cpp:578-637`.  `APInt::trunc` asserts that the
target width does not exceed the source width: an attribute narrower than three times the
modulus width is the `none` outcome.  `arith.extui` to a type that is not wider is invalid
IR; that happens only for `3 * bits ≤ w` and is the `none` outcome as well. -/
def lowerBarrett {wa : Nat} (m : BitVec wa) (x : BitVec w) : Option (BitVec w) :=
  let bits := barrettBits m
  if 3 * bits ≤ wa ∧ w < 3 * bits then
    let md := m.setWidth (3 * bits)
    let b := (1#(3 * bits)) <<< (2 * bits)
    if md = 0#(3 * bits) then none else
    let ratio := b.udiv md
    let e := x.setWidth (3 * bits)
    do
      let s ← shrui (e * ratio) (BitVec.ofNat (3 * bits) (2 * bits))
      pure ((e - s * md).setWidth w)
  else none

/-! ## Constants and folders -/

/-- `normalizeInteger` inside `ConstantOp::parse`, `ModArithOps.cpp:226-242`: the parsed
integer of arbitrary size is brought to the storage width; a negative integer is sign
extended/truncated, and rejected if it does not fit. -/
def parseConstant (w : Nat) (c : Int) : Option (BitVec w) :=
  if c < 0 then
    -- `getSignificantBits() > storageWidth`
    if -(2 ^ (w - 1) : Int) ≤ c then some (BitVec.ofInt w c) else none
  else
    -- `getActiveBits() > storageWidth`
    if c < 2 ^ w then some (BitVec.ofInt w c) else none

/-- `ConstantOp::fold`, `ModArithOps.cpp:355-403` (scalar case). -/
def foldConstant (q c : BitVec w) : BitVec w := c.umod q

/-- The operation codes folded by `foldScalarModOp`. -/
inductive ModOp | add | sub | mul | mac
  deriving DecidableEq, Repr

/-- `foldScalarModOp`, `ModArithOps.cpp:419-483`; all operands already at width `w`.  The
work width is `2 w + 1`. -/
def foldScalar (op : ModOp) (q l r acc : BitVec w) : Option (BitVec w) :=
  let ww := 2 * w + 1
  let lw := l.setWidth ww
  let rw := r.setWidth ww
  let mw := q.setWidth ww
  let aw := acc.setWidth ww
  -- `APInt::urem` by zero is undefined
  if mw = 0#ww then none else
  let res := match op with
    | .add => lw + rw
    | .sub => lw + mw - rw.umod mw
    | .mul => lw * rw
    | .mac => aw + lw * rw
  some ((res.umod mw).setWidth w)

/-! ## Expressions, canonicalization patterns -/

/-- A `mod_arith` expression over a fixed type; leaves are SSA values or constants (the
constant attribute at storage width). -/
inductive Expr (w : Nat) where
  | var (i : Nat)
  | const (c : BitVec w)
  | add (a b : Expr w)
  | sub (a b : Expr w)
  | mul (a b : Expr w)
  | mac (a b c : Expr w)
  deriving DecidableEq, Repr

open Expr

/-- `IsMinusOne`, `ModArithCanonicalization.td:14`. -/
def isMinusOne (q c : BitVec w) : Bool := c == q - 1#w

/-- `IsOne`, `ModArithCanonicalization.td:12`. -/
def isOne (c : BitVec w) : Bool := c == 1#w

/-- `IsZero`, `ModArithCanonicalization.td:11`. -/
def isZero (c : BitVec w) : Bool := c == 0#w

/-- The names of the registered patterns (`ModArithOps.cpp:557-574`) and `FindMac`. -/
inductive Pattern
  | addZero | subZero | mulZero | mulOne | addAddConstant | addSubConstantRHS
  | addSubConstantLHS | addMulNegativeOneRhs | addMulNegativeOneLhs
  | subMulNegativeOneRhs | subMulNegativeOneLhs | mulMulConstant | subRHSAddConstant
  | subLHSAddConstant | subRHSSubConstantRHS | subRHSSubConstantLHS
  | subLHSSubConstantRHS | subLHSSubConstantLHS | subSubLHSRHSLHS | findMac
  deriving DecidableEq, Repr

/-- One application of a pattern at the root of an expression:
`ModArithCanonicalization.td:21-281` and `ConvertToMac.cpp:19-54` (`findMac`; equality of
SSA values `$a` in `SubSubLHSRHSLHS` is syntactic equality of expressions here). -/
def rewrite (q : BitVec w) : Pattern → Expr w → Option (Expr w)
  | .addZero, .add x (.const c) => if isZero c then some x else none
  | .subZero, .sub x (.const c) => if isZero c then some x else none
  | .mulZero, .mul _ (.const c) => if isZero c then some (.const c) else none
  | .mulOne, .mul x (.const c) => if isOne c then some x else none
  | .addAddConstant, .add (.add x (.const c0)) (.const c1) =>
      some (.add x (.add (.const c0) (.const c1)))
  | .addSubConstantRHS, .add (.sub x (.const c0)) (.const c1) =>
      some (.add x (.sub (.const c1) (.const c0)))
  | .addSubConstantLHS, .add (.sub (.const c0) x) (.const c1) =>
      some (.sub (.add (.const c0) (.const c1)) x)
  | .addMulNegativeOneRhs, .add x (.mul y (.const z)) =>
      if isMinusOne q z then some (.sub x y) else none
  | .addMulNegativeOneLhs, .add (.mul x (.const z)) y =>
      if isMinusOne q z then some (.sub y x) else none
  | .subMulNegativeOneRhs, .sub x (.mul y (.const z)) =>
      if isMinusOne q z then some (.add x y) else none
  | .subMulNegativeOneLhs, .sub (.mul x (.const z)) y =>
      if isMinusOne q z then some (.sub (.const 0#w) (.add x y)) else none
  | .mulMulConstant, .mul (.mul x (.const c0)) (.const c1) =>
      some (.mul x (.mul (.const c0) (.const c1)))
  | .subRHSAddConstant, .sub (.add x (.const c0)) (.const c1) =>
      some (.add x (.sub (.const c0) (.const c1)))
  | .subLHSAddConstant, .sub (.const c1) (.add x (.const c0)) =>
      some (.sub (.sub (.const c1) (.const c0)) x)
  | .subRHSSubConstantRHS, .sub (.sub x (.const c0)) (.const c1) =>
      some (.sub x (.add (.const c0) (.const c1)))
  | .subRHSSubConstantLHS, .sub (.sub (.const c0) x) (.const c1) =>
      some (.sub (.sub (.const c0) (.const c1)) x)
  | .subLHSSubConstantRHS, .sub (.const c1) (.sub x (.const c0)) =>
      some (.sub (.add (.const c0) (.const c1)) x)
  | .subLHSSubConstantLHS, .sub (.const c1) (.sub (.const c0) x) =>
      some (.add x (.sub (.const c1) (.const c0)))
  | .subSubLHSRHSLHS, .sub (.sub a b) a' =>
      if a = a' then some (.sub (.const 0#w) b) else none
  | .findMac, .add (.mul a b) c => some (.mac a b c)
  | .findMac, .add c (.mul a b) => some (.mac a b c)
  | _, _ => none

/-- Constant folding of an operation on constants, as the canonicalizer performs it through
the `fold` hooks (`ModArithOps.cpp:485-528`, `355-403`). -/
def foldOp (q : BitVec w) : Expr w → Option (Expr w)
  | .const c => if foldConstant q c = c then none else some (.const (foldConstant q c))
  | .add (.const a) (.const b) => (foldScalar .add q a b 0#w).map .const
  | .sub (.const a) (.const b) => (foldScalar .sub q a b 0#w).map .const
  | .mul (.const a) (.const b) => (foldScalar .mul q a b 0#w).map .const
  | .mac (.const a) (.const b) (.const c) => (foldScalar .mac q a b c).map .const
  | _ => none

/-- One step of the canonicalizer / convert-to-mac driver: a pattern or a fold applied at
any position.  The greedy driver's order is not modelled: any order is allowed. -/
inductive Step (q : BitVec w) : Expr w → Expr w → Prop
  | pat {p e e'} : rewrite q p e = some e' → Step q e e'
  | fold {e e'} : foldOp q e = some e' → Step q e e'
  | addL {a a' b} : Step q a a' → Step q (.add a b) (.add a' b)
  | addR {a b b'} : Step q b b' → Step q (.add a b) (.add a b')
  | subL {a a' b} : Step q a a' → Step q (.sub a b) (.sub a' b)
  | subR {a b b'} : Step q b b' → Step q (.sub a b) (.sub a b')
  | mulL {a a' b} : Step q a a' → Step q (.mul a b) (.mul a' b)
  | mulR {a b b'} : Step q b b' → Step q (.mul a b) (.mul a b')
  | macA {a a' b c} : Step q a a' → Step q (.mac a b c) (.mac a' b c)
  | macB {a b b' c} : Step q b b' → Step q (.mac a b c) (.mac a b' c)
  | macC {a b c c'} : Step q c c' → Step q (.mac a b c) (.mac a b c')
  /-- commuting the operands of the `Commutative` ops (MLIR moves constants right) -/
  | addComm {a b} : Step q (.add a b) (.add b a)
  | mulComm {a b} : Step q (.mul a b) (.mul b a)

/-- Execution of the lowered code of an expression on storage values, `ConvertConstant`
(`ModArithToArith.cpp:305-319`) emitting the attribute unchanged. -/
def lowerRun (q : BitVec w) (env : Nat → BitVec w) : Expr w → Option (BitVec w)
  | .var i => some (env i)
  | .const c => some c
  | .add a b => do lowerAdd q (← lowerRun q env a) (← lowerRun q env b)
  | .sub a b => do lowerSub q (← lowerRun q env a) (← lowerRun q env b)
  | .mul a b => do lowerMul q (← lowerRun q env a) (← lowerRun q env b)
  | .mac a b c => do
      lowerMac q (← lowerRun q env a) (← lowerRun q env b) (← lowerRun q env c)

end Heir.ModArith
