import Verif.ModArith.Model

/-!
# Model of `--arith-to-mod-arith`

Source: `lib/Dialect/Arith/Conversions/ArithToModArith/ArithToModArith.cpp`, with the
lowering of its result by `--mod-arith-to-arith` (`lib/Dialect/ModArith/Conversions/
ModArithToArith/ModArithToArith.cpp`, modelled in `Verif/ModArith/Model.lean`).

A program is an expression over arguments, loads from global memrefs and constants.  The
operations are elementwise, so tensors are modelled by one of their elements; a constant
remembers whether it comes from a dense attribute since the two cases are converted
differently.  Memrefs other than globals, loops and the reshaping operations, which the pass
only retypes (`ConvertAny`), are left out.
-/

namespace Heir.ArithMod

open Heir.ModArith

/-- The binary operations of `arith` that the pass names (`ArithToModArith.cpp:258-262`). -/
inductive Op | add | sub | mul | remu
  deriving DecidableEq, Repr

/-- Programs in the `arith` dialect, indexed by the width of their result.  `ext true` is
`arith.extsi` and `ext false` is `arith.extui`, whose verifiers demand `v < w`. -/
inductive E : Nat → Type
  | arg (w i : Nat) : E w
  | load (w i : Nat) : E w
  | const {w : Nat} (dense : Bool) (c : BitVec w) : E w
  | bin {w : Nat} (k : Op) (a b : E w) : E w
  | ext {v : Nat} (signed : Bool) (w : Nat) (h : v < w) (a : E v) : E w

/-- Programs in the `mod_arith` dialect, indexed by the storage width.  `arg` keeps the width
of the integer it stands for, `enc` is `mod_arith.encapsulate (arith.extui (memref.load))`. -/
inductive M : Nat → Type
  | arg (W w i : Nat) : M W
  | enc (W w i : Nat) : M W
  | const {W : Nat} (c : BitVec W) : M W
  | add {W : Nat} (q : BitVec W) (a b : M W) : M W
  | sub {W : Nat} (q : BitVec W) (a b : M W) : M W
  | mul {W : Nat} (q : BitVec W) (a b : M W) : M W
  | switch {V W : Nat} (qo : BitVec V) (qn : BitVec W) (a : M V) : M W

/-- `getIntegerType`, `ArithToModArith.cpp:41-48`; `m` is the pass option `modulus`. -/
def storageWidth (m : Int) (w : Nat) : Nat := if m = 0 then w + 1 else 64

/-- The modulus chosen by `convertArithType`, `ArithToModArith.cpp:50-58`, as the 64-bit word
handed to `IntegerAttr::get`, which extends words of signless types by zeros.  `1L << s` is
undefined unless `0 ≤ s < 64`. -/
def modulusWord (m : Int) (w : Nat) : Option (BitVec 64) :=
  if m = 0 then
    if 1 ≤ w ∧ w ≤ 64 then some (1#64 <<< (w - 1)) else none
  else some (BitVec.ofInt 64 m)

/-- `convertArithType`, `ArithToModArith.cpp:50-58`: no type for an undefined shift, or when
`ModArithType::get` rejects the modulus. -/
def convType (m : Int) (w : Nat) : Option (BitVec (storageWidth m w)) :=
  (modulusWord m w).bind fun word =>
    let q := word.setWidth (storageWidth m w)
    if typeVerify q then some q else none

/-- `ConvertConstant`, `ArithToModArith.cpp:105-157`: elements of dense attributes are
extended by their sign (`sextOrTrunc`, 135-137), scalars by zeros (`zextOrTrunc`, 150-151).
Neither is reduced. -/
def convConst {w : Nat} (W : Nat) (dense : Bool) (c : BitVec w) : BitVec W :=
  if dense then c.signExtend W else c.setWidth W

/-- `ConvertBinOp` for `AddIOp`, `SubIOp` and `MulIOp`, `ArithToModArith.cpp:294-296`.
`arith.remui` on integers is illegal (252-262) and no pattern converts it. -/
def convBin {W : Nat} (q : BitVec W) (k : Op) (a b : M W) : Option (M W) :=
  match k with
  | .add => some (.add q a b)
  | .sub => some (.sub q a b)
  | .mul => some (.mul q a b)
  | .remu => none

/-- The conversion, `ArithToModArith.cpp:105-224` and `buildLoadOps`, 68-89.  A load from a
global stays an integer and is extended where it is used; `arith.extui` needs a wider result.
Both extensions become `mod_arith.mod_switch` (159-195). -/
def conv (m : Int) : {w : Nat} → E w → Option (M (storageWidth m w))
  | w, .arg _ i => (convType m w).map fun _ => .arg _ w i
  | w, .load _ i => (convType m w).bind fun _ =>
      if w < storageWidth m w then some (.enc _ w i) else none
  | w, .const dense c => (convType m w).map fun _ => .const (convConst _ dense c)
  | w, .bin k a b => (convType m w).bind fun q =>
      (conv m a).bind fun a' => (conv m b).bind fun b' => convBin q k a' b'
  | w, .ext (v := v) _ _ _ a => (convType m v).bind fun qo => (convType m w).bind fun qn =>
      (conv m a).map fun a' => .switch qo qn a'

/-- What a lowered program is run on: the storage words of the arguments, as natural numbers
below the modulus, by width of the integer and index; and the contents of global memrefs. -/
structure Store where
  arg : Nat → Nat → Nat
  mem : (w : Nat) → Nat → BitVec w

/-- The program after `--mod-arith-to-arith`, run.  `ConvertConstant`
(`ModArithToArith.cpp:305-319`) keeps the attribute, `ConvertEncapsulate` (158-170) keeps its
operand; the others are the functions of `Verif/ModArith/Model.lean`. -/
def M.run (σ : Store) : {W : Nat} → M W → Option (BitVec W)
  | W, .arg _ w i => some (BitVec.ofNat W (σ.arg w i))
  | W, .enc _ w i => some ((σ.mem w i).setWidth W)
  | _, .const c => some c
  | _, .add q a b => (a.run σ).bind fun x => (b.run σ).bind fun y => lowerAdd q x y
  | _, .sub q a b => (a.run σ).bind fun x => (b.run σ).bind fun y => lowerSub q x y
  | _, .mul q a b => (a.run σ).bind fun x => (b.run σ).bind fun y => lowerMul q x y
  | _, .switch qo qn a => (a.run σ).bind fun x => lowerModSwitch qo qn x

/-- Both passes, run. -/
def exec (m : Int) (σ : Store) {w : Nat} (e : E w) : Option (BitVec (storageWidth m w)) :=
  (conv m e).bind fun p => p.run σ

end Heir.ArithMod
