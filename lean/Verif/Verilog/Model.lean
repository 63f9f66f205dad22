/-!
# Model of the Verilog emitter

`lib/Target/Verilog/VerilogEmitter.cpp`, with `flattenIndexExpression` of
`lib/Utils/TargetUtils.cpp`.

The emitter prints text.  The model prints the syntax tree that a Verilog parser builds from that
text, with the precedences of IEEE 1364-2005: what is written `a > b ? a : b` is the conditional of
a comparison.  The first half of this file is that tree and its meaning in the standard (clause 5);
the second half is the emitter.

Simplifications.  An unsized decimal number has the 32 bits that the standard guarantees.  `index`
has the 32 bits that the emitter gives it (`VerilogEmitter.cpp:1025-1030`).  A select of a bit of a
scalar wire is accepted, as most tools do.  A wire any bit of which is unknown is unknown as a whole.
-/

namespace Heir.Verilog

/-! ## Verilog -/

/-- Operators whose operands take the width and the sign of their context. -/
inductive Arith where
  | add | sub | mul | div | rem | and | xor
  deriving DecidableEq, Repr

/-- `<<`, `>>` and `>>>`. -/
inductive ShiftOp where
  | shl | shr | ashr
  deriving DecidableEq, Repr

/-- `==`, `!=`, `<`, `<=`, `>` and `>=`. -/
inductive Cmp where
  | eq | ne | lt | le | gt | ge
  deriving DecidableEq, Repr

/-- Expressions.  `lit` is an unsized decimal number, `hex n v` the number `n'h…` with the digits of
`v`, `part x hi lo w` is `x[hi : lo]`, which a tool must find to be `w` bits wide. -/
inductive Expr where
  | wire (x : Nat)
  | lit (n : Nat)
  | hex (n v : Nat)
  | neg (e : Expr)
  | bin (o : Arith) (a b : Expr)
  | shift (o : ShiftOp) (a b : Expr)
  | cmp (o : Cmp) (a b : Expr)
  | tern (c a b : Expr)
  | signed (e : Expr)
  | unsigned (e : Expr)
  | part (x : Nat) (hi lo : Expr) (w : Nat)
  | concat (a b : Expr)
  | repl (n : Nat) (e : Expr)
  deriving DecidableEq, Repr

/-- The declaration of a wire. -/
structure Wire where
  width : Nat
  signed : Bool
  deriving DecidableEq, Repr

/-- The declarations of a module, by the numbers of the wires. -/
abbrev Decls := List Wire

def declOf (d : Decls) (x : Nat) : Wire := d.getD x ⟨0, false⟩

/-- The bits of the wires, as numbers.  `none`: some bit is unknown. -/
abbrev Env := Nat → Option Nat

/-- The width of an unsized number (1364-2005, 3.5.1 and 5.4.1). -/
def litWidth : Nat := 32

/-- The width of a self-determined expression (1364-2005, table 5-22). -/
def size (d : Decls) : Expr → Nat
  | .wire x => (declOf d x).width
  | .lit _ => litWidth
  | .hex n _ => n
  | .neg e => size d e
  | .bin _ a b => max (size d a) (size d b)
  | .shift _ a _ => size d a
  | .cmp _ _ _ => 1
  | .tern _ a b => max (size d a) (size d b)
  | .signed e => size d e
  | .unsigned e => size d e
  | .part _ _ _ w => w
  | .concat a b => size d a + size d b
  | .repl n e => n * size d e

/-- The sign of a self-determined expression (1364-2005, 5.5.1): numbers without a base are signed,
the results of selects, concatenations and comparisons are not, and other results are signed if all
operands that share their context are. -/
def sgn (d : Decls) : Expr → Bool
  | .wire x => (declOf d x).signed
  | .lit _ => true
  | .hex _ _ => false
  | .neg e => sgn d e
  | .bin _ a b => sgn d a && sgn d b
  | .shift _ a _ => sgn d a
  | .cmp _ _ _ => false
  | .tern _ a b => sgn d a && sgn d b
  | .signed _ => true
  | .unsigned _ => false
  | .part _ _ _ _ => false
  | .concat _ _ => false
  | .repl _ _ => false

/-- Extension of an operand to the width of its context: with its sign if the context is signed. -/
def extend (S : Bool) {w : Nat} (v : BitVec w) (W : Nat) : BitVec W :=
  if S then v.signExtend W else v.setWidth W

/-- The operators in a context of width `W` and sign `S`.  A division by zero is unknown. -/
def arith (o : Arith) (S : Bool) {W : Nat} (a b : BitVec W) : Option (BitVec W) :=
  match o with
  | .add => some (a + b)
  | .sub => some (a - b)
  | .mul => some (a * b)
  | .div => if b = 0 then none else some (if S then a.sdiv b else a.udiv b)
  | .rem => if b = 0 then none else some (if S then a.srem b else a.umod b)
  | .and => some (a &&& b)
  | .xor => some (a ^^^ b)

/-- The shifts: `>>>` copies the sign if the context is signed. -/
def shiftBy (o : ShiftOp) (S : Bool) {W : Nat} (a : BitVec W) (n : Nat) : BitVec W :=
  match o with
  | .shl => a <<< n
  | .shr => a >>> n
  | .ashr => if S then a.sshiftRight n else a >>> n

/-- The comparisons: signed if both operands are. -/
def compare (o : Cmp) (S : Bool) {W : Nat} (a b : BitVec W) : Bool :=
  match o with
  | .eq => a == b
  | .ne => a != b
  | .lt => if S then a.slt b else a.ult b
  | .le => if S then a.sle b else a.ule b
  | .gt => if S then b.slt a else b.ult a
  | .ge => if S then b.sle a else b.ule a

/-- The value of a bound of a select. -/
def toBound (S : Bool) {w : Nat} (v : BitVec w) : Int := if S then v.toInt else v.toNat

/-- The bits `hi … lo` of a wire of `n` bits: unknown if the width is not `w` or a bit is outside. -/
def selectBits (n v : Nat) (hi lo : Int) (w : Nat) : Option (BitVec w) :=
  if 0 ≤ lo ∧ hi < n ∧ hi - lo + 1 = w then some ((BitVec.ofNat n v).extractLsb' lo.toNat w) else none

/-- The value of an expression in a context of width `W` and sign `S` (1364-2005, 5.4 and 5.5). -/
def eval (d : Decls) (env : Env) : Expr → (W : Nat) → Bool → Option (BitVec W)
  | .wire x, W, S => (env x).map fun v => extend S (BitVec.ofNat (declOf d x).width v) W
  | .lit n, W, S => some (extend S (BitVec.ofNat litWidth n) W)
  | .hex n v, W, S => some (extend S (BitVec.ofNat n v) W)
  | .neg e, W, S => (eval d env e W S).map fun v => -v
  | .bin o a b, W, S =>
    (eval d env a W S).bind fun x => (eval d env b W S).bind fun y => arith o S x y
  | .shift o a b, W, S =>
    (eval d env a W S).bind fun x =>
      (eval d env b (size d b) (sgn d b)).map fun y => shiftBy o S x y.toNat
  | .cmp o a b, W, S =>
    (eval d env a (max (size d a) (size d b)) (sgn d a && sgn d b)).bind fun x =>
      (eval d env b (max (size d a) (size d b)) (sgn d a && sgn d b)).map fun y =>
        extend S (BitVec.ofBool (compare o (sgn d a && sgn d b) x y)) W
  | .tern c a b, W, S =>
    (eval d env c (size d c) (sgn d c)).bind fun x =>
      if x ≠ 0 then eval d env a W S else eval d env b W S
  | .signed e, W, S => (eval d env e (size d e) (sgn d e)).map fun v => extend S v W
  | .unsigned e, W, S => (eval d env e (size d e) (sgn d e)).map fun v => extend S v W
  | .part x hi lo w, W, S =>
    (env x).bind fun v =>
      (eval d env hi (size d hi) (sgn d hi)).bind fun h =>
        (eval d env lo (size d lo) (sgn d lo)).bind fun l =>
          (selectBits (declOf d x).width v (toBound (sgn d hi) h) (toBound (sgn d lo) l) w).map
            fun r => extend S r W
  | .concat a b, W, S =>
    (eval d env a (size d a) (sgn d a)).bind fun x =>
      (eval d env b (size d b) (sgn d b)).map fun y => extend S (x ++ y) W
  | .repl n e, W, S =>
    (eval d env e (size d e) (sgn d e)).map fun v =>
      extend S ((BitVec.replicate n v).cast (Nat.mul_comm _ _) : BitVec (n * size d e)) W

/-- What `assign x = e` drives onto a wire of `w` bits: the expression at the larger of the two
widths, cut to `w` bits (1364-2005, 5.4.1 and 5.5.3). -/
def driven (d : Decls) (env : Env) (w : Nat) (e : Expr) : Option Nat :=
  (eval d env e (max w (size d e)) (sgn d e)).map fun v => (v.setWidth w).toNat

/-- A module: the wires, the first of which are the inputs, the continuous assignments and the
outputs. -/
structure Module where
  decls : Decls
  inputs : Nat
  assigns : List (Nat × Expr)
  outputs : List (Wire × Expr)
  deriving DecidableEq, Repr

/-- A state of the wires in which every assignment has taken effect. -/
def Steady (m : Module) (env : Env) : Prop :=
  ∀ a ∈ m.assigns, env a.1 = driven m.decls env (declOf m.decls a.1).width a.2

/-- What the outputs carry. -/
def outputsOf (m : Module) (env : Env) : List (Option Nat) :=
  m.outputs.map fun o => driven m.decls env o.1.width o.2

/-! ## Programs -/

/-- Types: integers, unsigned or not (signless integers are treated as signed ones,
`VerilogEmitter.cpp:62-71`), `index`, and tensors or memrefs of integers. -/
inductive Ty where
  | int (uns : Bool) (w : Nat)
  | index
  | arr (w : Nat) (shape : List Nat)
  deriving DecidableEq, Repr

/-- The operations of `arith` on two integers that the emitter prints. -/
inductive IOp where
  | addi | subi | muli | divsi | remsi | andi | xori | shli | shrsi | shrui | maxsi | minsi
  deriving DecidableEq, Repr

/-- The predicates of `arith.cmpi`. -/
inductive Pred where
  | eq | ne | slt | sle | sgt | sge | ult | ule | ugt | uge
  deriving DecidableEq, Repr

/-- Operations.  Values are numbered: the arguments first, then the results in order.  `dense` is a
constant of a shaped type or a `memref.get_global`, `load` is `memref.load`, `tensor.extract` or an
`affine.load` without an affine map. -/
inductive Op where
  | const (w : Nat) (v : BitVec w)
  | indexConst (v : Int)
  | bin (o : IOp) (t : Ty) (a b : Nat)
  | cmpi (p : Pred) (t : Ty) (a b : Nat)
  | select (t : Ty) (c a b : Nat)
  | extsi (w w' : Nat) (a : Nat)
  | extui (w w' : Nat) (a : Nat)
  | trunci (w w' : Nat) (a : Nat)
  | indexCast (t t' : Ty) (a : Nat)
  | cast (w : Nat) (uns uns' : Bool) (a : Nat)
  | dense (w : Nat) (shape : List Nat) (vals : List (BitVec w))
  | load (w : Nat) (shape : List Nat) (x : Nat) (idx : List Nat)
  | fromElements (w : Nat) (xs : List Nat)
  deriving Repr

/-- A function without regions. -/
structure Func where
  args : List Ty
  ops : List Op
  rets : List (Ty × Nat)
  deriving Repr

/-! ## The emitter -/

/-- `wireDeclaration`, `VerilogEmitter.cpp:75-91`. -/
def wireDeclaration (uns : Bool) (width : Nat) : Wire :=
  if width = 1 then ⟨1, false⟩ else ⟨width, !uns⟩

/-- `emitType`, `VerilogEmitter.cpp:1023-1043`. -/
def emitType : Ty → Wire
  | .index => wireDeclaration false 32
  | .int uns w => wireDeclaration uns w
  | .arr w shape => wireDeclaration false (shape.prod * w)

/-- The text of a constant in decimal (`VerilogEmitter.cpp:619-624`, and `:256-258` for `index`). -/
def decimal (v : Int) : Expr := if 0 ≤ v then .lit v.toNat else .neg (.lit (-v).toNat)

/-- The digits of a number in base sixteen, without leading zeros but for zero itself:
`APInt::toString(s, 16, false)`. -/
def hexDigits (n : Nat) : List Nat :=
  if n < 16 then [n] else hexDigits (n / 16) ++ [n % 16]

/-- The number written by digits. -/
def ofHexDigits (l : List Nat) : Nat := l.foldl (fun a d => 16 * a + d) 0

/-- One element of `printRawDataFromAttr`, `VerilogEmitter.cpp:102-104`: padded to `hexWidth` digits.
`hexWidth - s.size()` is unsigned: a longer element makes the length of the padding exceed what
`std::string` allows, and the emitter crashes (`none`). -/
def hexElement (hexWidth n : Nat) : Option (List Nat) :=
  if hexWidth < (hexDigits n).length then none
  else some (List.replicate (hexWidth - (hexDigits n).length) 0 ++ hexDigits n)

/-- The digits of all elements, the last element first (`VerilogEmitter.cpp:99-105`). -/
def hexData (hexWidth : Nat) : List Nat → Option (List Nat)
  | [] => some []
  | v :: vs => (hexData hexWidth vs).bind fun s => (hexElement hexWidth v).map fun t => s ++ t

/-- `printRawDataFromAttr`, `VerilogEmitter.cpp:95-106`. -/
def printRawData (w : Nat) (vals : List (BitVec w)) : Option Expr :=
  (hexData (w / 4) (vals.map BitVec.toNat)).map fun s => .hex (w * vals.length) (ofHexDigits s)

/-- `flattenIndexExpression`, `TargetUtils.cpp:69-77`, on the dimensions and indices after the
first. -/
def flattenFrom (accum : Expr) : List Nat → List Expr → Expr
  | s :: shape, i :: idx =>
    flattenFrom (.bin .add i (.bin .mul (.lit s) accum)) shape idx
  | _, _ => accum

/-- `flattenIndexExpression`: `none` without indices (`indexStrings[0]` does not exist). -/
def flattenIndexExpression (shape : List Nat) (idx : List Expr) : Option Expr :=
  match idx with
  | [] => none
  | i :: idx => some (flattenFrom i shape.tail idx)

/-- `variableLoadStr`, `VerilogEmitter.cpp:108-122`, in `x[…]`. -/
def variableLoad (x : Nat) (w : Nat) (shape : List Nat) (idx : List Expr) : Option Expr :=
  (flattenIndexExpression shape idx).map fun i =>
    .part x (.bin .add (.lit (w - 1)) (.bin .mul (.lit w) i)) (.bin .mul (.lit w) i) w

/-- `printOperation` of the binary operations of `arith`, `VerilogEmitter.cpp:541-566, 640-642,
691-693, 702-729`. -/
def emitBin (o : IOp) (a b : Expr) : Expr :=
  match o with
  | .addi => .bin .add a b
  | .subi => .bin .sub a b
  | .muli => .bin .mul a b
  | .divsi => .bin .div a b
  | .remsi => .bin .rem a b
  | .andi => .bin .and a b
  | .xori => .bin .xor a b
  | .shli => .shift .shl a b
  | .shrsi => .shift .ashr a b
  | .shrui => .shift .shr a b
  | .maxsi => .tern (.cmp .gt a b) a b
  | .minsi => .tern (.cmp .lt a b) a b

/-- `printOperation(arith::CmpIOp)`, `VerilogEmitter.cpp:568-596`. -/
def emitPred : Pred → Cmp
  | .eq => .eq
  | .ne => .ne
  | .slt => .lt
  | .ult => .lt
  | .sle => .le
  | .ule => .le
  | .sgt => .gt
  | .ugt => .gt
  | .sge => .ge
  | .uge => .ge

/-- The operands of `tensor.from_elements`, `VerilogEmitter.cpp:887-895`: `{a, b, …}`.  A
concatenation of one is that one, unsigned; an empty one is not Verilog. -/
def concatAll : List Expr → Option Expr
  | [] => none
  | [e] => some (.unsigned e)
  | e :: es => (concatAll es).map fun r => .concat e r

/-- The name of a value: a wire, or the text of an `index` constant. -/
def nameOf (names : List Expr) (x : Nat) : Expr := names.getD x (.wire x)

/-- `printOperation`: the expression assigned to the result; for an `index` constant, the text that
stands for it (`VerilogEmitter.cpp:245-259`). -/
def emitExpr (names : List Expr) : Op → Option Expr
  | .const _ v => some (decimal v.toInt)
  | .indexConst v => some (decimal v)
  | .bin o _ a b => some (emitBin o (nameOf names a) (nameOf names b))
  | .cmpi p _ a b => some (.cmp (emitPred p) (nameOf names a) (nameOf names b))
  | .select _ c a b => some (.tern (nameOf names c) (nameOf names a) (nameOf names b))
  | .extsi w w' a =>
    some (.concat (.repl (w' - w) (.part a (.lit (w - 1)) (.lit (w - 1)) 1)) (.wire a))
  | .extui w w' a => some (.concat (.repl (w' - w) (.hex 1 0)) (.wire a))
  | .trunci _ w' a => some (.part a (.lit (w' - 1)) (.lit 0) w')
  | .indexCast _ _ a => some (.unsigned (nameOf names a))
  | .cast _ _ uns' a => some (if uns' then .unsigned (nameOf names a) else .signed (nameOf names a))
  | .dense w _ vals => printRawData w vals
  | .load w shape x idx => variableLoad x w shape (idx.map (nameOf names))
  | .fromElements _ xs => concatAll (xs.map (nameOf names))

/-- The type of the result of an operation. -/
def resultTy : Op → Ty
  | .const w _ => .int false w
  | .indexConst _ => .index
  | .bin _ t _ _ => t
  | .cmpi _ _ _ _ => .int false 1
  | .select t _ _ _ => t
  | .extsi _ w' _ => .int false w'
  | .extui _ w' _ => .int false w'
  | .trunci _ w' _ => .int false w'
  | .indexCast _ t' _ => t'
  | .cast w _ uns' _ => .int uns' w
  | .dense w shape _ => .arr w shape
  | .load w _ _ _ => .int false w
  | .fromElements w xs => .arr w [xs.length]

def isIndexConst : Op → Bool
  | .indexConst _ => true
  | _ => false

/-- The body of a module, `VerilogEmitter.cpp:416-497`: the declarations, the names and the
assignments after those of earlier operations.  An `index` constant has a name and no wire; its place
in the declarations is not used. -/
def emitOps : List Op → Decls → List Expr → List (Nat × Expr) →
    Option (Decls × List Expr × List (Nat × Expr))
  | [], d, names, as => some (d, names, as)
  | op :: ops, d, names, as =>
    (emitExpr names op).bind fun e =>
      if isIndexConst op then emitOps ops (d ++ [emitType (resultTy op)]) (names ++ [e]) as
      else emitOps ops (d ++ [emitType (resultTy op)]) (names ++ [.wire d.length])
        (as ++ [(d.length, e)])

/-- `printFunctionLikeOp`, `VerilogEmitter.cpp:347-500`, for a function without `index` arguments
(`emitIndexType` declares those) and without `index` results (an error, `:399-402`). -/
def emitFunc (f : Func) : Option Module :=
  (emitOps f.ops (f.args.map emitType)
      ((List.range f.args.length).map Expr.wire) []).map fun r =>
    { decls := r.1
      inputs := f.args.length
      assigns := r.2.2
      outputs := f.rets.map fun x => (emitType x.1, nameOf r.2.1 x.2) }

end Heir.Verilog
