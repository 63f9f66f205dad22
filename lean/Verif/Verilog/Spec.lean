import Verif.Verilog.Model

/-!
# What the operations mean

The meaning of the operations in MLIR (`arith`, `memref`, `tensor`), independent of the emitter, and
how a value is carried by wires.  `none`: undefined behaviour, poison, or a type error.
-/

namespace Heir.Verilog

/-- Values.  An `index` has 32 bits. -/
inductive Val where
  | int (uns : Bool) (w : Nat) (b : BitVec w)
  | index (b : BitVec 32)
  | arr (w : Nat) (shape : List Nat) (elems : List (BitVec w))

/-- The value has the type: a positive width, and as many elements as the shape says. -/
def Val.HasTy : Val → Ty → Prop
  | .int uns w _, .int uns' w' => uns = uns' ∧ w = w' ∧ 0 < w
  | .index _, .index => True
  | .arr w shape elems, .arr w' shape' => w = w' ∧ shape = shape' ∧ elems.length = shape.prod ∧ 0 < w
  | _, _ => False

/-- The elements of a tensor on one wire: element `k` in the bits from `w * k`. -/
def packed {w : Nat} : List (BitVec w) → Nat
  | [] => 0
  | e :: es => e.toNat + 2 ^ w * packed es

/-- The bits of a value on its wire. -/
def Val.bits : Val → Nat
  | .int _ _ b => b.toNat
  | .index b => b.toNat
  | .arr _ _ elems => packed elems

/-- The operations of `arith` on integers of the same width. -/
def iopSem (o : IOp) {w : Nat} (a b : BitVec w) : Option (BitVec w) :=
  match o with
  | .addi => some (a + b)
  | .subi => some (a - b)
  | .muli => some (a * b)
  | .divsi => if b = 0 ∨ (a = BitVec.intMin w ∧ b = -1) then none else some (a.sdiv b)
  | .remsi => if b = 0 then none else some (a.srem b)
  | .andi => some (a &&& b)
  | .xori => some (a ^^^ b)
  | .shli => if b.toNat < w then some (a <<< b.toNat) else none
  | .shrsi => if b.toNat < w then some (a.sshiftRight b.toNat) else none
  | .shrui => if b.toNat < w then some (a >>> b.toNat) else none
  | .maxsi => some (if a.toInt < b.toInt then b else a)
  | .minsi => some (if a.toInt < b.toInt then a else b)

/-- `arith.cmpi`. -/
def predSem (p : Pred) {w : Nat} (a b : BitVec w) : Bool :=
  match p with
  | .eq => a.toNat = b.toNat
  | .ne => a.toNat ≠ b.toNat
  | .slt => a.toInt < b.toInt
  | .sle => a.toInt ≤ b.toInt
  | .sgt => b.toInt < a.toInt
  | .sge => b.toInt ≤ a.toInt
  | .ult => a.toNat < b.toNat
  | .ule => a.toNat ≤ b.toNat
  | .ugt => b.toNat < a.toNat
  | .uge => b.toNat ≤ a.toNat

/-- The integer of width `w` at a value: of an integer type that is not unsigned. -/
def asInt (w : Nat) : Option Val → Option (BitVec w)
  | some (.int false w' b) => if h : w' = w then some (b.cast h) else none
  | _ => none

def asIndex : Option Val → Option (BitVec 32)
  | some (.index b) => some b
  | _ => none

def asArr (w : Nat) (shape : List Nat) : Option Val → Option (List (BitVec w))
  | some (.arr w' shape' l) =>
    if h : w' = w then if shape' = shape then some (l.map (·.cast h)) else none else none
  | _ => none

/-- Two integers or indices, and what is done with them. -/
def onTwo (t : Ty) (x y : Option Val) (f : {w : Nat} → BitVec w → BitVec w → Option Val) :
    Option Val :=
  match t with
  | .int false w => (asInt w x).bind fun a => (asInt w y).bind fun b => f a b
  | .index => (asIndex x).bind fun a => (asIndex y).bind fun b => f a b
  | _ => none

/-- A value of a type from bits of its width. -/
def mk (t : Ty) {w : Nat} (b : BitVec w) : Option Val :=
  match t with
  | .int uns w' => some (.int uns w' (b.setWidth w'))
  | .index => some (.index (b.setWidth 32))
  | _ => none

/-- The place of an element in row-major order: every index counts the elements of the dimensions
after its own.  `none` outside the bounds. -/
def rowMajor : List Nat → List Int → Option Nat
  | [], [] => some 0
  | s :: shape, i :: idx =>
    if 0 ≤ i ∧ i < s then (rowMajor shape idx).map fun r => i.toNat * shape.prod + r else none
  | _, _ => none

/-- All of a list, if all exist. -/
def sequence {α : Type} : List (Option α) → Option (List α)
  | [] => some []
  | x :: xs => x.bind fun a => (sequence xs).map fun l => a :: l

/-- No integer type has this many bits (`IntegerType::kMaxWidth` in MLIR). -/
def maxWidth : Nat := 2 ^ 24

/-- The result of an operation. -/
def sem (st : List Val) : Op → Option Val
  | .const w v => if 0 < w then some (.int false w v) else none
  | .indexConst v => some (.index (BitVec.ofInt 32 v))
  | .bin o t a b => onTwo t st[a]? st[b]? fun x y => (iopSem o x y).bind (mk t)
  | .cmpi p t a b =>
    onTwo t st[a]? st[b]? fun x y => some (.int false 1 (BitVec.ofBool (predSem p x y)))
  | .select t c a b =>
    (asInt 1 st[c]?).bind fun k => onTwo t st[a]? st[b]? fun x y => mk t (if k = 1 then x else y)
  | .extsi w w' a =>
    if w < w' ∧ w' < maxWidth then (asInt w st[a]?).map fun x => .int false w' (x.signExtend w') else none
  | .extui w w' a =>
    if w < w' then (asInt w st[a]?).map fun x => .int false w' (x.setWidth w') else none
  | .trunci w w' a =>
    if 0 < w' ∧ w' < w ∧ w < maxWidth then (asInt w st[a]?).map fun x => .int false w' (x.setWidth w') else none
  | .indexCast t t' a =>
    match t, t' with
    | .index, .int false w' =>
      if 0 < w' then (asIndex st[a]?).map fun x => .int false w' (x.signExtend w') else none
    | .int false w, .index => (asInt w st[a]?).map fun x => .index (x.signExtend 32)
    | _, _ => none
  | .cast w uns uns' a =>
    match st[a]? with
    | some (.int u v b) => if u = uns ∧ v = w then some (.int uns' v b) else none
    | _ => none
  | .dense w shape vals =>
    if vals.length = shape.prod ∧ 0 < w then some (.arr w shape vals) else none
  | .load w shape x idx =>
    (asArr w shape st[x]?).bind fun l =>
      (sequence (idx.map fun i => asIndex st[i]?)).bind fun is =>
        (rowMajor shape (is.map BitVec.toInt)).bind fun k => l[k]?.map fun b => .int false w b
  | .fromElements w xs =>
    if 0 < w then (sequence (xs.map fun x => asInt w st[x]?)).map fun l => .arr w [xs.length] l
    else none

/-- The value is a negative number. -/
def Val.neg : Val → Bool
  | .int _ _ b => b.msb
  | .index b => b.msb
  | .arr _ _ _ => false

def negAt (st : List Val) (x : Nat) : Bool := (st[x]?.map Val.neg).getD false

def bitsAt (st : List Val) (x : Nat) : Option Nat := st[x]?.map Val.bits

/-- Which predicates look at the sign. -/
inductive Kind where
  | any | signed | unsigned
  deriving DecidableEq

def kindOf : Pred → Kind
  | .eq => .any
  | .ne => .any
  | .slt => .signed
  | .sle => .signed
  | .sgt => .signed
  | .sge => .signed
  | .ult => .unsigned
  | .ule => .unsigned
  | .ugt => .unsigned
  | .uge => .unsigned

/-- What the emitter needs of an operation on given operands.  A constant wider than 32 bits must
be small.  Signed comparisons of single bits must be of equal bits, unsigned comparisons of wider
integers of operands of the same sign.  A cast of an `index` to more bits must not meet a negative
number.  Elements of constants must have whole hexadecimal digits; tensors must have less than
`2^31` bits; a tensor made of elements must read the same backwards. -/
def Good (st : List Val) : Op → Prop
  | .const w v => w ≤ 32 ∨ (-(2 ^ 31) < v.toInt ∧ v.toInt < 2 ^ 31)
  | .bin o t a b => (o = .maxsi ∨ o = .minsi) → t = .int false 1 → bitsAt st a = bitsAt st b
  | .cmpi p t a b =>
    (kindOf p = .signed → t = .int false 1 → bitsAt st a = bitsAt st b) ∧
      (kindOf p = .unsigned → t ≠ .int false 1 → negAt st a = negAt st b)
  | .indexCast t t' a => (emitType t).width < (emitType t').width → negAt st a = false
  | .dense w _ _ => 4 ∣ w
  | .load w shape _ _ => shape.prod * w < 2 ^ 31
  | .fromElements _ xs => (xs.map (bitsAt st)).reverse = xs.map (bitsAt st)
  | _ => True

/-- `Good` at every operation of a run. -/
def GoodRun : List Op → List Val → Prop
  | [], _ => True
  | op :: ops, st => Good st op ∧ ∀ v, sem st op = some v → GoodRun ops (st ++ [v])

/-- The values after all operations. -/
def run : List Op → List Val → Option (List Val)
  | [], st => some st
  | op :: ops, st => (sem st op).bind fun v => run ops (st ++ [v])

/-- The results of a function. -/
def runFunc (f : Func) (args : List Val) : Option (List Val) :=
  (run f.ops args).bind fun st => sequence (f.rets.map fun r => st[r.2]?)

end Heir.Verilog
