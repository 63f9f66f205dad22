import Mathlib.Data.List.Basic

/-!
# From integers to tfhe-rs

Model of `lib/Dialect/Arith/Conversions/ArithToCGGI/ArithToCGGI.cpp`,
`lib/Dialect/CGGI/Conversions/CGGIToTfheRust/CGGIToTfheRust.cpp` and
`lib/Target/TfheRustHL/TfheRustHLEmitter.cpp` on straight-line functions of scalars.  Arguments of
functions are ciphertexts.  Memrefs, tensors and lookup tables are left out; so there are no
annotations `lwe_annotation`.  Server keys are left out.  A failed pass, an assertion and undefined
behaviour of the compiler are `none`.
-/

namespace Heir.Tfhe

structure Val where
  w : Nat
  bits : BitVec w
deriving DecidableEq, Repr

/-! ## The source -/

inductive Bin where
  | add | sub | mul | and | or | xor | maxs | mins | maxu | minu | shl | shrs | shru
deriving DecidableEq, Repr

inductive Pred where
  | eq | ne | slt | sle | sgt | sge | ult | ule | ugt | uge
deriving DecidableEq, Repr

/-- Operations of `arith`; operands are values: the arguments, then the results. -/
inductive Op where
  | const (v : Val)
  | bin (k : Bin) (l r : Nat)
  | cmp (p : Pred) (l r : Nat)
  | select (c t f : Nat)
  | extui (w x : Nat)
  | extsi (w x : Nat)
  | trunci (w x : Nat)
deriving DecidableEq, Repr

structure Prog where
  args : Nat
  ops : List Op
  rets : List Nat
deriving DecidableEq, Repr

/-! ## CGGI -/

/-- Operations of CGGI on two operands. -/
inductive CBin where
  | add | sub | mul | max | min | and | or | xor
deriving DecidableEq, Repr

/-- Operations of CGGI, and those of `arith` that remain.  `scalar`: the type of the right operand is
an integer. -/
inductive COp where
  | const (v : Val)
  | arith (k : Bin) (l r : Nat)
  | extui (w x : Nat)
  | extsi (w x : Nat)
  | trivial (v : Val)
  /-- `lwe.trivial_encrypt` of `lwe.encode` -/
  | encode (x : Nat)
  | bin (k : CBin) (scalar : Bool) (l r : Nat)
  | not (w x : Nat)
  | cmp (p : Pred) (scalar : Bool) (l r : Nat)
  | select (c t f : Nat)
  | shl (x : Nat) (n : Int)
  | shr (x : Nat) (n : Int)
  | cast (w x : Nat)
deriving DecidableEq, Repr

structure CProg where
  args : Nat
  ops : List COp
  rets : List Nat
deriving DecidableEq, Repr

/-! ## Conversion to CGGI -/

/-- What a value of the source has become: a ciphertext, or an integer (`allowedRemainArith`), a
constant if known. -/
inductive Entry where
  | ct (i : Nat)
  | plain (i : Nat) (c : Option Val)
deriving DecidableEq, Repr

structure CSt where
  args : Nat
  ops : List COp
  vals : List Entry
deriving DecidableEq, Repr

def CSt.emit (st : CSt) (o : COp) : Nat × CSt :=
  (st.args + st.ops.length, { st with ops := st.ops ++ [o] })

def CSt.push (st : CSt) (e : Entry) : CSt := { st with vals := st.vals ++ [e] }

/-- The operand as a ciphertext, `materializeTarget`, `ArithToCGGI.cpp:126-182`. -/
def enc (e : Entry) (st : CSt) : Nat × CSt :=
  match e with
  | .ct i => (i, st)
  | .plain _ (some v) => st.emit (.trivial v)
  | .plain i none => st.emit (.encode i)

def CSt.ct (st : CSt) (o : COp) : CSt := (st.emit o).2.push (.ct (st.emit o).1)

def CSt.plain (st : CSt) (o : COp) (c : Option Val) : CSt :=
  (st.emit o).2.push (.plain (st.emit o).1 c)

/-- `ConvertArithBinOp`, `ArithToCGGI.cpp:431-466`: an integer becomes the right operand. -/
def convComm (k : CBin) (l r : Entry) (st : CSt) : CSt :=
  match l, r with
  | .plain a _, r => (enc r st).2.ct (.bin k true (enc r st).1 a)
  | .ct a, .plain b _ => st.ct (.bin k true a b)
  | .ct a, .ct b => st.ct (.bin k false a b)

/-- Both operands as ciphertexts. -/
def convBoth (l r : Entry) (o : Nat → Nat → COp) (st : CSt) : CSt :=
  let (x, st) := enc l st
  let (y, st) := enc r st
  st.ct (o x y)

/-- `ConvertSubOp`, `ArithToCGGI.cpp:310-335`. -/
def convSub (l r : Entry) (st : CSt) : CSt :=
  match r with
  | .plain b _ => (enc l st).2.ct (.bin .sub true (enc l st).1 b)
  | r => convBoth l r (.bin .sub false) st

/-- `ConvertCmpOp`, `ArithToCGGI.cpp:270-308`. -/
def convCmp (p : Pred) (l r : Entry) (st : CSt) : CSt :=
  match l, r with
  | .plain a _, r => (enc r st).2.ct (.cmp p true (enc r st).1 a)
  | .ct a, .plain b _ => st.ct (.cmp p true a b)
  | .ct a, .ct b => st.ct (.cmp p false a b)

/-- `(int8_t)`. -/
def int8 (n : Int) : Int := (BitVec.ofInt 8 n).toInt

/-- `getSExtValue` asserts that 64 bits are enough. -/
def fits64 (v : Val) : Bool := -2 ^ 63 ≤ v.bits.toInt && v.bits.toInt < 2 ^ 63

/-- `ConvertShOp`, `ArithToCGGI.cpp:380-429`: if the amount is not a constant, the left operand has to
be one, and is taken for the amount. -/
def convSh (o : Nat → Int → COp) (l r : Entry) (st : CSt) : Option CSt :=
  match l, r with
  | l, .plain _ (some v) =>
    if fits64 v then some ((enc l st).2.ct (o (enc l st).1 (int8 v.bits.toInt))) else none
  | .plain a (some v), _ =>
    if fits64 v then
      some ((enc (.plain a (some v)) st).2.ct (o (enc (.plain a (some v)) st).1 v.bits.toInt))
    else none
  | _, _ => none

def bothPlain : Entry → Entry → Option (Nat × Nat)
  | .plain a _, .plain b _ => some (a, b)
  | _, _ => none

/-- Operations of two operands, `ArithToCGGI.cpp:522-539, 671-683`. -/
def convBin (k : Bin) (l r : Entry) (st : CSt) : Option CSt :=
  match k with
  | .add | .sub | .mul =>
    match bothPlain l r with
    | some (a, b) => some (st.plain (.arith k a b) none)
    | none => some <| match k with
      | .add => convComm .add l r st
      | .mul => convComm .mul l r st
      | _ => convSub l r st
  | .maxs | .maxu => some (convComm .max l r st)
  | .mins | .minu => some (convComm .min l r st)
  | .xor => some (convBoth l r (.bin .xor false) st)
  | .shl => convSh .shl l r st
  | .shrs | .shru => convSh .shr l r st
  | .and | .or => none

/-- One operation.  The truncation of an integer is replaced by a cast although it may remain, so
that its users ask for both forms; the outcome is not modelled. -/
def convOp (o : Op) (st : CSt) : Option CSt :=
  match o with
  | .const v => some (st.plain (.const v) (some v))
  | .bin k l r =>
    match st.vals[l]?, st.vals[r]? with
    | some l, some r => convBin k l r st
    | _, _ => none
  | .cmp p l r =>
    match st.vals[l]?, st.vals[r]? with
    | some l, some r => some (convCmp p l r st)
    | _, _ => none
  | .select c t f =>
    match st.vals[c]?, st.vals[t]?, st.vals[f]? with
    | some c, some t, some f =>
      let (x, st) := enc c st
      some (convBoth t f (.select x) st)
    | _, _, _ => none
  | .extui w x =>
    match st.vals[x]? with
    | some (.plain a _) => some (st.plain (.extui w a) none)
    | some (.ct a) => some (st.ct (.cast w a))
    | none => none
  | .extsi w x =>
    match st.vals[x]? with
    | some (.plain a _) => some (st.plain (.extsi w a) none)
    | some (.ct a) => some (st.ct (.cast w a))
    | none => none
  | .trunci w x =>
    match st.vals[x]? with
    | some (.ct a) => some (st.ct (.cast w a))
    | _ => none

def convOps : List Op → CSt → Option CSt
  | [], st => some st
  | o :: os, st => (convOp o st).bind (convOps os)

def convRets : List Nat → CSt → Option (List Nat × CSt)
  | [], st => some ([], st)
  | r :: rs, st =>
    match st.vals[r]? with
    | some e => (convRets rs (enc e st).2).map fun (xs, st') => ((enc e st).1 :: xs, st')
    | none => none

/-- The pass `arith-to-cggi`, `ArithToCGGI.cpp:511-728`. -/
def toCGGI (p : Prog) : Option CProg :=
  (convOps p.ops ⟨p.args, [], (List.range p.args).map .ct⟩).bind fun st =>
    (convRets p.rets st).map fun (rs, st) => ⟨p.args, st.ops, rs⟩

/-! ## Conversion to tfhe-rs -/

/-- Operations of the dialect `tfhe_rust`, and those of `arith` that remain. -/
inductive TOp where
  | const (v : Val)
  | arith (k : Bin) (l r : Nat)
  | extui (w x : Nat)
  | extsi (w x : Nat)
  /-- `create_trivial` with an attribute -/
  | trivial (v : Val)
  /-- `create_trivial` of an integer -/
  | encode (x : Nat)
  | bin (k : CBin) (scalar : Bool) (l r : Nat)
  | cmp (p : Pred) (scalar : Bool) (l r : Nat)
  | select (c t f : Nat)
  | shl (x : Nat) (n : Int)
  | shr (x : Nat) (n : Int)
  | cast (w x : Nat)
deriving DecidableEq, Repr

structure TProg where
  args : Nat
  ops : List TOp
  rets : List Nat
deriving DecidableEq, Repr

structure TSt where
  args : Nat
  ops : List TOp
  vals : List Nat
deriving DecidableEq, Repr

def TSt.emit (st : TSt) (o : TOp) : Nat × TSt :=
  (st.args + st.ops.length, { st with ops := st.ops ++ [o] })

def TSt.put (st : TSt) (o : TOp) : TSt :=
  { st with ops := st.ops ++ [o], vals := st.vals ++ [st.args + st.ops.length] }

/-- `ConvertCGGITRBinOp`, `CGGIToTfheRust.cpp:253-273`, keeps a scalar; `ConvertCGGICtxtBinOp`,
`:296-332`, encrypts it. -/
def lowerBin (k : CBin) (scalar : Bool) (l r : Nat) (st : TSt) : TSt :=
  match k with
  | .add | .mul | .sub => st.put (.bin k scalar l r)
  | _ =>
    if scalar then (st.emit (.encode r)).2.put (.bin k false l (st.emit (.encode r)).1)
    else st.put (.bin k false l r)

/-- One operation, `CGGIToTfheRust.cpp:334-609`. -/
def lowerOp (o : COp) (st : TSt) : Option TSt :=
  let v := fun (i : Nat) => st.vals[i]?
  match o with
  | .const c => some (st.put (.const c))
  | .arith k l r => (v l).bind fun l => (v r).map fun r => st.put (.arith k l r)
  | .extui w x => (v x).map fun x => st.put (.extui w x)
  | .extsi w x => (v x).map fun x => st.put (.extsi w x)
  | .trivial c => if fits64 c then some (st.put (.trivial c)) else none
  | .encode x => (v x).map fun x => st.put (.encode x)
  | .bin k s l r => (v l).bind fun l => (v r).map fun r => lowerBin k s l r st
  | .not w x => (v x).map fun x =>
    (st.emit (.trivial ⟨w, 1⟩)).2.put (.bin .sub false (st.emit (.trivial ⟨w, 1⟩)).1 x)
  | .cmp p s l r => (v l).bind fun l => (v r).map fun r => st.put (.cmp p s l r)
  | .select c t f => (v c).bind fun c => (v t).bind fun t => (v f).map fun f => st.put (.select c t f)
  | .shl x n => (v x).map fun x => st.put (.shl x n)
  | .shr x n => (v x).map fun x => st.put (.shr x n)
  | .cast w x => (v x).map fun x => st.put (.cast w x)

def lowerOps : List COp → TSt → Option TSt
  | [], st => some st
  | o :: os, st => (lowerOp o st).bind (lowerOps os)

def lookupAll (vals : List Nat) : List Nat → Option (List Nat)
  | [] => some []
  | r :: rs =>
    match vals[r]?, lookupAll vals rs with
    | some x, some xs => some (x :: xs)
    | _, _ => none

/-- The pass `cggi-to-tfhe-rust`, `CGGIToTfheRust.cpp:611-697`. -/
def toTfhe (p : CProg) : Option TProg :=
  (lowerOps p.ops ⟨p.args, [], List.range p.args⟩).bind fun st =>
    (lookupAll st.vals p.rets).map fun rs => ⟨p.args, st.ops, rs⟩

/-! ## Rust -/

/-- Expressions of the text; variables are the arguments, then those of the `let`s. -/
inductive RExpr where
  /-- `5u8` -/
  | lit (n : Int) (w : Nat)
  | bool (b : Bool)
  /-- `&x + &y` -/
  | bin (k : CBin) (x y : Nat)
  /-- `&x + 5u8` -/
  | binLit (k : CBin) (x : Nat) (n : Int) (w : Nat)
  /-- `&x >> 3u8` -/
  | shr (x : Nat) (n : Int)
  /-- `FheUint8::cast_from(x.clone())` -/
  | castFrom (w x : Nat)
  /-- `FheUint8::try_encrypt_trivial(5u8).unwrap()` -/
  | trivialLit (w : Nat) (n : Int) (wl : Nat)
  /-- `FheUint8::try_encrypt_trivial(x).unwrap()`; the width of a signless integer is that of `x` -/
  | trivialVar (x : Nat)
deriving DecidableEq, Repr

structure RProg where
  args : Nat
  lets : List RExpr
  rets : List Nat
deriving DecidableEq, Repr

/-- `getRustIntegerType`, `TfheRustHLEmitter.cpp:51-59`. -/
def rustInt (w : Nat) : Option Nat := [8, 16, 32, 64, 128].find? (w ≤ ·)

/-- `APInt::abs`, printed as a signed number. -/
def absSigned {w : Nat} (b : BitVec w) : Int := (if b.toInt < 0 then -b else b).toInt

/-- `arith.constant`, `TfheRustHLEmitter.cpp:444-464`. -/
def printConst (v : Val) : Option RExpr :=
  if v.w = 1 then some (.bool (v.bits.toNat ≠ 0))
  else (rustInt v.w).map fun w => .lit (absSigned v.bits) w

/-- `printBinaryOp`, `TfheRustHLEmitter.cpp:477-516`: a constant on the right is printed in place, with
its own width; `getZExtValue` has 64 bits. -/
def printBin (k : CBin) (scalar : Bool) (consts : List (Option Val)) (l r : Nat) : Option RExpr :=
  match scalar, consts[r]? with
  | true, some (some v) =>
    if v.bits.toNat < 2 ^ 64 then some (.binLit k l v.bits.toNat v.w) else none
  | _, _ => some (.bin k l r)

/-- One operation, `TfheRustHLEmitter.cpp:102-143, 322-377, 815-856`; the others have no printer.  `consts` are the
values defined by constants. -/
def printOp (consts : List (Option Val)) (o : TOp) : Option RExpr :=
  match o with
  | .const v => printConst v
  | .trivial v => (rustInt v.w).map fun w => .trivialLit v.w v.bits.toInt w
  | .encode x => some (.trivialVar x)
  | .bin k s l r =>
    match k with
    | .max | .min => none
    | _ => printBin k s consts l r
  | .shr x n => some (.shr x n)
  | .cast w x => some (.castFrom w x)
  | _ => none

def defConst : TOp → Option Val
  | .const v => some v
  | _ => none

def printOps : List (Option Val) → List TOp → Option (List RExpr)
  | _, [] => some []
  | cs, o :: os =>
    match printOp cs o, printOps (cs ++ [defConst o]) os with
    | some e, some es => some (e :: es)
    | _, _ => none

/-- `emit-tfhe-rust-hl`, `TfheRustHLEmitter.cpp:174-269`. -/
def printHL (p : TProg) : Option RProg :=
  (printOps (List.replicate p.args none) p.ops).map fun es => ⟨p.args, es, p.rets⟩

end Heir.Tfhe
