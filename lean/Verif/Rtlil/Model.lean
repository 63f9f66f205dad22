import Verif.Lut.Model

/-!
# Import of netlists from Yosys

Model of `lib/Transforms/YosysOptimizer/RTLILImporter.cpp`, `LUTImporter.cpp` and
`BooleanGateImporter.cpp`.  A failed assertion, `llvm_unreachable` and an access out of bounds are
`none`.  Undefined constant bits are 0, as `Const::as_int` reads them.  No port is both input and
output.
-/

namespace Heir.Rtlil

open Heir.Lut (importTable importInputs)

/-! ## Yosys -/

inductive Port where
  | none
  | input (id : Nat)
  | output (id : Nat)
deriving DecidableEq, Repr

structure Wire where
  name : Nat
  width : Nat
  port : Port
deriving DecidableEq, Repr

/-- `RTLIL::SigBit`. -/
inductive Bit where
  | const (b : Bool)
  | wire (w : Wire) (off : Nat)
deriving DecidableEq, Repr

/-- `RTLIL::SigSpec`, bit 0 first. -/
abbrev Sig := List Bit

def Wire.sig (w : Wire) : Sig := (List.range w.width).map (.wire w)

/-- `SigSpec::is_wire` and `as_wire`: all bits of one wire, in order. -/
def asWire : Sig → Option Wire
  | .wire w o :: s => if .wire w o :: s = w.sig then some w else none
  | _ => none

/-- `SigSpec::is_fully_const`. -/
def isConst (s : Sig) : Bool := s.all fun
  | .const _ => true
  | .wire _ _ => false

/-- `SigSpec::is_chunk`: adjacent bits of one wire, or constants. -/
def isChunk : Sig → Bool
  | [] => false
  | .const _ :: s => isConst s
  | .wire w o :: s =>
    .wire w o :: s == (List.range (s.length + 1)).map fun i => Bit.wire w (o + i)

/-- Cell types `$_NOT_`, `$_AND_`, …; `mux` stands for all the others. -/
inductive Gate where
  | not | xnor | and | xor | nand | nor | or | mux
deriving DecidableEq, Repr

inductive Kind where
  | lut (bits : Nat) (ports : List Bool)
  | gate (g : Gate)
deriving DecidableEq, Repr

/-- A cell; the inputs are the connections to the ports other than `P..` and `Y`, in alphabetical
order. -/
structure Cell where
  kind : Kind
  ins : List Sig
  out : Sig
deriving DecidableEq, Repr

/-- A module; the cells are those of the order printed by `torder`. -/
structure Netlist where
  wires : List Wire
  cells : List Cell
  conns : List (Sig × Sig)
deriving DecidableEq, Repr

/-! ## The function that is built -/

/-- Operations with one result each.  Operands are values: the arguments of the function, then the
results of the operations. -/
inductive MOp where
  | const (b : Bool)
  | extract (v off : Nat)
  | table (k : Nat) (t : BitVec (2 ^ k)) (ins : List Nat)
  | inv (v : Nat)
  | gate (g : Gate) (ins : List Nat)
  | fromElements (ins : List Nat)
deriving DecidableEq, Repr

structure St where
  args : Nat
  ops : List MOp
  /-- `wireNameToValue` -/
  names : List (Nat × Nat)
  /-- `retBitValues` -/
  rets : List (Nat × List Nat)
deriving DecidableEq, Repr

def St.emit (st : St) (o : MOp) : Nat × St :=
  (st.args + st.ops.length, { st with ops := st.ops ++ [o] })

/-- `addWireValue`, `RTLILImporter.cpp:75-77`: does not replace. -/
def St.addWire (st : St) (w : Wire) (v : Nat) : St :=
  match st.names.lookup w.name with
  | some _ => st
  | none => { st with names := (w.name, v) :: st.names }

def updateBit (name off v : Nat) : List (Nat × List Nat) → List (Nat × List Nat)
  | [] => []
  | (n, vs) :: rs => if n = name then (n, vs.set off v) :: rs else (n, vs) :: updateBit name off v rs

/-- `getBit`, `RTLILImporter.cpp:85-114`. -/
def getBit (conn : Sig) (st : St) : Option (Nat × St) :=
  match asWire conn with
  | some w => (st.names.lookup w.name).map fun v => (v, st)
  | none =>
    match conn with
    | [.const b] => some (st.emit (.const b))
    | [.wire w off] =>
      match st.rets.lookup w.name with
      | some vs => vs[off]?.map fun v => (v, st)
      | none => (st.names.lookup w.name).map fun v => st.emit (.extract v off)
    | _ => none

/-- `addResultBit`, `RTLILImporter.cpp:116-138`. -/
def addResultBit (conn : Sig) (result : Nat) (st : St) : Option St :=
  match asWire conn with
  | some w => some (st.addWire w result)
  | none =>
    match conn with
    | [.wire w off] =>
      match st.rets.lookup w.name with
      | some vs =>
        if off < vs.length then some { st with rets := updateBit w.name off result st.rets } else none
      | none =>
        match st.names.lookup w.name with
        | some _ => some st
        | none => none
    | _ => none

/-- The gates in the order of `BooleanGateImporter.cpp:27-37`, without `NOT`. -/
def gateNames : List Gate := [.xnor, .and, .xor, .nand, .nor, .or]

/-- `createOp`: `LUTImporter.cpp:23-43` and `BooleanGateImporter.cpp:22-43`.  All the gates are
built, as the cases of the `StringSwitch` are evaluated, and one is chosen. -/
def createOp (kind : Kind) (inputs : List Nat) (st : St) : Option (Nat × St) :=
  match kind with
  | .lut k ports => (importTable k ports).map fun t => st.emit (.table k t inputs)
  | .gate g =>
    match inputs.head? with
    | none => none
    | some i =>
      let st' := { st with ops := st.ops ++ .inv i :: gateNames.map fun n => .gate n inputs }
      let base := st.args + st.ops.length
      if g = .not then some (base, st')
      else (gateNames.idxOf? g).map fun j => (base + 1 + j, st')

/-- `getInputs`: `LUTImporter.cpp:45-66` reverses, `BooleanGateImporter.cpp:45-57` does not. -/
def getInputs (c : Cell) : List Sig :=
  match c.kind with
  | .lut _ _ => importInputs c.ins
  | .gate _ => c.ins

def getBits : List Sig → St → Option (List Nat × St)
  | [], st => some ([], st)
  | s :: ss, st =>
    (getBit s st).bind fun (v, st) => (getBits ss st).map fun (vs, st) => (v :: vs, st)

/-- One cell, `RTLILImporter.cpp:197-209`. -/
def importCell (c : Cell) (st : St) : Option St :=
  (getBits (getInputs c) st).bind fun (vs, st) =>
    (createOp c.kind vs st).bind fun (v, st) => addResultBit c.out v st

def importCells : List Cell → St → Option St
  | [], st => some st
  | c :: cs, st => (importCell c st).bind (importCells cs)

/-- Bit by bit, `RTLILImporter.cpp:228-231`; `at` is out of range if the right side is shorter. -/
def connectBits : Sig → Sig → St → Option St
  | [], _, st => some st
  | _ :: _, [], _ => none
  | l :: ls, r :: rs, st =>
    (getBit [r] st).bind fun (v, st) => (addResultBit [l] v st).bind (connectBits ls rs)

/-- The right side has more than one chunk: it is not one chunk and not empty. -/
def manyChunks (s : Sig) : Bool := !isChunk s && !s.isEmpty

/-- One connection, `RTLILImporter.cpp:212-237`. -/
def connect (l r : Sig) (st : St) : Option St :=
  if ¬ l.all (fun | .wire _ _ => true | .const _ => false) then none
  else if (isChunk l && (asWire l).isNone) || ((isChunk r && (asWire r).isNone) || manyChunks r) then
    connectBits l r st
  else (getBit r st).bind fun (v, st) => addResultBit l v st

def connectAll : List (Sig × Sig) → St → Option St
  | [], st => some st
  | (l, r) :: cs, st => (connect l r st).bind (connectAll cs)

/-- `wireArgs`, `RTLILImporter.cpp:152-157`, by position. -/
def inputPorts (ws : List Wire) : List (Nat × Wire) := ws.filterMap fun w =>
  match w.port with
  | .input id => some (id - 1, w)
  | _ => none

/-- `wireRet`, `RTLILImporter.cpp:157-160`. -/
def outputPorts (ws : List Wire) : List (Nat × Wire) := ws.filterMap fun w =>
  match w.port with
  | .output id => some (id - 1, w)
  | _ => none

/-- The wires at positions `i`, `i + 1`, …; a missing one is a null pointer. -/
def ports (ps : List (Nat × Wire)) (start : Nat) : Nat → Option (List Wire)
  | 0 => some []
  | n + 1 =>
    match ps.lookup start, ports ps (start + 1) n with
    | some w, some ws => some (w :: ws)
    | _, _ => none

/-- The arguments, `RTLILImporter.cpp:191-194`. -/
def bindArgs : Nat → List Wire → St → St
  | _, [], st => st
  | i, w :: ws, st => bindArgs (i + 1) ws (st.addWire w i)

/-- The returned values, `RTLILImporter.cpp:245-263`. -/
def returns : List Wire → St → Option (List Nat × St)
  | [], st => some ([], st)
  | w :: ws, st =>
    match st.names.lookup w.name with
    | some v => (returns ws st).map fun (vs, st) => (v :: vs, st)
    | none =>
      match st.rets.lookup w.name with
      | some bits =>
        if bits.length > 1 then
          let (v, st) := st.emit (.fromElements bits)
          (returns ws st).map fun (vs, st) => (v :: vs, st)
        else none
      | none => none

structure Func where
  args : Nat
  ops : List MOp
  rets : List Nat
deriving DecidableEq, Repr

/-- `importModule`, `RTLILImporter.cpp:140-267`. -/
def importModule (m : Netlist) : Option Func :=
  let numInputs := (inputPorts m.wires).length
  let outs := outputPorts m.wires
  match ports (inputPorts m.wires) 0 numInputs, ports outs numInputs outs.length with
  | some ins, some outWires =>
    -- the default of the returned bits is the constant 0, the first operation
    let st : St := ⟨numInputs, [.const false], [],
      outs.map fun p => (p.2.name, List.replicate p.2.width numInputs)⟩
    (importCells m.cells (bindArgs 0 ins st)).bind fun st =>
      (connectAll m.conns st).bind fun st =>
        (returns outWires st).map fun (vs, st) => ⟨numInputs, st.ops, vs⟩
  | _, _ => none

end Heir.Rtlil
