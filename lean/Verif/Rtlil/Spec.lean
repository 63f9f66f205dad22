import Verif.Rtlil.Model
import Verif.Lut.Spec

/-!
# What a netlist and a function compute

A netlist relates the values of its wires: `Valid` is an assignment of a value to every bit of every
wire that all cells and connections agree with.
-/

namespace Heir.Rtlil

/-! ## Functions -/

/-- A bit is a list of one element. -/
def theBit : List Bool → Option Bool
  | [b] => some b
  | _ => none

def theBits (env : List (List Bool)) : List Nat → Option (List Bool)
  | [] => some []
  | v :: vs =>
    match env[v]?.bind theBit, theBits env vs with
    | some b, some bs => some (b :: bs)
    | _, _ => none

/-- The gates of `comb`, on any number of bits. -/
def combGate : Gate → List Bool → Option Bool
  | .and, bs => some (bs.all id)
  | .nand, bs => some (!bs.all id)
  | .or, bs => some (bs.any id)
  | .nor, bs => some (!bs.any id)
  | .xor, bs => some (bs.foldr xor false)
  | .xnor, bs => some (!bs.foldr xor false)
  | _, _ => none

def evalOp (env : List (List Bool)) : MOp → Option (List Bool)
  | .const b => some [b]
  | .extract v off =>
    (env[v]?).bind fun x => if 2 ≤ x.length then x[off]?.map fun b => [b] else none
  | .table k t ins =>
    (theBits env ins).bind fun bs =>
      if bs.length = k then some [t.toNat.testBit (Lut.index bs)] else none
  | .inv v => (env[v]?.bind theBit).map fun b => [!b]
  | .gate g ins => (theBits env ins).bind fun bs => (combGate g bs).map fun b => [b]
  | .fromElements ins => theBits env ins

/-- All values, the arguments first. -/
def run : List MOp → List (List Bool) → Option (List (List Bool))
  | [], env => some env
  | o :: os, env => (evalOp env o).bind fun x => run os (env ++ [x])

def valuesAt (env : List (List Bool)) : List Nat → Option (List (List Bool))
  | [] => some []
  | v :: vs =>
    match env[v]?, valuesAt env vs with
    | some x, some xs => some (x :: xs)
    | _, _ => none

def Func.call (f : Func) (args : List (List Bool)) : Option (List (List Bool)) :=
  if args.length = f.args then (run f.ops args).bind fun env => valuesAt env f.rets else none

/-! ## Netlists -/

/-- The values of the bits of the wires. -/
abbrev Values := Wire → Nat → Bool

def Bit.value (v : Values) : Bit → Bool
  | .const b => b
  | .wire w o => v w o

def Wire.bits (v : Values) (w : Wire) : List Bool := (List.range w.width).map (v w)

/-- The output of a cell: a lookup table returns the port numbered by the inputs, `A` least
significant. -/
def Kind.out : Kind → List Bool → Option Bool
  | .lut _ ports, ins => ports[Lut.lsbIndex ins]?
  | .gate .not, [a] => some !a
  | .gate .and, [a, b] => some (a && b)
  | .gate .nand, [a, b] => some !(a && b)
  | .gate .or, [a, b] => some (a || b)
  | .gate .nor, [a, b] => some !(a || b)
  | .gate .xor, [a, b] => some (a ^^ b)
  | .gate .xnor, [a, b] => some !(a ^^ b)
  | .gate _, _ => none

/-- All cells and connections agree with the values. -/
structure Valid (m : Netlist) (v : Values) : Prop where
  cells : ∀ c ∈ m.cells, ∃ (bs : List Bit) (o : Bit), c.ins = bs.map ([·]) ∧ c.out = [o] ∧
    c.kind.out (bs.map (Bit.value v)) = some (o.value v)
  conns : ∀ p ∈ m.conns, p.1.map (Bit.value v) = p.2.map (Bit.value v)

/-! ## Netlists that are served -/

def Wire.isInput (w : Wire) : Prop := ∃ id, w.port = .input id

def Wire.isOutput (w : Wire) : Prop := ∃ id, w.port = .output id

/-- A bit of a wire of the module. -/
def Bit.In (m : Netlist) : Bit → Prop
  | .const _ => True
  | .wire w o => w ∈ m.wires ∧ o < w.width

/-- Bits that can be driven: of wires of one bit and of ports. -/
def Bit.Drivable (m : Netlist) : Bit → Prop
  | .const _ => False
  | .wire w o => w ∈ m.wires ∧ o < w.width ∧ (w.width = 1 ∨ w.isInput ∨ w.isOutput)

/-- Bits that can be read: constants, bits of input ports and the outputs of cells. -/
def Bit.Ready (m : Netlist) (before : List Cell) : Bit → Prop
  | .const _ => True
  | .wire w o => w ∈ m.wires ∧ o < w.width ∧
    (w.isInput ∨ ∃ c ∈ before, c.out = [.wire w o])

/-- A supported cell. -/
def Cell.Shape (c : Cell) : Prop :=
  match c.kind with
  | .lut k ports => k ≤ 5 ∧ ports.length = 2 ^ k ∧ c.ins.length = k
  | .gate g => (g = .not ∧ c.ins.length = 1) ∨ (g ∈ [Gate.and, .nand, .or, .nor, .xor, .xnor] ∧
      c.ins.length = 2)

/-- The cells are in topological order. -/
def Ordered (m : Netlist) : List Cell → List Cell → Prop
  | _, [] => True
  | before, c :: cs =>
    c.Shape ∧ (∀ s ∈ c.ins, ∃ b : Bit, s = [b] ∧ b.Ready m before) ∧
    (∃ b : Bit, c.out = [b] ∧ b.Drivable m) ∧ Ordered m (c :: before) cs

/-- The inputs are the first ports. -/
structure Ports (m : Netlist) (ins outs : List Wire) : Prop where
  inputs : ∀ i w, ins[i]? = some w ↔ w ∈ m.wires ∧ w.port = .input (i + 1)
  outputs : ∀ i w, outs[i]? = some w ↔ w ∈ m.wires ∧ w.port = .output (ins.length + i + 1)
  /-- no output is left out -/
  all : ∀ w ∈ m.wires, w.isOutput → w ∈ outs
  positive : ∀ w ∈ m.wires, w.port ≠ .input 0 ∧ w.port ≠ .output 0
  width : ∀ w ∈ m.wires, 0 < w.width
  names : (m.wires.map (·.name)).Nodup

/-- A connection with sides of the same size.  The bits that are read are constants, bits of inputs
or outputs of cells.  If the right side is all of a wire of more than one bit, it is an input and
the left side is part of one wire. -/
def Connection (m : Netlist) (l r : Sig) : Prop :=
  l ≠ [] ∧ l.length = r.length ∧ (∀ b ∈ l, b.Drivable m) ∧ (∀ b ∈ r, b.Ready m m.cells) ∧
    ∀ w : Wire, r = w.sig → 1 < w.width →
      w.isInput ∧ ∃ u o, l = (List.range l.length).map fun i => .wire u (o + i)

structure Netlist.Served (m : Netlist) (ins outs : List Wire) : Prop where
  ports : Ports m ins outs
  cells : Ordered m [] m.cells
  conns : ∀ p ∈ m.conns, Connection m p.1 p.2
  /-- every bit of an output is driven -/
  driven : ∀ w ∈ outs, ∀ o < w.width,
    (∃ c ∈ m.cells, c.out = [.wire w o]) ∨ ∃ p ∈ m.conns, .wire w o ∈ p.1

/-- The bits that cells and connections assign, with repetitions. -/
def Netlist.assigned (m : Netlist) : List Bit := m.cells.flatMap (·.out) ++ m.conns.flatMap (·.1)

/-- No bit is assigned twice and no input is assigned. -/
structure Netlist.OneDriver (m : Netlist) : Prop where
  once : m.assigned.Nodup
  inputs : ∀ w o, Bit.wire w o ∈ m.assigned → ¬ w.isInput

end Heir.Rtlil
