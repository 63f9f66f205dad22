import Mathlib.Data.List.Basic
import Mathlib.Algebra.BigOperators.Group.Finset.Defs
import Mathlib.Algebra.BigOperators.Group.List.Defs

/-! # Lookup tables and boolean gates on ciphertexts

Programs are expression trees: sharing of values does not change what is computed. The clear text of
an LWE ciphertext with `p` message bits is a `BitVec p`, sums and products wrap as they do in the
message space; noise is not modelled. -/

namespace Heir.Lut

/-- The gates with two inputs of the CGGI dialect, `lib/Dialect/CGGI/IR/CGGIEnums.td:15-21`. -/
inductive Gate
  | and | nand | or | nor | xor | xnor
  deriving DecidableEq

/-- The gates, `lib/Dialect/CGGI/IR/CGGIBinOps.td:26-31` and `lib/Dialect/Comb/IR/Combinational.td`. -/
def Gate.eval : Gate → Bool → Bool → Bool
  | .and, x, y => x && y
  | .nand, x, y => !(x && y)
  | .or, x, y => x || y
  | .nor, x, y => !(x || y)
  | .xor, x, y => x ^^ y
  | .xnor, x, y => !(x ^^ y)

/-- A program in the comb dialect on secret bits and clear bits, as left in a `secret.generic`. The
table of `truth_table` is the integer attribute. -/
inductive Comb
  | secret (i : Nat)
  | clear (b : Bool)
  | inv (x : Comb)
  | gate (g : Gate) (x y : Comb)
  | table (n : Nat) (xs : Fin n → Comb) (t : Nat)

/-- A program in the CGGI dialect before decomposition; operands of the tables in the order of the
operation, `lib/Dialect/CGGI/IR/CGGIPBSOps.td:57-76`. -/
inductive Cggi
  | arg (i : Nat)
  | trivial (b : Bool)
  | not (x : Cggi)
  | gate (g : Gate) (x y : Cggi)
  | lut2 (b a : Cggi) (t : Nat)
  | lut3 (c b a : Cggi) (t : Nat)
  | lut4 (d c b a : Cggi) (t : Nat)

/-- A program after decomposition: linear operations on ciphertexts and bootstraps. -/
inductive Ct
  | arg (i : Nat)
  | trivial (b : Bool)
  | not (x : Ct)
  | gate (g : Gate) (x y : Ct)
  | lut4 (d c b a : Ct) (t : Nat)
  | mulScalar (x : Ct) (c : Int)
  | shl (x : Ct) (k : Nat)
  | add (x y : Ct)
  | lincomb (n : Nat) (xs : Fin n → Ct) (cs : Fin n → Int) (t : Nat)
  | pbs (x : Ct) (t : Nat)

/-- Encoding of a bit in `p` message bits. -/
def enc (p : Nat) (b : Bool) : BitVec p := BitVec.ofNat p b.toNat

/-- The bit encoded. -/
def dec {p : Nat} (x : BitVec p) : Bool := x.getLsbD 0

/-- What the operations compute. A bootstrap looks the message up in the table and returns a bit,
`CGGIPBSOps.td:14-25`; `lut_lincomb` is documented as the table shifted by the combination of the
inputs, `CGGIPBSOps.td:93-127`, which is an integer (negative positions do not occur in a table). -/
def Ct.eval (p : Nat) (env : Nat → BitVec p) : Ct → BitVec p
  | .arg i => env i
  | .trivial b => enc p b
  | .not x => enc p (!dec (x.eval p env))
  | .gate g x y => enc p (g.eval (dec (x.eval p env)) (dec (y.eval p env)))
  | .lut4 d c b a t => enc p (t.testBit (8 * (dec (d.eval p env)).toNat +
      4 * (dec (c.eval p env)).toNat + 2 * (dec (b.eval p env)).toNat + (dec (a.eval p env)).toNat))
  | .mulScalar x c => x.eval p env * BitVec.ofInt p c
  | .shl x k => x.eval p env <<< k
  | .add x y => x.eval p env + y.eval p env
  | .lincomb n xs cs t =>
      let z := (List.ofFn fun i : Fin n => cs i * ((xs i).eval p env).toNat).sum
      enc p (decide (0 ≤ z) && t.testBit z.toNat)
  | .pbs x t => enc p (t.testBit (x.eval p env).toNat)

/-! ## From comb to CGGI -/

/-- `SecretGenericOpLUTConversion`, `SecretToCGGI.cpp:301-320`: the three or four inputs in order;
other numbers of inputs are not converted. -/
def convertTable (t : Nat) : List Cggi → Option Cggi
  | [x, y, z] => some (.lut3 x y z t)
  | [x, y, z, w] => some (.lut4 x y z w t)
  | _ => none

/-- All elements of a list of options. -/
def allSome {α : Type} : List (Option α) → Option (List α)
  | [] => some []
  | none :: _ => none
  | some a :: l => (allSome l).map (a :: ·)

/-- The conversion of a program, `SecretToCGGI.cpp:193-225`, `:293-356`: clear inputs are encrypted
trivially (`encodeInputs`). Operations on clear inputs only are not in a `secret.generic`; see
`buildSelect` for those. -/
def secretToCggi : Comb → Option Cggi
  | .secret i => some (.arg i)
  | .clear b => some (.trivial b)
  | .inv x => (secretToCggi x).map .not
  | .gate g x y => (secretToCggi x).bind fun x' => (secretToCggi y).map fun y' => .gate g x' y'
  | .table n xs t =>
      (allSome (List.ofFn fun i : Fin n => secretToCggi (xs i))).bind (convertTable t)

/-- What `findLUTSize` reads of an operation, `SecretToCGGI.cpp:742-759`: the inputs of a table or
the bits of the first result of another comb operation. -/
inductive CombOp
  | table (inputs : Nat)
  | other (bits : Nat)

/-- `SecretToCGGI.cpp:746-749`. -/
def CombOp.size : CombOp → Nat
  | .table n => n
  | .other w => w

/-- `findLUTSize`, `SecretToCGGI.cpp:742-759`: message bits of all ciphertexts. -/
def findLUTSize (ops : List CombOp) : Nat := ops.foldl (fun m op => max m op.size) 1

/-- The operations of a program in the order of the walk; results are single bits. -/
def Comb.ops : Comb → List CombOp
  | .secret _ => []
  | .clear _ => []
  | .inv x => x.ops ++ [.other 1]
  | .gate _ x y => x.ops ++ y.ops ++ [.other 1]
  | .table n xs _ => (List.ofFn fun i : Fin n => (xs i).ops).flatten ++ [.table n]

/-! ## Decomposition -/

/-- The tables of the gates that are expanded, `DecomposeOperations.td:10-13`. -/
def andLut : Nat := 8
/-- `DecomposeOperations.td:12`. -/
def orLut : Nat := 14
/-- `DecomposeOperations.td:13`. -/
def xorLut : Nat := 6

/-- `ExpandAndOp` and the like, `DecomposeOperations.td:28-56`. -/
def expandGate (x y : Ct) (t : Nat) : Ct := .pbs (.add (.shl y 1) x) t

/-- The loop of `ExpandLutLinComb`, `DecomposeOperations.cpp:73-84`. -/
def combine : Option Ct → List (Ct × Int) → Option Ct
  | r, [] => r
  | none, (x, c) :: l => combine (some (.mulScalar x c)) l
  | some r, (x, c) :: l => combine (some (.add r (.mulScalar x c))) l

/-- A `lut_lincomb`, expanded or not, `DecomposeOperations.cpp:60-88`. Without inputs there is no
type to read (`front` of an empty range): a placeholder that is not reached from `decompose`. -/
def lincombOf (expand : Bool) (xs : List (Ct × Int)) (t : Nat) : Ct :=
  if expand then
    match combine none xs with
    | some r => .pbs r t
    | none => .lincomb 0 (fun i => i.elim0) (fun i => i.elim0) t
  else .lincomb xs.length (fun i => (xs.get i).1) (fun i => (xs.get i).2) t

/-- The pass `--cggi-decompose-operations` on a program, `DecomposeOperations.cpp:31-58`, `:95-110`:
other gates and `lut4` have no pattern. -/
def decompose (expand : Bool) : Cggi → Ct
  | .arg i => .arg i
  | .trivial b => .trivial b
  | .not x => .not (decompose expand x)
  | .gate .and x y => expandGate (decompose expand x) (decompose expand y) andLut
  | .gate .or x y => expandGate (decompose expand x) (decompose expand y) orLut
  | .gate .xor x y => expandGate (decompose expand x) (decompose expand y) xorLut
  | .gate g x y => .gate g (decompose expand x) (decompose expand y)
  | .lut2 b a t => lincombOf expand [(decompose expand b, 2), (decompose expand a, 1)] t
  | .lut3 c b a t =>
      lincombOf expand [(decompose expand c, 4), (decompose expand b, 2), (decompose expand a, 1)] t
  | .lut4 d c b a t => .lut4 (decompose expand d) (decompose expand c) (decompose expand b)
      (decompose expand a) t

/-- `APInt::getActiveBits`. -/
def activeBits (t : Nat) : Nat := if t = 0 then 0 else Nat.log2 t + 1

/-- `LutLinCombOp::verify` and `ProgrammableBootstrapOp::verify`, `CGGIOps.cpp:43-101`; for message
bits below 31, where `1 << p` is defined. -/
def Ct.verify (p : Nat) : Ct → Prop
  | .arg _ => True
  | .trivial _ => True
  | .not x => x.verify p
  | .gate _ x y => x.verify p ∧ y.verify p
  | .lut4 d c b a _ => d.verify p ∧ c.verify p ∧ b.verify p ∧ a.verify p
  | .mulScalar x _ => x.verify p
  | .shl x _ => x.verify p
  | .add x y => x.verify p ∧ y.verify p
  | .lincomb n xs cs t => (∀ i : Fin n, (xs i).verify p) ∧ (∀ i : Fin n, cs i ≤ 2 ^ p - 1) ∧
      activeBits t ≤ 2 ^ p - 1 + 1
  | .pbs x t => x.verify p ∧ activeBits t ≤ 2 ^ p - 1 + 1

/-! ## Back ends -/

/-- `--cggi-to-tfhe-rust` on tables, `CGGIToTfheRust.cpp:142-252`, and the emitted closure
`|x| (t >> x) & 1`, `TfheRustEmitter.cpp:497`. Gates keep their meaning. -/
def toTfheRust : Cggi → Ct
  | .arg i => .arg i
  | .trivial b => .trivial b
  | .not x => .not (toTfheRust x)
  | .gate g x y => .gate g (toTfheRust x) (toTfheRust y)
  | .lut2 b a t => .pbs (.add (.shl (toTfheRust b) 1) (toTfheRust a)) t
  | .lut3 c b a t =>
      .pbs (.add (.add (.shl (toTfheRust c) 2) (.shl (toTfheRust b) 1)) (toTfheRust a)) t
  | .lut4 d c b a t =>
      .pbs (.add (.add (.shl (toTfheRust b) 1) (.add (.shl (toTfheRust c) 2) (.shl (toTfheRust d) 3)))
        (toTfheRust a)) t

/-- `jaxite.lut3` and each tuple of `jaxite.pmap_lut3`: the table, a byte, shifted by `{c, b, a}`,
`JaxiteOps.td:28-48`, `:63-72`. -/
def jaxiteLut3 (a b c : Bool) (t : BitVec 8) : Bool :=
  t.getLsbD (4 * c.toNat + 2 * b.toNat + a.toNat)

/-- The operands of a `cggi.lut3`. -/
structure Lut3 where
  c : Bool
  b : Bool
  a : Bool
  t : Nat

/-- `ConvertCGGIToJaxiteLut3Op`, `CGGIToJaxite.cpp:107-141`: the table is cast to `uint8_t`. -/
def Lut3.toJaxite (l : Lut3) : Bool := jaxiteLut3 l.a l.b l.c (BitVec.ofNat 8 l.t)

/-- `cggi.packed_lut3`: tables and the operands `a`, `b`, `c`, `CGGIPBSOps.td:78-91`. -/
structure Packed where
  tables : List Nat
  a : List Bool
  b : List Bool
  c : List Bool

/-- `Lut3Op::buildBatchedOperation` on the operands gathered by `buildVectorizedOperands`,
`CGGIOps.cpp:294-314` and `BooleanVectorizer.cpp:36-75`: the vectorized operands 0, 1, 2 of the
`lut3`, which are `c`, `b`, `a`, become the operands `a`, `b`, `c` of the packed operation. -/
def batchLut3 (l : List Lut3) : Packed :=
  ⟨l.map (·.t), l.map (·.c), l.map (·.b), l.map (·.a)⟩

/-- `ConvertCGGIToJaxitePmapLut3Op`, `CGGIToJaxite.cpp:143-192`; `none` is an extraction out of
bounds. -/
def Packed.toJaxite (q : Packed) : Option (List Bool) :=
  allSome (List.ofFn fun i : Fin q.tables.length =>
    q.a[i.val]?.bind fun a => q.b[i.val]?.bind fun b => q.c[i.val]?.map fun c =>
      jaxiteLut3 a b c (BitVec.ofNat 8 q.tables[i.val]))

/-- `buildBatchedBooleanGateOperation`, `CGGIOps.cpp:142-186`: one gate for each lane, `cggi.packed_gates`. -/
def batchGates (l : List (Gate × Bool × Bool)) : List Gate × List Bool × List Bool :=
  (l.map (·.1), l.map (·.2.1), l.map (·.2.2))

/-- `cggi.packed_gates`: gate by gate, `lib/Dialect/CGGI/IR/CGGIBinOps.td:48-71`. -/
def packedGates (q : List Gate × List Bool × List Bool) : List Bool :=
  List.zipWith (fun g (xy : Bool × Bool) => g.eval xy.1 xy.2) q.1 (q.2.1.zip q.2.2)

/-! ## Tables on clear inputs -/

/-- The emitted selections: constants and `arith.select` on input `i`. -/
inductive Sel
  | const (b : Bool)
  | select (i : Nat) (x y : Sel)

/-- `arith.select`. -/
def Sel.eval (ins : List Bool) : Sel → Bool
  | .const b => b
  | .select i x y => if ins.getD i false then x.eval ins else y.eval ins

/-- `buildSelectTruthTable`, `SecretToCGGI.cpp:68-87`, with `n` inputs left (`lutInputs.back()` is
input `n - 1`); the assertion on the size holds by the type. -/
def buildSelect : (n : Nat) → BitVec (2 ^ n) → Sel
  | 0, lut => if lut = 0 then .const false else .const true
  | n + 1, lut => .select n (buildSelect n (lut.extractLsb' 0 (2 ^ n)))
      (buildSelect n (lut.extractLsb' (2 ^ n) (2 ^ n)))

/-! ## Concealing clear integers -/

/-- One bit of an integer, `SecretToCGGI.cpp:591-600`; also of `convertWriteOpInterface`, `:124-134`. -/
def bitOf {w : Nat} (x : BitVec w) (i : Nat) : BitVec 1 :=
  (((x &&& (1#w <<< i)).sshiftRight i)).setWidth 1

/-- `encodeElement`, `SecretToCGGI.cpp:577-615`: the bits from the least significant one. -/
def encodeElement {w : Nat} (x : BitVec w) : List Bool :=
  if w = 1 then [x.getLsbD 0] else (List.range w).map fun i => (bitOf x i).getLsbD 0

/-- `unflattenIndex`, `lib/Transforms/MemrefToArith/Utils.cpp:55-65`; `none` is a division by zero. -/
def unflattenIndex (index : Int) (offset : Int) (strides : List Int) : Option (List Int) :=
  go (index - offset) strides
where
  /-- The loop over the strides. -/
  go (ndx : Int) : List Int → Option (List Int)
    | [] => some []
    | s :: ss => if s = 0 then none else (go (ndx.tmod s) ss).map (ndx.tdiv s :: ·)

/-- `flattenIndex`, `Utils.cpp:67-74`; `none` when there are fewer indices than strides. -/
def flattenIndex (offset : Int) : List Int → List Int → Option Int
  | _, [] => some offset
  | [], _ :: _ => none
  | i :: is, s :: ss => flattenIndex (offset + i * s) is ss

/-- `tensor.extract` at constant indices: undefined out of bounds. The elements are in row-major
order. -/
def extractAt {α : Type} (shape : List Nat) (elems : List α) (idx : List Int) : Option α :=
  (rowMajor shape idx).bind fun k => elems[k]?
where
  /-- Position of an index in row-major order, `none` out of bounds. -/
  rowMajor : List Nat → List Int → Option Nat
    | [], [] => some 0
    | d :: ds, i :: is =>
        if 0 ≤ i ∧ i < d then (rowMajor ds is).map fun r => i.toNat * ds.prod + r else none
    | _, _ => none

/-- `ConvertSecretConcealOp` on a tensor, `SecretToCGGI.cpp:619-641`: each element is extracted at
the unflattened position and encoded. The second argument of `unflattenIndex` is the shape of the
tensor. `max_element` of the shape of a tensor without dimensions and `constIndices[index]` beyond
the largest dimension are out of bounds as well: `none`. -/
def concealTensor {w : Nat} (shape : List Nat) (elems : List (BitVec w)) : Option (List Bool) :=
  if shape = [] then none
  else
    (allSome ((List.range shape.prod).map fun i : Nat =>
      (unflattenIndex i 0 (shape.map (fun d : Nat => (d : Int)))).bind fun idx =>
        (extractAt shape elems idx).map encodeElement)).map List.flatten

/-- `ConvertSecretConcealOp` on an integer, `SecretToCGGI.cpp:639-647`. -/
def concealInt {w : Nat} (x : BitVec w) : List Bool := encodeElement x

/-! ## Import of tables from Yosys -/

/-- The loop of `LUTImporter::createOp`, `LUTImporter.cpp:32-38`, over the ports `P0`, `P1`, …: the
shift is on `int`, undefined from 32 on; a shift by 31 sets the sign bit, which is extended to 64
bits. -/
def importLoop : Nat → BitVec 64 → List Bool → Option (BitVec 64)
  | _, acc, [] => some acc
  | i, acc, b :: bs =>
      if i < 32 then
        importLoop (i + 1) (acc ||| ((if b then 1#32 else 0#32) <<< i).signExtend 64) bs
      else none

/-- `LUTImporter::createOp`, `LUTImporter.cpp:23-43`: the attribute is truncated to the size of the
table. -/
def importTable (k : Nat) (ports : List Bool) : Option (BitVec (2 ^ k)) :=
  (importLoop 0 0 ports).map (·.setWidth (2 ^ k))

/-- `LUTImporter::getInputs`, `LUTImporter.cpp:45-66`: the inputs `A`, `B`, … in alphabetical order
are reversed. -/
def importInputs {α : Type} (inputs : List α) : List α :=
  (List.range inputs.length).filterMap fun i => inputs[inputs.length - i - 1]?

end Heir.Lut
