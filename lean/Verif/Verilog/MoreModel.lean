import Verif.Verilog.Model

/-!
# Model of the Verilog emitter: insertion, leading zeros, index arguments
-/

namespace Heir.Verilog

/-! ## `tensor.insert` -/

/-- Where a partial assignment takes its bits: `dest[hi : lo]`, the same range, or the inserted
value. -/
inductive Source where
  | dest | value
  deriving DecidableEq, Repr

/-- `assign result[hi : lo] = …`. -/
structure PartAssign where
  hi : Expr
  lo : Expr
  src : Source
  deriving Repr

/-- `variableBottomRangeStr`, `VerilogEmitter.cpp:124-138`: the text `i == 0 ? 0 : i * w - 1 < 0 : 0`
between brackets is the range from `i == 0 ? 0 : (i * w - 1 < 0)` to `0`. -/
def bottomHi (w : Nat) (i : Expr) : Expr :=
  .tern (.cmp .eq i (.lit 0)) (.lit 0) (.cmp .lt (.bin .sub (.bin .mul i (.lit w)) (.lit 1)) (.lit 0))

/-- `printOperation(tensor::InsertOp)`, `VerilogEmitter.cpp:897-930`, for a tensor of `n` elements of
`w` bits and the flattened index `i`; the last range is `variableTopRangeStr`, `:140-154`. -/
def insertAssigns (n w : Nat) (i : Expr) : List PartAssign :=
  [⟨bottomHi w i, .lit 0, .dest⟩,
   ⟨.bin .add (.lit (w - 1)) (.bin .mul (.lit w) i), .bin .mul (.lit w) i, .value⟩,
   ⟨.lit (n * w), .bin .add (.lit w) (.bin .mul i (.lit w)), .dest⟩]

/-- The value of a bound of a range. -/
def bound (d : Decls) (env : Env) (e : Expr) : Option Int :=
  (eval d env e (size d e) (sgn d e)).map (toBound (sgn d e))

/-- What one assignment drives onto bit `j`: nothing, a bit, or something unknown. -/
def drives (d : Decls) (env : Env) (dest value : Nat) (j : Nat) (a : PartAssign) :
    List (Option Bool) :=
  match bound d env a.hi, bound d env a.lo with
  | some h, some l =>
    if l ≤ j ∧ (j : Int) ≤ h then
      [some (match a.src with
        | .dest => dest.testBit j
        | .value => value.testBit (j - l).toNat)]
    else []
  | _, _ => [none]

/-- The bit on a wire with these drivers (1364-2005, 4.6.1): without a driver it floats, and drivers
that disagree make it unknown. -/
def resolve : List (Option Bool) → Option Bool
  | [] => none
  | [b] => b
  | b :: bs => if resolve bs = b then b else none

/-- Bit `j` of the result of the insertion of `value` at `i` into `dest`. -/
def insertBit (d : Decls) (env : Env) (n w : Nat) (i : Expr) (dest value : Nat) (j : Nat) :
    Option Bool :=
  resolve ((insertAssigns n w i).flatMap (drives d env dest value j))

/-! ## `math.ctlz` -/

/-- Bits `hi … lo` are zero. -/
def zeroBits (x : BitVec 32) (hi lo : Nat) : Bool := x.extractLsb' lo (hi - lo + 1) == 0

/-- `printOperation(math::CountLeadingZerosOp)`, `VerilogEmitter.cpp:973-1005`, on `i32`.  The wires
`temp16`, `temp8` and `temp4` are computed but no bit of the result depends on them. -/
def emittedCtlz (x : BitVec 32) : BitVec 32 :=
  let b4 := zeroBits x 31 16
  let b3 := zeroBits x 15 8
  let b2 := zeroBits x 7 4
  let b1 := zeroBits x 3 2
  let b0 := if b1 then !x.getLsbD 1 else !x.getLsbD 3
  let temp32 : BitVec 32 :=
    (BitVec.ofBool b4 ++ BitVec.ofBool b3 ++ BitVec.ofBool b2 ++ BitVec.ofBool b1 ++
      BitVec.ofBool b0).setWidth 32
  if x = 0 then temp32 + 1 else temp32

/-! ## Arguments of type `index` -/

/-- `getMaxShapedTypeSize`, `VerilogEmitter.cpp:178-208`: the most elements of what the argument
indexes; users that are not accesses count as 0. -/
def maxShapedTypeSize (uses : List Nat) : Nat := uses.foldl max 0

def isPowerOf2 (n : Nat) : Bool := n != 0 && 2 ^ Nat.log2 n == n

/-- The width in `emitIndexType`, `VerilogEmitter.cpp:1047-1058`.  `logBase2` of zero is `-1`. -/
def indexWidth (maxSize : Nat) : Nat :=
  if maxSize = 0 then 0
  else if isPowerOf2 maxSize then Nat.log2 maxSize else Nat.log2 maxSize + 1

/-- The declaration.  For a width of zero the text is `wire signed [-1:0]`, which has two bits. -/
def indexArgWire (maxSize : Nat) : Wire :=
  if indexWidth maxSize = 0 then ⟨2, true⟩ else wireDeclaration false (indexWidth maxSize)

end Heir.Verilog
