import Mathlib.Data.BitVec

/-!
# Semantics of the MLIR `arith` operations emitted by HEIR

Integer values of type `iW` are `BitVec W`.  Operations that MLIR leaves undefined for
some operands return `none` on those operands (LangRef of the `arith` dialect): division
and remainder by zero, signed division overflow.  `addi`, `subi`, `muli` wrap.
-/

namespace Heir.Arith

variable {w : Nat}

/-- `arith.remui`: undefined when the divisor is zero. -/
def remui (a b : BitVec w) : Option (BitVec w) :=
  if b = 0#w then none else some (a.umod b)

/-- `arith.divui`: undefined when the divisor is zero. -/
def divui (a b : BitVec w) : Option (BitVec w) :=
  if b = 0#w then none else some (a.udiv b)

/-- `arith.remsi`: undefined when the divisor is zero or on signed overflow. -/
def remsi (a b : BitVec w) : Option (BitVec w) :=
  if b = 0#w ∨ (a = BitVec.intMin w ∧ b = BitVec.allOnes w) then none else some (a.srem b)

/-- `arith.divsi`: undefined when the divisor is zero or on signed overflow. -/
def divsi (a b : BitVec w) : Option (BitVec w) :=
  if b = 0#w ∨ (a = BitVec.intMin w ∧ b = BitVec.allOnes w) then none else some (a.sdiv b)

/-- `arith.shrui`: poison when the amount is not below the width. -/
def shrui (a b : BitVec w) : Option (BitVec w) :=
  if b.toNat < w then some (a >>> b.toNat) else none

/-- `arith.select`. -/
def select (c : Bool) (a b : BitVec w) : BitVec w := if c then a else b

end Heir.Arith
