import Mathlib.Data.Rat.Floor

/-!
# Model of the integer constants made from the doubles of a DAG

`lib/Kernel/IRMaterializingVisitor.cpp:40-132`.  A double is a rational (infinities and NaN are left
out).  `none` is undefined behaviour of a conversion or a failed assertion of the `APInt`
constructor, which requires the value to fit (`llvm/ADT/APInt.h`: `implicitTrunc` is false).
-/

namespace Heir.Emit

/-- `APInt(w, v, isSigned)` for a `uint64_t` value given as an integer: it must fit in `w` bits,
read as signed or unsigned. -/
def mkAPInt (w : Nat) (isSigned : Bool) (v : Int) : Option (BitVec w) :=
  if isSigned then
    if -2 ^ (w - 1) ≤ v ∧ v < 2 ^ (w - 1) ∧ w ≠ 0 then some (BitVec.ofInt w v) else none
  else if 0 ≤ v ∧ v < 2 ^ w then some (BitVec.ofInt w v) else none

/-- `static_cast<int64_t>(std::floor(v))`; outside the range it is undefined. -/
def toInt64 (v : ℚ) : Option Int :=
  if -2 ^ 63 ≤ ⌊v⌋ ∧ ⌊v⌋ < 2 ^ 63 then some ⌊v⌋ else none

/-- `std::floor(v)` passed for a `uint64_t`; outside the range it is undefined. -/
def toUint64 (v : ℚ) : Option Int :=
  if 0 ≤ ⌊v⌋ ∧ ⌊v⌋ < 2 ^ 64 then some ⌊v⌋ else none

/-- A scalar constant of an index type: `IRMaterializingVisitor.cpp:44-47`; the `int64_t` is passed
for a `uint64_t`. -/
def indexConst (v : ℚ) : Option (BitVec 64) :=
  (toInt64 v).bind fun i => mkAPInt 64 false (i % 2 ^ 64)

/-- A scalar constant of an integer type, `IRMaterializingVisitor.cpp:53-57`, and an element of a
splat, `IRMaterializingVisitor.cpp:78-81`. -/
def scalarConst (w : Nat) (v : ℚ) : Option (BitVec w) := (toInt64 v).bind (mkAPInt w true)

/-- An element of a constant tensor of an integer type, `IRMaterializingVisitor.cpp:122-125`. -/
def tensorConst (w : Nat) (v : ℚ) : Option (BitVec w) := (toUint64 v).bind (mkAPInt w false)

/-- A constant tensor. -/
def tensorConsts (w : Nat) : List ℚ → Option (List (BitVec w))
  | [] => some []
  | v :: vs => (tensorConst w v).bind fun b => (tensorConsts w vs).map fun bs => b :: bs

end Heir.Emit
