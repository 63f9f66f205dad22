import Verif.Kernel.Model
import Mathlib.Data.Int.Log
import Mathlib.Data.Rat.Floor

/-!
# Model of the packing layouts

The relations of `lib/Utils/Layout/Utils.cpp` between an index of a tensor and a pair of a
ciphertext and a slot.  A Presburger relation is modelled as the predicate it denotes; every
variable has lower bound 0 in the code, so the variables are natural numbers.
-/

namespace Heir.Layout

open Heir.NumTheory Heir.Kernel

/-! ## The float in the ciphertext bound -/

/-- Round to the nearest integer, ties to even. -/
def roundHalfEven (y : ℚ) : Int :=
  let f := ⌊y⌋
  if y - f < 1 / 2 then f
  else if 1 / 2 < y - f then f + 1
  else if f % 2 = 0 then f else f + 1

/-- The IEEE binary32 value nearest to a rational (24 significant bits; no overflow or
subnormals).  The nonpositive values rounded by the code are 0 and -1, which are exact. -/
def f32 (x : ℚ) : ℚ :=
  if 0 < x then (roundHalfEven (x / 2 ^ (Int.log 2 x - 23)) : ℚ) * 2 ^ (Int.log 2 x - 23) else x

/-- `std::ceil((float)numElements / numSlots) - 1`, the inclusive bound on the ciphertext index,
`Utils.cpp:128-129`, `281-282`, `432-433`. -/
def lastCt (numElements numSlots : Nat) : Int :=
  ⌊f32 ((⌈f32 (f32 numElements / f32 numSlots)⌉ : ℚ) - 1)⌋

/-! ## Layouts -/

/-- Number of elements of a tensor. -/
def numElements (dims : List Nat) : Nat := dims.foldl (· * ·) 1

/-- The coefficients of the row-major expression, `Utils.cpp:136-142`: the running product is a
32-bit `unsigned`. -/
def strides : List Nat → List Nat
  | [] => []
  | _ :: ds =>
    let s := strides ds
    (match s, ds with
      | t :: _, d :: _ => t * d % 2 ^ 32
      | _, _ => 1) :: s

/-- The flattened row-major expression. -/
def flat (dims idx : List Nat) : Nat := ((strides dims).zipWith (· * ·) idx).sum

/-- `isPowerOfTwo(n) ? n : nextPowerOfTwo(n)`; `isPowerOfTwo` is `lib/Utils/MathUtils.h:30`. -/
def padded (n : Nat) : Nat :=
  if 0 < n ∧ n &&& (n - 1) = 0 then n else (nextPowerOfTwo (BitVec.ofNat 64 n)).toNat

/-- `idx` is an index of a tensor of shape `dims`. -/
def InBounds (dims idx : List Nat) : Prop := List.Forall₂ (· < ·) idx dims

/-- `getRowMajorLayoutRelation`, `Utils.cpp:116-182`. -/
def rowMajor (dims : List Nat) (numSlots : Nat) (idx : List Nat) (ct slot : Nat) : Prop :=
  InBounds dims idx ∧ (ct : Int) ≤ lastCt (numElements dims) numSlots ∧ slot < numSlots ∧
  flat dims idx / numSlots = ct ∧
  slot % padded (numElements dims) = flat dims idx % numSlots

/-- `getDiagonalLayoutRelation`, `Utils.cpp:184-235`. -/
def diagonal (rows cols numSlots : Nat) (idx : Nat × Nat) (ct slot : Nat) : Prop :=
  idx.1 < rows ∧ idx.2 < cols ∧ ct < min (padded rows) (padded cols) ∧ slot < numSlots ∧
  idx.1 = slot % padded rows ∧ idx.2 = (ct + slot) % padded cols

/-- `getBicyclicLayoutRelation`, `Utils.cpp:258-314`. -/
def bicyclic (rows cols numSlots : Nat) (idx : Nat × Nat) (ct slot : Nat) : Prop :=
  idx.1 < rows ∧ idx.2 < cols ∧ (ct : Int) ≤ lastCt (rows * cols) numSlots ∧ slot < numSlots ∧
  idx.1 = (ct * numSlots + slot) % rows ∧ idx.2 = (ct * numSlots + slot) % cols

/-- `getBicyclicDiagonalRelation`, `Utils.cpp:316-389`, for a matrix of the given shape;
`contraction0` is `contractionDim == 0`. -/
def bicyclicDiagonal (rows cols : Nat) (contraction0 : Bool) (stride numSlots : Nat)
    (idx : Nat × Nat) (diag slot : Nat) : Prop :=
  if contraction0 then
    diag < rows ∧ slot < numSlots ∧ idx.1 < rows ∧ idx.2 < cols ∧
    idx.1 = (slot + diag * stride) % rows ∧ idx.2 = slot % cols
  else
    diag < cols ∧ slot < numSlots ∧ idx.1 < rows ∧ idx.2 < cols ∧
    idx.2 = (slot + diag * stride) % cols ∧ idx.1 = slot % rows

/-- `getTricyclicLayoutRelation`, `Utils.cpp:398-470`. -/
def tricyclic (h m n numSlots : Nat) (idx : Nat × Nat × Nat) (ct slot : Nat) : Prop :=
  idx.1 < h ∧ idx.2.1 < m ∧ idx.2.2 < n ∧ (ct : Int) ≤ lastCt (h * m * n) numSlots ∧
  slot < numSlots ∧
  idx.1 = (ct * numSlots + slot) % h ∧ idx.2.1 = (ct * numSlots + slot) % m ∧
  idx.2.2 = (ct * numSlots + slot) % n

/-- `getPerRowLayoutRelation`, `Utils.cpp:508-546`. -/
def perRow (rows cols numSlots : Nat) (idx : Nat × Nat) (ct slot : Nat) : Prop :=
  idx.1 < rows ∧ idx.2 < cols ∧ ct < rows ∧ slot < numSlots ∧ ct = idx.1 ∧
  slot % (nextPowerOfTwo (BitVec.ofNat 64 cols)).toNat = idx.2

/-- `getPeriodicReplicationRelation`, `Utils.cpp:472-506` (one ciphertext): source slot to target
slot. -/
def periodicReplication (numSlots period : Nat) (source target : Nat) : Prop :=
  source < period ∧ target < numSlots ∧ source = target % period

/-! ## Packing by remainders -/

/-- Slot `k` of `implementCrtAssignLayoutStep`,
`lib/Transforms/ConvertToCiphertextSemantics/AssignLayout.cpp:262-308`: after `k` iterations of
the loop over all slots, the tensor of `total = numCts * numSlots` slots in flattened form. -/
def crtAssign {R : Type} [Zero R] (dims : List Nat) (input : List Nat → R) (total : Nat) :
    Nat → List R
  | 0 => List.replicate total 0
  | k + 1 => (crtAssign dims input total k).set k (input (dims.map fun d => k % d))

/-! ## Rebuilding a periodic output -/

/-- `replicateValidPrefixOfResult`,
`lib/Transforms/ConvertToCiphertextSemantics/ConvertToCiphertextSemantics.cpp:161-178`; the
assertion of the replication relation; the remap moves each source slot to its targets. -/
def replicatePrefix {R : Type} (numSlots inputPeriod : Nat) (validPrefix : Int) (v : Nat → R) :
    Option (Nat → R) :=
  let actual := if 0 < validPrefix then (validPrefix.tdiv inputPeriod * inputPeriod).toNat else 0
  if 0 < actual ∧ actual ≤ numSlots then some fun t => v (t % actual) else none

end Heir.Layout
