import Verif.Dag.Tree
import Verif.NumTheory.Model
import Mathlib.Data.ZMod.Defs
import Mathlib.Data.List.Dedup
import Mathlib.Data.Nat.Sqrt
import Mathlib.Data.Nat.Log
import Mathlib.Algebra.Ring.Pi

/-!
# Model of the kernels

`lib/Kernel/KernelImplementation.h`: functions from operands to expression trees (`Dag.Expr`).
A ciphertext or plaintext is a vector of `N` slots over a commutative ring (`Slots R N`), with a
flag that says which; index arithmetic is on integers (no 64-bit overflow of indices).  The C++
arguments are leaves.  The semantics is parametrised by the rotation amounts for which a key
exists: rotating a ciphertext by another amount is undefined.

`lib/Utils/RotationUtils.h`: the rotation amounts for which keys are generated.
-/

namespace Heir.Kernel

open Heir.Dag Heir.NumTheory

/-- The slots of one ciphertext. -/
abbrev Slots (R : Type) (N : Nat) := ZMod N → R

variable {R : Type} {N : Nat}

/-- Cyclic left rotation of all slots. -/
def rot (a : Int) (v : Slots R N) : Slots R N := fun i => v (i + (a : ZMod N))

/-- Values of nodes. -/
inductive Val (R : Type) (N : Nat) where
  | idx (a : Int)
  | elt (x : R)
  /-- a ciphertext (`secret = true`) or plaintext -/
  | vec (secret : Bool) (v : Slots R N)
  /-- a tensor of shape `{k, N}` -/
  | mat (secret : Bool) (rows : List (Slots R N))
  /-- a constant tensor of shape `{k}` -/
  | tab (xs : List R)

/-- Node operators; constants are given by their value. -/
inductive KOp (R : Type) (N : Nat) where
  | leaf (v : Val R N)
  | splat (x : R)
  | empty (k : Nat)
  | add | sub | mul
  | floorDiv (d : Int)
  | rotate
  | extract
  | insert
  | cmp (p : Pred)

variable [CommRing R] [DecidableEq R]

/-- Semantics of the operators on slots (`EvalVisitor.cpp:25-333`; floor division as emitted by
`IRMaterializingVisitor.cpp:151-165`, `arith.divsi`).  `ok` are the amounts with a rotation key. -/
def kPure (ok : Int → Bool) : KOp R N → List (Val R N) → Option (Val R N)
  | .leaf v, [] => some v
  | .splat x, [] => some (.vec false fun _ => x)
  | .empty k, [] => some (.mat false (List.replicate k fun _ => 0))
  | .add, [.idx a, .idx b] => some (.idx (a + b))
  | .add, [.vec s a, .vec t b] => some (.vec (s || t) (a + b))
  | .sub, [.idx a, .idx b] => some (.idx (a - b))
  | .sub, [.vec s a, .vec t b] => some (.vec (s || t) (a - b))
  | .mul, [.idx a, .idx b] => some (.idx (a * b))
  | .mul, [.vec s a, .vec t b] => some (.vec (s || t) (a * b))
  | .floorDiv d, [.idx a] => if d = 0 then none else some (.idx (a.tdiv d))
  | .rotate, [.vec s v, .idx a] => if s && !ok a then none else some (.vec s (rot a v))
  | .extract, [.mat s m, .idx i] => if i < 0 then none else (m[i.toNat]?).map (.vec s)
  | .extract, [.tab t, .idx i] => if i < 0 then none else (t[i.toNat]?).map .elt
  | .insert, [.vec s v, .mat t m, .idx i] =>
    if i < 0 then none else (Loop.put m i.toNat v).map (.mat (s || t))
  | .cmp p, [.idx a, .idx b] => some (.idx (if holds p a b then 1 else 0))
  | .cmp .EQ, [.elt a, .elt b] => some (.idx (if a = b then 1 else 0))
  | .cmp .NE, [.elt a, .elt b] => some (.idx (if a ≠ b then 1 else 0))
  | _, _ => none

/-- Semantics of kernels. -/
def kSem (ok : Int → Bool) : Sem (Val R N) (KOp R N) where
  pure := kPure ok
  ofInt := .idx
  truth
    | .idx a => some (a ≠ 0)
    | _ => none

/-- Kernel expressions. -/
abbrev KExpr (R : Type) (N : Nat) := Expr (KOp R N)

/-! ## Factory functions, `ArithmeticDag.h:267-484` -/

section
omit [CommRing R] [DecidableEq R]

def leafV (v : Slots R N) : KExpr R N := .op0 (.leaf (.vec true v))
def leafM (m : List (Slots R N)) : KExpr R N := .op0 (.leaf (.mat false m))
def cst (a : Int) : KExpr R N := .op0 (.leaf (.idx a))
def addE (a b : KExpr R N) : KExpr R N := .op2 .add a b
def mulE (a b : KExpr R N) : KExpr R N := .op2 .mul a b
/-- `leftRotate(tensor, int64_t)` -/
def rotE (a : KExpr R N) (k : Int) : KExpr R N := .op2 .rotate a (cst k)
/-- `leftRotate(tensor, node)` -/
def rotD (a k : KExpr R N) : KExpr R N := .op2 .rotate a k
def extractE (a : KExpr R N) (k : Nat) : KExpr R N := .op2 .extract a (cst k)
def extractD (a k : KExpr R N) : KExpr R N := .op2 .extract a k

/-! ## Naive diagonal product -/

/-- The loop of `implementMatvec`, `KernelImplementation.h:58-66`: `i` diagonals after the first. -/
def matvecLoop (v m : KExpr R N) : Nat → KExpr R N
  | 0 => mulE (rotE v 0) (extractE m 0)
  | i + 1 => addE (matvecLoop v m i) (mulE (rotE v (i + 1 : Nat)) (extractE m (i + 1)))

/-- `implementMatvec`, `KernelImplementation.h:46-69`; the assertion `numRows > 0`. -/
def matvec (m : List (Slots R N)) (v : Slots R N) : Option (KExpr R N) :=
  if 0 < m.length then some (matvecLoop (leafV v) (leafM m) (m.length - 1)) else none

/-! ## Rotation accumulation -/

/-- The loop of `implementRotateAndReduceAccumulation`, `KernelImplementation.h:82-86`. -/
def accumLoop (red : KExpr R N → KExpr R N → KExpr R N) (period : Int) (shift : Nat)
    (e : KExpr R N) : KExpr R N :=
  if 0 < shift then accumLoop red period (shift / 2) (red e (rotE e (shift * period))) else e
termination_by shift

/-- `implementRotateAndReduceAccumulation`, `KernelImplementation.h:75-88`. -/
def accum (red : KExpr R N → KExpr R N → KExpr R N) (period : Int) (steps : Nat)
    (e : KExpr R N) : KExpr R N :=
  accumLoop red period (steps / 2) e

/-- `implementRotateAndReduceAccumulationRolled`, `KernelImplementation.h:101-135`.
`static_cast<int64_t>(std::log2(steps))` is taken to be the exact floor of the logarithm.
Variables: induction 0, vector 1, shift 2. -/
def accumRolled (red : KExpr R N → KExpr R N → KExpr R N) (period : Int) (steps : Nat)
    (e : KExpr R N) : KExpr R N :=
  if Nat.log 2 steps ≤ 0 then e
  else
    .resultAt (.loop2 0 1 2 e (cst (steps / 2 : Nat))
      (.yield2 (red (.var 1) (rotD (.var 1) (mulE (.var 2) (cst period))))
        (.op1 (.floorDiv 2) (.var 2))) 0 (Nat.log 2 steps) 1) 0

/-! ## Baby-step giant-step -/

/-- The inner loop, `KernelImplementation.h:241-262`, after `i` iterations.  `b` is both
`numBabySteps` and `giantStepSize`; the `break` skips all further iterations, for which its
condition still holds.  `skip` is `zeroDiagonals.contains`. -/
def innerSum (b steps : Nat) (period : Int) (skip : Nat → Bool) (extr : Nat → KExpr R N)
    (rotIdx : Nat → Nat → Int) (v : KExpr R N) (j : Nat) : Nat → Option (KExpr R N)
  | 0 => none
  | i + 1 =>
    let acc := innerSum b steps period skip extr rotIdx v j i
    if steps ≤ j * b + i then acc
    else if skip (i + j * b) then acc
    else
      let m := mulE (rotE (extr (i + j * b)) (rotIdx j i)) (if i = 0 then v else rotE v (period * i))
      some (match acc with
        | none => m
        | some s => addE s m)

/-- The outer loop, `KernelImplementation.h:239-275`, after `j` iterations. -/
def outerSum (b steps : Nat) (period : Int) (skip : Nat → Bool) (extr : Nat → KExpr R N)
    (rotIdx : Nat → Nat → Int) (v : KExpr R N) : Nat → Option (KExpr R N)
  | 0 => none
  | j + 1 =>
    let r := (innerSum b steps period skip extr rotIdx v j b).map fun s => rotE s (period * j * b)
    match outerSum b steps period skip extr rotIdx v j with
    | none => r
    | some acc => some (match r with
      | none => acc
      | some r => addE acc r)

end

/-- `implementBabyStepGiantStep`, `KernelImplementation.h:205-278`, for a given split `b`. -/
def bsgsWith (b steps : Nat) (period : Int) (skip : Nat → Bool) (extr : Nat → KExpr R N)
    (rotIdx : Nat → Nat → Int) (v : KExpr R N) : KExpr R N :=
  match outerSum b steps period skip extr rotIdx v ((steps + b - 1) / b) with
  | none => .op0 (.splat 0)
  | some e => e

/-- `static_cast<int64_t>(std::ceil(std::sqrt(n)))` (exact). -/
def ceilSqrt (n : Nat) : Nat := if n.sqrt * n.sqrt = n then n.sqrt else n.sqrt + 1

/-- `defaultDerivedRotationIndexFn`, `KernelImplementation.h:160-165`. -/
def defaultRot (b : Nat) (period : Int) (j _i : Nat) : Int := -(b : Int) * j * period

/-- `implementBabyStepGiantStep`; zero steps divide by zero. -/
def bsgs (steps : Nat) (period : Int) (skip : Nat → Bool) (extr : Nat → KExpr R N)
    (rotIdx : Nat → Nat → Nat → Int) (v : KExpr R N) : Option (KExpr R N) :=
  if steps = 0 then none
  else some (bsgsWith (ceilSqrt steps) steps period skip extr (rotIdx (ceilSqrt steps)) v)

/-- `implementRotateAndReduce` with plaintexts, unrolled, `KernelImplementation.h:470-485`. -/
def rotateAndReduce (m : List (Slots R N)) (v : Slots R N) (period : Int) (steps : Nat)
    (skip : Nat → Bool) : Option (KExpr R N) :=
  bsgs steps period skip (fun c => extractE (leafM m) c) (fun b => defaultRot b period) (leafV v)

/-- The body of the inner loop of `implementBabyStepGiantStepRolled` with the default rotation and
extraction, `KernelImplementation.h:349-396`.  `nz` is the table `isNotZeroDiagVec` when there are
zero diagonals.  Variables: 2 (giant step), 4 (packed baby steps), 5 (baby step), 6 (sum). -/
def rolledBody (b steps : Nat) (period : Int) (nz : Option (List R)) (m : KExpr R N) : KExpr R N :=
  let extractIdx : KExpr R N := addE (.var 5) (mulE (.var 2) (cst b))
  let isBound : KExpr R N := .op2 (.cmp .LT) extractIdx (cst steps)
  let rotAmount : KExpr R N := mulE (mulE (mulE (.var 2) (cst b)) (cst period)) (cst (-1))
  let term : KExpr R N := .yield1 (addE (.var 6)
    (mulE (rotD (extractD m extractIdx) rotAmount) (extractD (.var 4) (.var 5))))
  let keep : KExpr R N := .yield1 (.var 6)
  match nz with
  | none => .ifElse isBound term keep
  | some t => .ifElse isBound
      (.yield1 (.resultAt (.ifElse (.op2 (.cmp .NE) (extractD (.op0 (.leaf (.tab t))) extractIdx)
        (.op0 (.leaf (.elt 0)))) term keep) 0)) keep

/-- `implementBabyStepGiantStepRolled` with the default rotation and extraction,
`KernelImplementation.h:292-414`.  Variables: precomputation 0 (induction), 1; outer loop 2,
3 (sum), 4 (packed baby steps); inner loop 5, 6 (sum). -/
def bsgsRolledWith (b steps : Nat) (period : Int) (nz : Option (List R)) (m v : KExpr R N) :
    KExpr R N :=
  let packed : KExpr R N := .resultAt (.loop1 0 1 (.op0 (.empty b))
    (.yield1 (.op3 .insert (rotD v (mulE (.var 0) (cst period))) (.var 1) (.var 0))) 0 b 1) 0
  let inner : KExpr R N := .resultAt (.loop1 5 6 (.op0 (.splat 0))
    (.yield1 (.resultAt (rolledBody b steps period nz m) 0)) 0 b 1) 0
  let outerRot : KExpr R N := mulE (mulE (.var 2) (cst b)) (cst period)
  .resultAt (.loop2 2 3 4 (.op0 (.splat 0)) packed
    (.yield2 (addE (.var 3) (rotD inner outerRot)) (.var 4)) 0 ((steps + b - 1) / b : Nat) 1) 0

/-- `isNotZeroDiagVec`, `KernelImplementation.h:332-342`: `zeros` are the entries of
`zeroDiagonals`. -/
def notZeroTable (R : Type) [CommRing R] (steps : Nat) (zeros : List (Int × Bool)) : List R :=
  zeros.foldl (fun t z => if z.2 = true ∧ 0 ≤ z.1 ∧ z.1 < (steps : Int) then t.set z.1.toNat 0 else t)
    (List.replicate steps 1)

/-- `implementRotateAndReduce` with plaintexts, rolled. -/
def rotateAndReduceRolled (m : List (Slots R N)) (v : Slots R N) (period : Int) (steps : Nat)
    (zeros : List (Int × Bool)) : Option (KExpr R N) :=
  if steps = 0 then none
  else some (bsgsRolledWith (ceilSqrt steps) steps period
    (if zeros = [] then none else some (notZeroTable R steps zeros)) (leafM m) (leafV v))

/-! ## Halevi-Shoup -/

section
omit [CommRing R] [DecidableEq R]

/-- The unrolled partial sums, `KernelImplementation.h:635-641`. -/
def shiftLoop (e : KExpr R N) (shift : Nat) : Nat → KExpr R N
  | 0 => e
  | k + 1 => shiftLoop (addE e (rotE e shift)) (shift / 2) k

/-- The rolled partial sums, `KernelImplementation.h:646-658`.  Variables 7, 8, 9. -/
def shiftRolled (e : KExpr R N) (shift : Nat) (k : Nat) : KExpr R N :=
  .resultAt (.loop2 7 8 9 e (cst shift)
    (.yield2 (addE (.var 8) (rotD (.var 8) (.var 9))) (.op1 (.floorDiv 2) (.var 9))) 0 k 1) 0

/-- Partial sums after the diagonal product, `KernelImplementation.h:618-659`, for padded
dimensions `rows` and `cols` (powers of two, so that `log2` is exact). -/
def squatSum (unroll : Bool) (rows cols : Nat) (e : KExpr R N) : KExpr R N :=
  if rows = cols then e
  else if unroll then shiftLoop e (cols / 2) (Nat.log 2 cols - Nat.log 2 rows)
  else shiftRolled e (cols / 2) (Nat.log 2 cols - Nat.log 2 rows)

end

/-- `implementHaleviShoup`, `KernelImplementation.h:601-660`, unrolled. -/
def haleviShoup (m : List (Slots R N)) (v : Slots R N) (rows cols : BitVec 64)
    (skip : Nat → Bool) : Option (KExpr R N) :=
  (rotateAndReduce m v 1 m.length skip).map
    (squatSum true (nextPowerOfTwo rows).toNat (nextPowerOfTwo cols).toNat)

/-- `implementHaleviShoup`, rolled. -/
def haleviShoupRolled (m : List (Slots R N)) (v : Slots R N) (rows cols : BitVec 64)
    (zeros : List (Int × Bool)) : Option (KExpr R N) :=
  (rotateAndReduceRolled m v 1 m.length zeros).map
    (squatSum false (nextPowerOfTwo rows).toNat (nextPowerOfTwo cols).toNat)

/-! ## Bicyclic and tricyclic products -/

/-- The rotation of the second operand, `KernelImplementation.h:703-721` (`h = 1`) and
`766-783`, in 64-bit arithmetic (`urem`/`srem` by zero are excluded by the callers); `period` is
the period passed to the kernel. -/
def cyclicRot (h m n p pInv period : BitVec 64) (b j i : Nat) : Int :=
  let c := BitVec.ofNat 64 (j * b + i)
  let modulus := h * n * p
  let inner := (c * m * pInv).umod n
  let roty := (inner * h * p).umod modulus
  let result := (roty - period * BitVec.ofNat 64 b * BitVec.ofNat 64 j).srem modulus
  (if result.msb then result + modulus else result).toInt

/-- `implementBicyclicMatmul`, `KernelImplementation.h:690-726`, with
`implementCiphertextCiphertextBabyStepGiantStep`, `KernelImplementation.h:578-594`. -/
def bicyclic (A B : Slots R N) (m n p : BitVec 64) : Option (KExpr R N) :=
  if n = 0#64 ∨ n * p = 0#64 then none
  else do
    let _ ← multiplicativeInverse (m.umod n) n
    let pInv ← multiplicativeInverse (p.umod n) n
    bsgs n.toNat m.toInt (fun _ => false) (fun _ => leafV B) (cyclicRot 1#64 m n p pInv m) (leafV A)

/-- `implementTricyclicBatchMatmul`, `KernelImplementation.h:746-788`. -/
def tricyclic (A B : Slots R N) (h m n p : BitVec 64) : Option (KExpr R N) :=
  if n = 0#64 ∨ h * n * p = 0#64 then none
  else do
    let pInv ← multiplicativeInverse (p.umod n) n
    bsgs n.toNat (h * m).toInt (fun _ => false) (fun _ => leafV B) (cyclicRot h m n p pInv (h * m))
      (leafV A)

/-! ## Rotation keys -/

/-- The loop of `rotateAndReduceRotationIndices` without plaintexts, `RotationUtils.h:67-69`. -/
def accumIndices (period : Int) (shift : Nat) : List Int :=
  if 0 < shift then shift * period :: accumIndices period (shift / 2) else []
termination_by shift

/-- `rotateAndReduceRotationIndices`, `RotationUtils.h:62-87` (as a list; zero steps with
plaintexts divide by zero). -/
def rotationIndices (period : Int) (steps : Nat) (hasPlaintexts : Bool) : Option (List Int) :=
  if hasPlaintexts then
    if steps = 0 then none
    else
      let b := ceilSqrt steps
      let g := (steps + b - 1) / b
      some ((List.range' 1 (b - 1)).map (fun (i : Nat) => period * (i : Int)) ++
        (List.range' 1 (g - 1)).map (fun (j : Nat) => period * (j : Int) * (b : Int)))
  else some (accumIndices period (steps / 2))

/-- `normalizeRotation`, `RotationUtils.h:13-15`. -/
def normalizeRotation (r slots : Int) : Int := (r.tmod slots + slots).tmod slots

/-- The giant and baby step of a diagonal, `RotationUtils.h:27-29`, `49-51`. -/
def splitRotation (n1 slots d : Int) : Int × Int :=
  let r := normalizeRotation d slots
  (normalizeRotation (r.tdiv n1 * n1) slots, r.tmod n1)

/-- The loop of `findBestBSGSRatio`, `RotationUtils.h:24-38`, on natural `n1` with fuel. -/
def bestRatioLoop (diags : List Int) (slots maxRatio : Int) : Nat → Int → Int
  | 0, _ => 1
  | fuel + 1, n1 =>
    if n1 < slots then
      let s1 := (diags.map fun d => (splitRotation n1 slots d).1).dedup
      let s2 := (diags.map fun d => (splitRotation n1 slots d).2).dedup
      let nbN1 : Int := (s1.length : Int) - 1
      let nbN2 : Int := (s2.length : Int) - 1
      if 0 < nbN1 then
        if nbN2 = maxRatio * nbN1 then n1
        else if nbN2 > maxRatio * nbN1 then n1.tdiv 2
        else bestRatioLoop diags slots maxRatio fuel (n1 * 2)
      else bestRatioLoop diags slots maxRatio fuel (n1 * 2)
    else 1

/-- `findBestBSGSRatio`, `RotationUtils.h:21-39`; `1LL << logMaxRatio` for a nonnegative ratio, and
64 doublings exceed every slot count. -/
def findBestBSGSRatio (diags : List Int) (slots : Int) (logMaxRatio : Nat) : Int :=
  bestRatioLoop diags slots (2 ^ logMaxRatio) 64 1

/-- `lintransRotationIndices`, `RotationUtils.h:44-56`. -/
def lintransIndices (diags : List Int) (slots : Int) (logBSGS : Int) : List Int :=
  let n1 := if logBSGS < 0 then slots else findBestBSGSRatio diags slots logBSGS.toNat
  diags.flatMap fun d =>
    let (giant, baby) := splitRotation n1 slots d
    (if giant ≠ 0 then [giant] else []) ++ (if baby ≠ 0 then [baby] else [])

end Heir.Kernel
