import Verif.Loop
import Verif.NumTheory.Model
import Verif.ModArith.Model

/-!
# Model of `lib/Utils/Polynomial/{NTT,RNSPolynomial}.cpp` and of the emitted `fastNTT` loops

`uint64_t` values are naturals; none of the operations below leaves `[0, 2^64)` when the
inputs and the modulus are in that range, except where a reduction modulo `2^64` is written.
Asserts and out-of-bounds accesses give `none`.
-/

namespace Heir.NTT

open Heir.Loop Heir.NumTheory

/-! ## `NTT.cpp` -/

/-- `reverseBits`, `lib/Utils/Polynomial/NTT.cpp:24-31` (`uint32_t`, the shift wraps). -/
def reverseBits (n bitWidth : Nat) : Nat :=
  match bitWidth with
  | 0 => 0
  | k + 1 => ((reverseBits n k) * 2 % 2 ^ 32) ||| (n >>> k &&& 1)

/-- `modularMultiplication64`, `NTT.cpp:33-37`, 128-bit intermediate; modulus `0` undefined. -/
def modMul64 (a b m : Nat) : Option Nat := if m = 0 then none else some (a * b % m)

/-- `modularAddition64`, `NTT.cpp:39-42`. -/
def modAdd64 (u v m : Nat) : Option Nat :=
  if u < m ∧ v < m then some (if m - v ≤ u then u - (m - v) else u + v) else none

/-- `modularSubtraction64`, `NTT.cpp:44-47`. -/
def modSub64 (u v m : Nat) : Option Nat :=
  if u < m ∧ v < m then some (if u < v then m - (v - u) else u - v) else none

/-- The table of powers, `NTT.cpp:55-60` and `97-102`: state `(table, x)`. -/
def rootTable (n m root : Nat) : Option (List Nat) :=
  (forN n (fun i s => do
    let t ← put s.1 i s.2
    let x ← modMul64 s.2 root m
    some (t, x)) (List.replicate n 0, 1)).map (·.1)

/-- Body of the innermost loop of `nttInPlace`, `NTT.cpp:73-79`. -/
def nttBfly (m omega span i : Nat) (c : List Nat) : Option (List Nat) := do
  let u ← get c i
  let v ← get c (i + span)
  let uPrime ← modAdd64 u v m
  let c ← put c i uPrime
  let vSub ← modSub64 u v m
  let vP ← modMul64 vSub omega m
  put c (i + span) vP

/-- One iteration of the span loop, `NTT.cpp:69-81`. -/
def nttStage (n m : Nat) (table : List Nat) (span : Nat) (c : List Nat) : Option (List Nat) :=
  let numGroups := n / (2 * span)
  forN span (fun j c => do
    let omega ← get table (2 * j * numGroups)
    forN numGroups (fun group c => nttBfly m omega span (group * 2 * span + j) c) c) c

/-- The span loop of `nttInPlace`, `NTT.cpp:67-82`. -/
def nttStages (n m : Nat) (table : List Nat) (span : Nat) (c : List Nat) : Option (List Nat) :=
  if h : 1 ≤ span then do
    let c ← nttStage n m table span c
    nttStages n m table (span / 2) c
  else some c
termination_by span

/-- Pointwise scaling loop, `NTT.cpp:62-65`. -/
def scaleBy (n m : Nat) (table c : List Nat) : Option (List Nat) :=
  forN n (fun i c => do
    let v ← modMul64 (← get c i) (← get table i) m
    put c i v) c

/-- `nttInPlace`, `NTT.cpp:49-83`.  `n` is the length truncated to 32 bits. -/
def nttInPlace (c : List Nat) (m root : Nat) : Option (List Nat) :=
  let n := c.length % 2 ^ 32
  if n ≤ 1 then some c
  else if n &&& (n - 1) ≠ 0 then none
  else do
    let table ← rootTable n m root
    let c ← scaleBy n m table c
    nttStages n m table (n / 2) c

/-- Body of the innermost loop of `inttInPlace`, `NTT.cpp:110-115`. -/
def inttBfly (m omegaInv span i : Nat) (c : List Nat) : Option (List Nat) := do
  let u ← get c i
  let v ← get c (i + span)
  let vS ← modMul64 v omegaInv m
  let c ← put c i (← modAdd64 u vS m)
  put c (i + span) (← modSub64 u vS m)

/-- One iteration of the span loop of `inttInPlace`, `NTT.cpp:106-117`. -/
def inttStage (n m : Nat) (table : List Nat) (span : Nat) (c : List Nat) : Option (List Nat) :=
  let numGroups := n / (2 * span)
  forN span (fun j c => do
    let omegaInv ← get table (2 * j * numGroups)
    forN numGroups (fun group c => inttBfly m omegaInv span (group * 2 * span + j) c) c) c

/-- The span loop of `inttInPlace`, `NTT.cpp:104-118` (entered with `span ≥ 1`; `span = 0`
would not terminate and is `none`). -/
def inttStages (n m : Nat) (table : List Nat) (span : Nat) (c : List Nat) : Option (List Nat) :=
  if h : span < n then
    if h0 : 0 < span then do
      let c ← inttStage n m table span c
      inttStages n m table (span * 2) c
    else none
  else some c
termination_by n - span

/-- The final scaling loop of `inttInPlace`, `NTT.cpp:124-128`. -/
def scaleInv (n m nInv : Nat) (table c : List Nat) : Option (List Nat) :=
  forN n (fun i c => do
    let factor ← modMul64 (← get table i) nInv m
    let v ← modMul64 (← get c i) factor m
    put c i v) c

/-- `multiplicativeInverse` on 64-bit `APInt`s made from `uint64_t`s, `NTT.cpp:91-95`. -/
def inv64 (x m : Nat) : Option Nat :=
  (multiplicativeInverse (BitVec.ofNat 64 x) (BitVec.ofNat 64 m)).map BitVec.toNat

/-- `inttInPlace`, `NTT.cpp:85-129`. -/
def inttInPlace (c : List Nat) (m root : Nat) : Option (List Nat) :=
  let n := c.length % 2 ^ 32
  if n ≤ 1 then some c
  else if n &&& (n - 1) ≠ 0 then none
  else do
    let rootInv ← inv64 root m
    let table ← rootTable n m rootInv
    let c ← inttStages n m table 1 c
    let nInv ← inv64 n m
    scaleInv n m nInv table c

/-! ## `RNSPolynomial.cpp` -/

/-- `polynomial::Form`. -/
inductive Form | coeff | eval
  deriving DecidableEq, Repr

/-- `RNSPolynomial`, `RNSPolynomial.h:33-115`.  The flat limb-major array `data` is kept as
the list of its limbs (`data` is their concatenation); `getElement l c` is `limbs[l][c]`. -/
structure RNSPoly where
  limbs : List (List Nat)
  moduli : List Nat
  form : Form
  deriving DecidableEq, Repr

/-- The constructor's invariant, `RNSPolynomial.cpp:18-28`: at least one modulus and limbs of
equal length `n`. -/
def RNSPoly.WF (p : RNSPoly) (n : Nat) : Prop :=
  p.moduli ≠ [] ∧ p.limbs.length = p.moduli.length ∧ ∀ l ∈ p.limbs, l.length = n

/-- Loop over limbs pushing one result limb per iteration. -/
def mapLimbs {α β : Type} (f : α → Option β) : List α → Option (List β)
  | [] => some []
  | a :: as => do
    let b ← f a
    let bs ← mapLimbs f as
    some (b :: bs)

/-- Element addition in `RNSPolynomial::add`, `RNSPolynomial.cpp:42-47` (`uint64_t` wraps). -/
def addElem (m a b : Nat) : Nat :=
  let sum := (a + b) % 2 ^ 64
  if m ≤ sum then sum - m else sum

/-- Element subtraction in `RNSPolynomial::sub`, `RNSPolynomial.cpp:67-73` (wraps). -/
def subElem (m a b : Nat) : Nat :=
  let diff := if a < b then (a + m) % 2 ^ 64 else a
  (diff + (2 ^ 64 - b)) % 2 ^ 64

/-- `RNSPolynomial::add`, `RNSPolynomial.cpp:30-53`; asserts give `none`. -/
def RNSPoly.add (p q : RNSPoly) : Option RNSPoly :=
  if p.form = q.form ∧ p.moduli = q.moduli ∧ p.limbs.map List.length = q.limbs.map List.length then
    some ⟨List.zipWith (fun m (ab : List Nat × List Nat) => List.zipWith (addElem m) ab.1 ab.2)
      p.moduli (List.zip p.limbs q.limbs), p.moduli, p.form⟩
  else none

/-- `RNSPolynomial::sub`, `RNSPolynomial.cpp:55-79`. -/
def RNSPoly.sub (p q : RNSPoly) : Option RNSPoly :=
  if p.form = q.form ∧ p.moduli = q.moduli ∧ p.limbs.map List.length = q.limbs.map List.length then
    some ⟨List.zipWith (fun m (ab : List Nat × List Nat) => List.zipWith (subElem m) ab.1 ab.2)
      p.moduli (List.zip p.limbs q.limbs), p.moduli, p.form⟩
  else none

/-- `RNSPolynomial::scalarMul`, `RNSPolynomial.cpp:81-98`; the inner option is `std::nullopt`. -/
def RNSPoly.scalarMul (p : RNSPoly) (s : List Nat) : Option (Option RNSPoly) :=
  if s.length ≠ p.moduli.length then some none
  else if 0 ∈ p.moduli then none
  else some (some ⟨List.zipWith (fun (ms : Nat × Nat) l => l.map fun a => a * (ms.2 % ms.1) % ms.1)
    (List.zip p.moduli s) p.limbs, p.moduli, p.form⟩)

/-- Pointwise product of two limbs, `RNSPolynomial.cpp:113-119`. -/
def mulLimb (m : Nat) (a b : List Nat) : Option (List Nat) :=
  if m = 0 then (if a = [] then some [] else none)
  else some (List.zipWith (fun x y => x * y % m) a b)

/-- One limb of `toNtt()` without explicit roots, `RNSPolynomial.cpp:153-173`.
Outer `none`: undefined/assert; inner `none`: `std::nullopt`. -/
def toNttLimb (m : Nat) (c : List Nat) : Option (Option (List Nat)) := do
  match ← findPrimitive2nthRoot (BitVec.ofNat 64 m) c.length with
  | none => some none
  | some r => (nttInPlace c m r.toNat).map some

/-- One limb of `toCoefficient()`, `RNSPolynomial.cpp:208-229`. -/
def toCoeffLimb (m : Nat) (c : List Nat) : Option (Option (List Nat)) := do
  match ← findPrimitive2nthRoot (BitVec.ofNat 64 m) c.length with
  | none => some none
  | some r => (inttInPlace c m r.toNat).map some

/-- Limb loop with early `return std::nullopt`. -/
def mapLimbsOpt {α β : Type} (f : α → Option (Option β)) : List α → Option (Option (List β))
  | [] => some (some [])
  | a :: as => do
    match ← f a with
    | none => some none
    | some b =>
      match ← mapLimbsOpt f as with
      | none => some none
      | some bs => some (some (b :: bs))

/-- `RNSPolynomial::toNtt` without roots, `RNSPolynomial.cpp:137-177`.  `n` is `numCoeffs`. -/
def RNSPoly.toNtt (n : Nat) (p : RNSPoly) : Option (Option RNSPoly) :=
  if 0 < n ∧ n &&& (n - 1) ≠ 0 then some none
  else if p.form ≠ .coeff then none
  else do
    match ← mapLimbsOpt (fun ml : Nat × List Nat => toNttLimb ml.1 ml.2) (List.zip p.moduli p.limbs) with
    | none => some none
    | some ls => some (some ⟨ls, p.moduli, .eval⟩)

/-- `RNSPolynomial::toCoefficient` without roots, `RNSPolynomial.cpp:191-232`. -/
def RNSPoly.toCoefficient (n : Nat) (p : RNSPoly) : Option (Option RNSPoly) :=
  if 0 < n ∧ n &&& (n - 1) ≠ 0 then some none
  else if p.form ≠ .eval then none
  else do
    match ← mapLimbsOpt (fun ml : Nat × List Nat => toCoeffLimb ml.1 ml.2) (List.zip p.moduli p.limbs) with
    | none => some none
    | some ls => some (some ⟨ls, p.moduli, .coeff⟩)

/-- The `EVAL` branch of `RNSPolynomial::mul`, `RNSPolynomial.cpp:107-122`. -/
def RNSPoly.mulEval (p q : RNSPoly) : Option RNSPoly := do
  let ls ← mapLimbs (fun mab : Nat × (List Nat × List Nat) => mulLimb mab.1 mab.2.1 mab.2.2)
    (List.zip p.moduli (List.zip p.limbs q.limbs))
  some ⟨ls, p.moduli, p.form⟩

/-- `RNSPolynomial::mul`, `RNSPolynomial.cpp:100-135`. -/
def RNSPoly.mul (n : Nat) (p q : RNSPoly) : Option (Option RNSPoly) :=
  if p.moduli = q.moduli ∧ p.limbs.map List.length = q.limbs.map List.length ∧ p.form = q.form then
    match p.form with
    | .eval => (p.mulEval q).map some
    | .coeff => do
      match ← p.toNtt n with
      | none => some none
      | some pn =>
        match ← q.toNtt n with
        | none => some none
        | some qn =>
          let r ← pn.mulEval qn
          r.toCoefficient n
  else none

/-! ## Emitted NTT code, `PolynomialToModArith.cpp` -/

section Emitted

open Heir.ModArith

variable {w : Nat}

/-- `mulMod`, `PolynomialToModArith.cpp:1275-1284`, operands and modulus at the same width. -/
def mulMod (x y cmod : BitVec w) : Option (BitVec w) :=
  if cmod.setWidth (w * 2) = 0#(w * 2) then none
  else some (((x.setWidth (w * 2) * y.setWidth (w * 2)).umod (cmod.setWidth (w * 2))).setWidth w)

/-- `precomputeRoots`, `PolynomialToModArith.cpp:1287-1302`, one limb, storage width equal to
the modulus width (single-limb case of `getIntTensorType`). -/
def precomputeRoots (root cmod : BitVec w) (degree : Nat) : Option (List (BitVec w)) :=
  (forN degree (fun i (s : List (BitVec w) × BitVec w) => do
    let t ← put s.1 i s.2
    let x ← mulMod s.2 root cmod
    some (t, x)) (List.replicate degree 0#w, 1#w)).map (·.1)

/-- `APInt(indexBitWidth, index).reverseBits().zext(64)` at `PolynomialToModArith.cpp:1318`;
`APInt::reverseBits` moves bit `i` to bit `width - 1 - i`. -/
def apReverse (k index : Nat) : Nat := (BitVec.ofNat k index).reverse.toNat

/-- `computeReverseBitOrder`, `PolynomialToModArith.cpp:1304-1344`; `k = log2 degree`.  The
output tensor starts uninitialised (`tensor.empty`): a list of `none`s, each entry is written
once. -/
def bitRevLoop (k : Nat) (t : List (BitVec w)) : Option (List (Option (BitVec w))) :=
  forN (2 ^ k) (fun i out => do
    let elem ← get t (apReverse k i)
    put out i (some elem)) (List.replicate (2 ^ k) none)

/-- Reading the whole tensor back: undefined if an entry was never written. -/
def readAll : List (Option (BitVec w)) → Option (List (BitVec w)) := mapLimbs id

/-- `computeReverseBitOrder` with its result read. -/
def bitRev (k : Nat) (t : List (BitVec w)) : Option (List (BitVec w)) :=
  (bitRevLoop k t).bind readAll

/-- Body of the innermost emitted loop, `PolynomialToModArith.cpp:1501-1528`, with
`bflyGS`/`bflyCT` (1346-1360). -/
def emBody (inverse : Bool) (q : BitVec w) (roots : List (BitVec w)) (batch rootExp indexK indexJ : Nat)
    (target : List (BitVec w)) : Option (List (BitVec w)) := do
  let indexA := indexJ + indexK
  let a ← get target indexA
  let indexB := indexA + batch / 2
  let b ← get target indexB
  let root ← get roots ((2 * indexJ + 1) * rootExp)
  if inverse then
    let p ← lowerAdd q a b
    let d ← lowerSub q a b
    let m ← lowerMul q d root
    let t ← put target indexA p
    put t indexB m
  else
    let rb ← lowerMul q b root
    let p ← lowerAdd q a rb
    let m ← lowerSub q a rb
    let t ← put target indexA p
    put t indexB m

/-- One stage, `PolynomialToModArith.cpp:1475-1532`. -/
def emStage (inverse : Bool) (q : BitVec w) (roots : List (BitVec w)) (n batch rootExp : Nat)
    (t : List (BitVec w)) : Option (List (BitVec w)) :=
  forN (n / batch) (fun index t =>
    forN (batch / 2) (fun j t => emBody inverse q roots batch rootExp (batch * index) j t) t) t

/-- The stage loop, `PolynomialToModArith.cpp:1468-1543`: state `(tensor, batchSize, rootExp)`. -/
def emStages (inverse : Bool) (q : BitVec w) (roots : List (BitVec w)) (n stages : Nat)
    (s : List (BitVec w) × Nat × Nat) : Option (List (BitVec w) × Nat × Nat) :=
  forN stages (fun _ s => do
    let t ← emStage inverse q roots n s.2.1 s.2.2 s.1
    if inverse then some (t, s.2.1 / 2, s.2.2 * 2) else some (t, s.2.1 * 2, s.2.2 / 2)) s

/-- `fastNTT<false>`, `PolynomialToModArith.cpp:1374-1570`, degree `2^k`; `mod_arith.reduce`
on the input first (1450). -/
def fastNTT (k : Nat) (q root : BitVec w) (input : List (BitVec w)) : Option (List (BitVec w)) := do
  let n := 2 ^ k
  let roots ← precomputeRoots root q n
  let init ← mapLimbs (lowerReduce q) input
  let r ← emStages false q roots n k (init, 2, n / 2)
  some r.1

/-- `fastNTT<true>`, `PolynomialToModArith.cpp:1374-1570`, with the final multiplication by
the inverse of the degree (1546-1567).  `APInt(width, degree)` asserts that the degree fits. -/
def fastINTT (k : Nat) (q root : BitVec w) (input : List (BitVec w)) : Option (List (BitVec w)) := do
  let n := 2 ^ k
  let roots ← precomputeRoots root q n
  let init ← mapLimbs (lowerReduce q) input
  let r ← emStages true q roots n k (init, n, 1)
  if 2 ^ w ≤ n then none else
  let nInv ← multiplicativeInverse (BitVec.ofNat w n) q
  mapLimbs (fun x => lowerMul q x nInv) r.1

/-- `ConvertNTT`, `PolynomialToModArith.cpp:1588-1639`. -/
def emittedNTT (k : Nat) (q root : BitVec w) (input : List (BitVec w)) : Option (List (BitVec w)) := do
  let t ← bitRev k input
  fastNTT k q root t

/-- `ConvertINTT`, `PolynomialToModArith.cpp:1640-1691`. -/
def emittedINTT (k : Nat) (q root : BitVec w) (input : List (BitVec w)) : Option (List (BitVec w)) := do
  let t ← fastINTT k q root input
  bitRev k t

end Emitted

end Heir.NTT
