import Mathlib.Data.Rat.Floor
import Mathlib.Data.Nat.Prime.Basic
import Mathlib.NumberTheory.PrimesCongruentOne

/-!
# Model of the choice of ring dimension and moduli

`lib/Parameters/{RLWESecurityParams,RLWEParams}.cpp`, `lib/Parameters/{BGV,CKKS}/Params.cpp` and the
sizes that `lib/Transforms/GenerateParam/GenerateParam{BGV,BFV}.cpp` ask for.

The four searches for primes are functions of OpenFHE; they are modelled by what they document: the
next prime of the form `k * m + 1` in a direction, for which the test of Miller and Rabin is taken to
be exact.  `none` is an exception, a failed assertion, undefined behaviour or a loop that does not
end.  Doubles are rationals, and logarithms are exact: truncating the sum of the logarithms of the
moduli to `int` gives `Nat.log 2` of their product.
-/

namespace Heir.Params

/-- `rlweSecurityParam128BitClassic`, `RLWESecurityParams.cpp:12-15`. -/
def table : List (Nat × Nat) :=
  [(1024, 26), (2048, 53), (4096, 106), (8192, 214), (16384, 430), (32768, 868), (65536, 1747),
    (131072, 3523)]

/-- `computeRingDim`, `RLWESecurityParams.cpp:17-28`. -/
def computeRingDim (logPQ minRingDim : Nat) : Option Nat :=
  (table.find? fun e => decide (minRingDim ≤ e.1) && decide (logPQ ≤ e.2)).map (·.1)

/-- `computeDnum`, `RLWEParams.cpp:22-30`. -/
def computeDnum (level : Nat) : Nat := if 3 < level then 3 else if 0 < level then 2 else 1

/-- `ceil(a / b)`. -/
def ceilDiv (a b : Nat) : Nat := (a + b - 1) / b

/-! ### The searches of OpenFHE -/

/-- The least prime of the form `k * m + 1` above `x`. -/
noncomputable def above (m x : Nat) : Nat :=
  if h : m ≠ 0 then Nat.find (Nat.exists_prime_gt_modEq_one x h) else 0

/-- `NextPrime(x, m)` for `x` of the form `k * m + 1`; an overflow of 64 bits throws. -/
noncomputable def nextPrime (x m : Nat) : Option Nat :=
  if above m x < 2 ^ 64 then some (above m x) else none

/-- `FirstPrime(n, m)`: the first one with more than `n` bits; more than 60 bits throw. -/
noncomputable def firstPrime (n m : Nat) : Option Nat :=
  if n ≤ 60 then nextPrime (2 ^ n) m else none

/-- `PreviousPrime(x, m)` for `x` of the form `k * m + 1`; throws if there is none. -/
def prevPrime (x m : Nat) : Option Nat :=
  ((List.range x).filter fun p => decide (p.Prime) && decide (p % m = 1)).getLast?

/-- `LastPrime(n, m)`: the last one with `n` bits. -/
def lastPrime (n m : Nat) : Option Nat :=
  if n ≤ 60 then (prevPrime (2 ^ n) m).filter fun p => decide (2 ^ (n - 1) ≤ p) else none

/-! ### `findPrime` -/

/-- The loop over `NextPrime`, `RLWEParams.cpp:57-77`, from a prime that was found; the first
argument bounds the number of rounds. -/
noncomputable def skip (m : Nat) (existing : List Nat) : Nat → Nat → Option Nat
  | 0, _ => none
  | k + 1, p => if p ∈ existing then (nextPrime p m).bind (skip m existing k) else some p

/-- The body of the outer loop, `RLWEParams.cpp:53-77`. -/
noncomputable def tryBits (m : Nat) (existing : List Nat) (n : Nat) : Option Nat :=
  (firstPrime n m).bind (skip m existing (existing.length + 1))

/-- The outer loop, `RLWEParams.cpp:52-81`: an exception means one more bit. -/
noncomputable def findLoop (m : Nat) (existing : List Nat) : Nat → Nat → Option Nat
  | 0, _ => none
  | k + 1, n =>
    match tryBits m existing n with
    | some p => some p
    | none => findLoop m existing k (n + 1)

/-- `findPrime`, `RLWEParams.cpp:50-84`. -/
noncomputable def findPrime (n ringDim : Nat) (existing : List Nat) : Option Nat :=
  findLoop (2 * ringDim) existing (80 - n) n

/-- The loops over the sizes, `RLWEParams.cpp:125-136` and `CKKS/Params.cpp:202-206`. -/
noncomputable def findPrimes (ringDim : Nat) : List Nat → List Nat → Option (List Nat)
  | [], _ => some []
  | n :: ns, existing =>
    (findPrime n ringDim existing).bind fun p =>
      (findPrimes ringDim ns (existing ++ [p])).map (p :: ·)

/-! ### Scheme parameters -/

/-- `RLWESchemeParam`; the logarithms of the moduli are left out. -/
structure Scheme where
  ringDim : Nat
  level : Nat
  dnum : Nat
  q : List Nat
  p : List Nat
deriving DecidableEq, Repr

/-- The loop that generates moduli until the ring dimension is the one for their product,
`RLWEParams.cpp:109-144` and `CKKS/Params.cpp:189-220`; the argument bounds the rounds. -/
def settle (gen : Nat → Option (List Nat × List Nat)) (minRingDim : Nat) :
    Nat → Nat → Option (Nat × List Nat × List Nat)
  | 0, _ => none
  | k + 1, ringDim =>
    (gen ringDim).bind fun r =>
      (computeRingDim (Nat.log 2 (r.1.prod * r.2.prod)) minRingDim).bind fun ringDim' =>
        if ringDim' = ringDim then some (ringDim, r) else settle gen minRingDim k ringDim'

/-- The sizes without a fraction, as `findPrime` takes an `int`; at least 20,
`RLWEParams.cpp:92-97`. -/
def sizes (logqi : List ℚ) : List ℚ := logqi.map fun s => if s < 20 then 20 else s

/-- `*std::max_element`. -/
def maxSize : List ℚ → ℚ
  | [] => 0
  | s :: ss => ss.foldl (fun a b => if a < b then b else a) s

/-- The moduli for a ring dimension, `RLWEParams.cpp:111-136`. -/
noncomputable def genRlwe (logqi : List ℚ) (t ringDim : Nat) : Option (List Nat × List Nat) :=
  let start := if t ≠ 0 then [t] else []
  let qs := sizes logqi
  (findPrimes ringDim (qs.map fun s => ⌊s⌋.toNat) start).bind fun q =>
    (findPrimes ringDim
      (List.replicate (ceilDiv qs.length (computeDnum (qs.length - 1))) ⌊maxSize qs⌋.toNat)
      (start ++ q)).map fun p => (q, p)

/-- `getConcreteRLWESchemeParam`, `RLWEParams.cpp:86-158`. -/
noncomputable def getConcrete (logqi : List ℚ) (minRingDim t rounds : Nat) : Option Scheme :=
  if logqi = [] then none
  else
    let qs := sizes logqi
    let dnum := computeDnum (qs.length - 1)
    (computeRingDim ⌊qs.sum + ceilDiv qs.length dnum * maxSize qs⌋.toNat minRingDim).bind fun n =>
      (settle (genRlwe logqi t) minRingDim rounds n).map fun r =>
        ⟨r.1, qs.length - 1, dnum, r.2.1, r.2.2⟩

/-- `getConservativeRLWESchemeParam`, `RLWEParams.cpp:32-48`: ring dimension, number of digits,
number of ciphertext moduli, number of special moduli; all have 60 bits. -/
def getConservative (level minRingDim : Nat) : Option (Nat × Nat × Nat × Nat) :=
  let dnum := computeDnum level
  let np := ceilDiv (level + 1) dnum
  (computeRingDim (60 * (level + 1 + np)) minRingDim).map fun n => (n, dnum, level + 1, np)

/-! ### CKKS -/

/-- `moduliQGenerationOpenFHEFixed`, `CKKS/Params.cpp:37-53`: the moduli below the last one,
alternately the previous and the next prime.  `done`: those that there are, the last index at the
end. -/
noncomputable def fixedSteps (m : Nat) : Nat → Nat → Nat → Nat → List Nat → Option (List Nat)
  | 0, _, _, _, done => some done
  | k + 1, cnt, qPrev, qNext, done =>
    if cnt % 2 = 0 then
      (prevPrime qPrev m).bind fun p => fixedSteps m k (cnt + 1) p qNext (p :: done)
    else
      (nextPrime qNext m).bind fun p => fixedSteps m k (cnt + 1) qPrev p (p :: done)

/-- The loop over `PreviousPrime`, `CKKS/Params.cpp:105-115`. -/
def skipDown (m : Nat) (existing : List Nat) : Nat → Nat → Option Nat
  | 0, _ => none
  | k + 1, x => (prevPrime x m).bind fun p => if p ∈ existing then skipDown m existing k p else some p

/-- `moduliQGenerationReducedError`, `CKKS/Params.cpp:98-136`.  The outer loop repeats the inner one,
which hides its index and reads only what it has written before; it is run once here.  Differences
of `NativeInteger`s stop at zero. -/
noncomputable def reducedSteps (m : Nat) : Nat → Nat → ℚ → List Nat → Option (List Nat)
  | 0, _, _, done => some done
  | k + 1, cnt, sf, done =>
    let sf' := sf ^ 2 / (done.headD 1 : ℚ)
    let s := ⌊sf' + 1 / 2⌋.toNat
    (if cnt % 2 = 0 then skipDown m done (done.length + 1) (s - m - s % m + 1)
     else (nextPrime (s + m - s % m + 1) m).bind (skip m done (done.length + 1))).bind fun p =>
      reducedSteps m k (cnt + 1) sf' (p :: done)

/-- The first modulus, `CKKS/Params.cpp:55-68`. -/
noncomputable def firstModulus (m logFirst logScale top : Nat) (done : List Nat) : Option Nat :=
  if logFirst = logScale then nextPrime top m
  else (lastPrime logFirst m).bind fun p => if p ∈ done then nextPrime top m else some p

/-- `moduliQGeneration*`, `CKKS/Params.cpp:20-70` and `75-157`, for `levels + 1` moduli. -/
noncomputable def moduli (reduced : Bool) (logFirst logScale levels ringDim : Nat) :
    Option (List Nat) :=
  let m := 2 * ringDim
  (firstPrime logScale m).bind fun q =>
    (if levels = 0 then some []
     else if reduced then reducedSteps m (levels - 1) 0 q [q]
     else fixedSteps m (levels - 1) 0 q q [q]).bind fun done =>
      (firstModulus m logFirst logScale (done.foldl max q) done).map (· :: done)

/-- The number of special moduli, `CKKS/Params.cpp:169-178`. -/
def numSpecial (logFirst logScale levels : Nat) : Nat :=
  ceilDiv (ceilDiv (logFirst + logScale * levels) (computeDnum levels)) 60

/-- The moduli for a ring dimension, `CKKS/Params.cpp:189-206`. -/
noncomputable def genCkks (reduced : Bool) (logFirst logScale levels ringDim : Nat) :
    Option (List Nat × List Nat) :=
  (moduli reduced logFirst logScale levels ringDim).bind fun q =>
    (findPrimes ringDim (List.replicate (numSpecial logFirst logScale levels) 60) q).map
      fun p => (q, p)

/-- `getConcreteSchemeParam`, `CKKS/Params.cpp:160-236`. -/
noncomputable def getCkks (reduced : Bool) (logFirst logScale levels minSlots rounds : Nat) :
    Option Scheme :=
  (computeRingDim (logFirst + logScale * levels + 60 * numSpecial logFirst logScale levels)
    (2 * minSlots)).bind fun n =>
      (settle (genCkks reduced logFirst logScale levels) (2 * minSlots) rounds n).map fun r =>
        ⟨r.1, levels + 1, computeDnum levels, r.2.1, r.2.2⟩

/-! ### The attribute -/

/-- `SchemeParamAttr`: logarithm of the ring dimension and the moduli. -/
structure Attr where
  logN : Nat
  q : List Nat
  p : List Nat
deriving DecidableEq, Repr

/-- `GenerateParamBGV.cpp:143-155`, `GenerateParamCKKS.cpp:178-190`. -/
def toAttr (s : Scheme) : Attr := ⟨Nat.log 2 s.ringDim, s.q, s.p⟩

/-- `getSchemeParamFromAttr`, `BGV/Params.cpp:37-65`, `CKKSAttributes.cpp:15-41`; without special
moduli the quotient is infinite. -/
def ofAttr (a : Attr) : Option Scheme :=
  if a.p = [] ∨ a.q = [] then none
  else some ⟨2 ^ a.logN, a.q.length - 1, ceilDiv a.q.length a.p.length, a.q, a.p⟩

/-! ### Sizes from noise bounds -/

/-- `levelToGap`, `GenerateParamBGV.cpp:55-93`: the largest gap of each level, a list without
repeated levels. -/
def updateGap (m : List (Nat × ℚ)) (level : Nat) (gap : ℚ) : List (Nat × ℚ) :=
  match m with
  | [] => [(level, gap)]
  | (l, g) :: rest => if l = level then (l, max g gap) :: rest else (l, g) :: updateGap rest level gap

/-- All gaps. -/
def levelToGap (gaps : List (Nat × ℚ)) : List (Nat × ℚ) :=
  gaps.foldl (fun m e => updateGap m e.1 e.2) []

/-- `firstModSize`, `GenerateParamBGV.cpp:80-111`, from the bounds at level zero. -/
def firstModSize (bounds : List ℚ) : Int := bounds.foldl (fun a b => max a (2 + ⌈b⌉)) 0

/-- `qiSize`, `GenerateParamBGV.cpp:113-122`; writing past the end is undefined. -/
def writeSizes : List (Nat × ℚ) → List Int → Option (List Int)
  | [], v => some v
  | (l, g) :: rest, v => if l < v.length then writeSizes rest (v.set l (1 + ⌈g⌉)) else none

/-- `generateParamByGap`, `GenerateParamBGV.cpp:48-138`, up to the call of
`getConcreteSchemeParam`. -/
def gapSizes (gaps : List (Nat × ℚ)) (bounds : List ℚ) : Option (List Int) :=
  let m := levelToGap gaps
  writeSizes m ((List.replicate (m.length + 1) 0).set 0 (firstModSize bounds))

/-- `generateParamByMaxNoise`, `GenerateParamBFV.cpp:107-119`: `logQ` bits in moduli of `modBits`. -/
def splitBits (modBits : Int) : Nat → Int → List Int
  | 0, _ => []
  | k + 1, logQ => min modBits logQ :: splitBits modBits k (logQ - modBits)

/-- The sizes of the moduli, `GenerateParamBFV.cpp:113-119`. -/
def noiseSizes (modBits : Nat) (logQ : Int) : List Int :=
  splitBits modBits ((logQ + modBits - 1) / modBits).toNat logQ

end Heir.Params
