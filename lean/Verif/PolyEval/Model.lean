import Verif.PolyClass.Model
import Mathlib.Data.Nat.Log
import Mathlib.Data.Nat.Sqrt

/-!
# Model of the polynomial evaluation DAG builders

`lib/Utils/Polynomial/{Horner.h,PatersonStockmeyer.h,ChebyshevDecomposition.cpp,`
`ChebyshevPatersonStockmeyer.h}`.  The builders return arithmetic DAGs.  Coefficients range over
a commutative ring (rounding of `double` is not modelled).  `std::map<int64_t, double>` is a list
of `(degree, coefficient)` with increasing degrees.  Splat and scalar constants are one
constructor, the tensor flag only selects between the two.  `none` is a failed assertion, a null
dereference or an out-of-bounds access, unless said otherwise.
-/

namespace Heir.PolyEval

open Heir.Loop Heir.PolyClass

variable {R : Type} [CommRing R] [DecidableEq R]

/-- The part of `ArithmeticDagNode` used by the builders (`lib/Kernel/ArithmeticDag.h`), as trees:
sharing does not change values or depths, it is the subject of `Verif.Dag`. -/
inductive Node (R : Type) where
  | leaf
  | const (c : R)
  | add (a b : Node R)
  | sub (a b : Node R)
  | mul (a b : Node R)
deriving DecidableEq, Repr

/-- `EvalVisitorImpl`, `lib/Utils/Polynomial/PolynomialTestVisitors.h:35-77`; `x` is the value of
the leaf. -/
def eval (x : R) : Node R → R
  | .leaf => x
  | .const c => c
  | .add a b => eval x a + eval x b
  | .sub a b => eval x a - eval x b
  | .mul a b => eval x a * eval x b

/-- `MultiplicativeDepthVisitorImpl`, `PolynomialTestVisitors.h:101-137`. -/
def depth : Node R → Int
  | .leaf => 0
  | .const _ => -1
  | .add a b => max (depth a) (depth b)
  | .sub a b => max (depth a) (depth b)
  | .mul a b =>
    if depth a < 0 then depth b
    else if depth b < 0 then depth a
    else max (depth a) (depth b) + 1

/-! ## Horner -/

/-- The loop `i = n - 1, …, 0`, `Horner.h:45-54`. -/
def hornerLoop (x : Node R) (p : Terms R) : Nat → Node R → Node R
  | 0, r => r
  | i + 1, r =>
    match coeffAt p i with
    | some c => hornerLoop x p i (.add (.mul r x) (.const c))
    | none => hornerLoop x p i (.mul r x)

/-- `hornerMonomialPolynomialEvaluation`, `Horner.h:18-57`. -/
def horner (x : Node R) (p : Terms R) : Node R :=
  match p.getLast? with
  | none => .const 0
  | some l => hornerLoop x p l.1 (.const l.2)

/-! ## Paterson-Stockmeyer in the monomial basis -/

/-- `computePowers`, `ChebyshevPatersonStockmeyer.h:99-122`; iteration `t` has `i = t + 2`. -/
def computePowers (x : Node R) (k : Nat) : Option (List (Node R)) :=
  forN (k - 1) (fun t r => do
    let i := t + 2
    let a ← get r (i / 2)
    let b ← get r (if i % 2 = 0 then i / 2 else i / 2 + 1)
    some (r ++ [.mul a b])) (if k ≥ 1 then [.const 1, x] else [.const 1])

/-- `acc = acc ? add(acc, term) : term`, `PatersonStockmeyer.h:77-81`,
`ChebyshevPatersonStockmeyer.h:328-332`. -/
def accAdd (acc : Option (Node R)) (term : Node R) : Option (Node R) :=
  match acc with
  | none => some term
  | some a => some (.add a term)

/-- The term of power index `t`, `PatersonStockmeyer.h:64-75`. -/
def chunkTerm (pw : List (Node R)) (c : R) (t : Nat) : Option (Node R) :=
  if t = 0 then some (.const c)
  else do
    let y ← get pw t
    some (.mul (.const c) y)

/-- The loop over one chunk, `PatersonStockmeyer.h:60-83`; `t` is `powerIndex`, `n` iterations
remain, a null pointer is `none` inside of the outer `some`. -/
def chunkLoop (p : Terms R) (pw : List (Node R)) (low : Nat) :
    Nat → Nat → Option (Node R) → Option (Option (Node R))
  | 0, _, acc => some acc
  | n + 1, t, acc =>
    match coeffAt p (low + t) with
    | none => chunkLoop p pw low n (t + 1) acc
    | some c => do
      let term ← chunkTerm pw c t
      chunkLoop p pw low n (t + 1) (accAdd acc term)

/-- Chunk `i`, `PatersonStockmeyer.h:54-89`. -/
def chunk (p : Terms R) (pw : List (Node R)) (k d i : Nat) : Option (Node R) := do
  let high := min ((i + 1) * k - 1) d
  let v ← chunkLoop p pw (i * k) (high + 1 - i * k) 0 none
  some (v.getD (.const 0))

/-- The final loop `i = n - 1, …, 0`, `PatersonStockmeyer.h:92-97`. -/
def combineChunks (y : Node R) (cs : List (Node R)) : Nat → Node R → Option (Node R)
  | 0, r => some r
  | i + 1, r => do
    let c ← get cs i
    combineChunks y cs i (.add (.mul r y) c)

/-- The chunks `0, …, m - 1`, `PatersonStockmeyer.h:54-90`. -/
def chunks (p : Terms R) (pw : List (Node R)) (k d m : Nat) : Option (List (Node R)) :=
  forN m (fun i cs => do
    let c ← chunk p pw k d i
    some (cs ++ [c])) []

/-- `std::ceil(std::sqrt(n))` in exact arithmetic, `PatersonStockmeyer.h:45`. -/
def ceilSqrt (n : Nat) : Nat := if n.sqrt * n.sqrt = n then n.sqrt else n.sqrt + 1

/-- Evaluation with a given chunk size, `PatersonStockmeyer.h:47-99`; `m` is
`ceil((maxDegree + 1) / k)`. -/
def psWith (x : Node R) (p : Terms R) (k : Nat) : Option (Node R) :=
  match p.getLast? with
  | none => some (.const 0)
  | some l => do
    let pw ← computePowers x k
    let m := (l.1 + k) / k
    let cs ← chunks p pw k l.1 m
    let r ← cs.getLast?
    let y ← get pw k
    combineChunks y cs (m - 1) r

/-- `patersonStockmeyerMonomialPolynomialEvaluation`, `PatersonStockmeyer.h:20-100`. -/
def patersonStockmeyer (x : Node R) (p : Terms R) : Option (Node R) :=
  psWith x p (max (ceilSqrt ((p.getLast?.map Prod.fst).getD 0)) 1)

/-! ## Division and decomposition in the Chebyshev basis -/

/-- The loop of `dividePolynomials`, `ChebyshevDecomposition.cpp:20-40`, for
`i = k + c - 1, …, k`. -/
def divLoop (k : Nat) : Nat → List R → List R → Option (List R × List R)
  | 0, q, p => some (q, p)
  | c + 1, q, p => do
    let v ← get p (k + c)
    if v = 0 then divLoop k c q p
    else if c = 0 then do
      let q ← put q 0 v
      divLoop k c q p
    else do
      let q ← put q c (v * 2)
      let a := ((k + c : Nat) - (2 * k : Nat) : Int).natAbs
      let u ← get p a
      let p ← put p a (u - v)
      let p ← put p (k + c) 0
      divLoop k c q p

/-- `dividePolynomials`, `ChebyshevDecomposition.cpp:14-43`. -/
def divide (p : List R) (k : Nat) : Option (List R × List R) :=
  if p.length ≤ k then some ([], p)
  else do
    let (q, r) ← divLoop k (p.length - k) (List.replicate (p.length - k) 0) p
    some (q, r.take k)

/-- `decompose`, `ChebyshevDecomposition.cpp:46-56`, with an iteration budget; `none` also stands
for an exhausted budget. -/
def decompose (k : Nat) : Nat → List R → Option (List (List R))
  | _, [] => some []
  | 0, _ :: _ => none
  | fuel + 1, p => do
    let (q, r) ← divide p k
    let rest ← decompose k fuel q
    some (r :: rest)

/-! ## Chebyshev polynomials of the input -/

/-- `while (temp > 1) { temp >>= 1; k++; }`, `ChebyshevPatersonStockmeyer.h:85-90`. -/
def shiftLoop (temp k : Nat) : Nat :=
  if 1 < temp then shiftLoop (temp >>> 1) (k + 1) else k
termination_by temp
decreasing_by rw [Nat.shiftRight_eq_div_pow]; omega

/-- `splitDegree`, `ChebyshevPatersonStockmeyer.h:75-95`, for positive arguments. -/
def splitDegree (n : Nat) : Nat × Nat :=
  if n &&& (n - 1) = 0 then (n / 2, n / 2)
  else
    let a := 2 ^ shiftLoop (n - 1) 0 - 1
    (a, n - a)

/-- `std::map<int64_t, std::shared_ptr<NodeTy>>`. -/
abbrev Cache (R : Type) := Nat → Option (Node R)

/-- `cache[n] = v`. -/
def Cache.insert (c : Cache R) (n : Nat) (v : Node R) : Cache R := fun i => if i = n then some v else c i

/-- `genChebyshevPowerRecursive`, `ChebyshevPatersonStockmeyer.h:138-196`, with a recursion
budget; `none` also stands for an exhausted budget. -/
def genPower (x : Node R) : Nat → Nat → Cache R → Option (Node R × Cache R)
  | 0, _, _ => none
  | fuel + 1, n, cache =>
    match cache n with
    | some v => some (v, cache)
    | none =>
      if n = 0 then some (.const 1, cache.insert 0 (.const 1))
      else if n = 1 then some (x, cache.insert 1 x)
      else do
        let (a, b) := splitDegree n
        let (tA, cache) ← genPower x fuel a cache
        let (tB, cache) ← genPower x fuel b cache
        let tN := Node.mul tA tB
        let tN := Node.add tN tN
        let c := ((a : Int) - b).natAbs
        if c = 0 then
          let tN := Node.sub tN (.const 1)
          some (tN, cache.insert n tN)
        else do
          let (tC, cache) ← genPower x fuel c cache
          let tN := Node.sub tN tC
          some (tN, cache.insert n tN)

/-- `genChebyshevPowersRecursive`, `ChebyshevPatersonStockmeyer.h:207-223`; degree `i` gets the
budget `i + 1`. -/
def genPowers (x : Node R) (k : Nat) : Option (Cache R) := do
  let cache ← forN k (fun t cache => do
    let (_, cache) ← genPower x (t + 2) (t + 1) cache
    some cache) (fun _ => none)
  some (cache.insert 0 (.const 1))

/-- `computeChebyshevPolynomialValues`, `ChebyshevPatersonStockmeyer.h:228-258`. -/
def chebValues (k : Nat) : Option (List (Node R)) :=
  forN (k - 1) (fun t r => do
    let i := t + 2
    if i % 2 = 0 then do
      let a ← get r (i / 2)
      some (r ++ [.sub (.add (.mul a a) (.mul a a)) (.const 1)])
    else do
      let a ← get r (i / 2)
      let b ← get r (i / 2 + 1)
      some (r ++ [.sub (.add (.mul a b) (.mul a b)) .leaf])) (if k ≥ 1 then [.const 1, .leaf] else [.const 1])

/-! ## Paterson-Stockmeyer in the Chebyshev basis -/

/-- `optimalSplit`, `ChebyshevPatersonStockmeyer.h:50-60`, for `logDegree ≥ 1`. -/
def optimalSplit (logDegree : Nat) : Nat :=
  let s := logDegree >>> 1
  let a : Int := 2 ^ s + 2 ^ (logDegree - s) + logDegree - s - 3
  let b : Int := 2 ^ (s + 1) + 2 ^ (logDegree - s - 1) + logDegree - s - 4
  if a > b then s + 1 else s

/-- The terms of a baby step, `ChebyshevPatersonStockmeyer.h:316-334`; `small c` is
`abs(c) < minCoeffThreshold`, `none` inside of the outer `some` is a null pointer. -/
def babyLoop (small : R → Bool) (vals : Cache R) : Nat → List R → Option (Node R) → Option (Option (Node R))
  | _, [], acc => some acc
  | j, c :: cs, acc =>
    if small c then babyLoop small vals (j + 1) cs acc
    else do
      let t ← vals j
      let term := Node.mul (.const c) t
      babyLoop small vals (j + 1) cs (accAdd acc term)

/-- One baby step, `ChebyshevPatersonStockmeyer.h:309-336`. -/
def babyStep (small : R → Bool) (vals : Cache R) (cs : List R) : Option (Option (Node R)) :=
  if cs.any (fun c => !small c) then babyLoop small vals 0 cs none else some none

/-- All baby steps. -/
def babySteps (small : R → Bool) (vals : Cache R) : List (List R) → Option (List (Option (Node R)))
  | [] => some []
  | b :: bs => do
    let v ← babyStep small vals b
    let vs ← babySteps small vals bs
    some (v :: vs)

/-- `combined` of two neighbours, `ChebyshevPatersonStockmeyer.h:362-369`. -/
def pairUp (y : Node R) (a b : Option (Node R)) : Option (Node R) :=
  match b with
  | none => a
  | some b => some (match a with
    | none => .mul b y
    | some a => .add a (.mul b y))

/-- One round, `ChebyshevPatersonStockmeyer.h:359-370`. -/
def combineRound (y : Node R) : List (Option (Node R)) → List (Option (Node R))
  | [] => []
  | [a] => [a]
  | a :: b :: t => pairUp y a b :: combineRound y t

omit [CommRing R] [DecidableEq R] in
theorem combineRound_length (y : Node R) : ∀ l : List (Option (Node R)), (combineRound y l).length = (l.length + 1) / 2
  | [] => by simp [combineRound]
  | [a] => by simp [combineRound]
  | a :: b :: t => by simp [combineRound, combineRound_length y t]; omega

/-- The `while` loop, `ChebyshevPatersonStockmeyer.h:358-374`. -/
def combineLoop (y : Node R) (l : List (Option (Node R))) : List (Option (Node R)) :=
  if 1 < l.length then combineLoop (.mul y y) (combineRound y l) else l
termination_by l.length
decreasing_by rw [combineRound_length]; omega

/-- `patersonStockmeyerChebyshevPolynomialEvaluation`, `ChebyshevPatersonStockmeyer.h:271-377`.
The result `some none` is the null pointer; `std::bit_width` of the positive degree is its
logarithm plus one. -/
def psChebyshev (small : R → Bool) (c : List R) : Option (Option (Node R)) :=
  match c with
  | [] => some none
  | [c0] => if small c0 then some none else some (some (.const c0))
  | c => do
    let k := 2 ^ optimalSplit (Nat.log 2 (c.length - 1) + 1)
    let blocks ← decompose k c.length c
    let vals ← genPowers .leaf k
    let steps ← babySteps small vals blocks
    let y ← vals k
    (combineLoop y steps)[0]?

end Heir.PolyEval
