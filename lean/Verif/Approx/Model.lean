import Verif.PolyEval.Model
import Mathlib.Analysis.SpecialFunctions.Trigonometric.Basic
import Mathlib.Analysis.SpecialFunctions.Log.Base
import Mathlib.Analysis.SpecialFunctions.Pow.Real

/-! # Approximation of functions by polynomials

`lib/Utils/Approximation/Chebyshev.cpp`, `lib/Utils/Approximation/CaratheodoryFejer.cpp`,
`lib/Transforms/PolynomialApproximation/PolynomialApproximation.cpp` and the rescaling of
`lib/Transforms/LowerPolynomialEval/Patterns.cpp`. Doubles are real numbers and the library functions
are exact. -/

namespace Heir.Approx

open scoped Real

/-! ## Interpolation -/

/-- `getChebyshevPoints`, `Chebyshev.cpp:27-55`; the variable of the loop is `2 i - m`. -/
noncomputable def chebPoints (n : Nat) : List ℝ :=
  if n = 0 then []
  else if n = 1 then [0]
  else (List.range n).map fun i : Nat => Real.sin (π * (2 * i - (n - 1 : ℕ)) / (2 * (n - 1 : ℕ)))

/-- `ifftInput`, `Chebyshev.cpp:84-94`. -/
def ifftInput (v : List ℝ) : List ℝ := (v.drop 1).reverse ++ v.dropLast

/-- The real part of an entry of `ifftResult`, `Chebyshev.cpp:108-120`: the backward transform with the
factor `1 / fftLen`. -/
noncomputable def ifftReal (u : List ℝ) (k : Nat) : ℝ :=
  (∑ l ∈ Finset.range u.length,
    ((u.getD l 0 : ℝ) : ℂ) * Complex.exp (2 * π * Complex.I * k * l / u.length) * (1 / u.length : ℝ)).re

/-- `isEven`, `Chebyshev.cpp:72-74`. -/
def isEven (v : List ℝ) : Prop := ∀ i < v.length / 2, v.getD i 0 = v.getD (v.length - 1 - i) 0

/-- `isOdd`, `Chebyshev.cpp:76-82`: the value in the middle is not looked at. -/
def isOdd (v : List ℝ) : Prop := ∀ i < v.length / 2, v.getD i 0 = -v.getD (v.length - 1 - i) 0

open Classical in
/-- One coefficient, `Chebyshev.cpp:118-141`. -/
noncomputable def coefficient (v : List ℝ) (i : Nat) : ℝ :=
  let c := ifftReal (ifftInput v) i
  let c := if 1 ≤ i ∧ i < v.length - 1 then c * 2 else c
  let c := if isEven v ∧ i % 2 = 1 then 0 else c
  if isOdd v ∧ i % 2 = 0 then 0 else c

/-- `interpolateChebyshev`, `Chebyshev.cpp:57-142`. -/
noncomputable def interpolate (v : List ℝ) : List ℝ :=
  if v.length ≤ 1 then v else (List.range v.length).map (coefficient v)

/-! ## Choice of the degree -/

/-- `accumulateMaximumReverse`, `Chebyshev.cpp:144-159`. -/
noncomputable def accumulateMaximumReverse : List ℝ → List ℝ
  | [] => []
  | [b] => [b]
  | b :: c :: l =>
    let r := accumulateMaximumReverse (c :: l)
    (if b > r.headD 0 then b else r.headD 0) :: r

/-- The loop that normalizes the envelope, `Chebyshev.cpp:185-187`, in place. -/
noncomputable def normalize (e : List ℝ) : List ℝ :=
  (List.range e.length).foldl (fun e i => e.set i (e.getD i 0 / e.getD 0 0)) e

/-- `std::round(1.25 * j + 5)`. -/
def plateauEnd (j : Nat) : Nat := (5 * j + 22) / 4

open Classical in
/-- The search for a plateau, `Chebyshev.cpp:200-217`: `plateauPoint` and `j2`; `none` to keep all
coefficients. -/
noncomputable def plateau (e : List ℝ) (tol : ℝ) : Nat → Nat → Option (Nat × Nat)
  | 0, _ => none
  | fuel + 1, j =>
    let j2 := plateauEnd j
    if j2 > e.length then none
    else
      let e1 := e.getD (j - 1) 0
      let e2 := e.getD (j2 - 2) 0
      let r := 3 * (1 - Real.log e1 / Real.log tol)
      if e1 = 0 ∨ e2 / e1 > r then some (j - 2, j2) else plateau e tol fuel (j + 1)

/-- `std::log10`: of zero the least number. -/
noncomputable def log10 (x : ℝ) : WithBot ℝ := if x = 0 then ⊥ else (Real.logb 10 x : ℝ)

/-- The first index of the least of the values, `Chebyshev.cpp:268-276`. -/
noncomputable def argmin (cc : Nat → WithBot ℝ) : Nat → Nat
  | 0 => 0
  | n + 1 => if cc (n + 1) < cc (argmin cc n) then n + 1 else argmin cc n

/-- `j3`, `Chebyshev.cpp:243-250`. -/
noncomputable def countAbove (e : List ℝ) (tol : ℝ) : Nat :=
  (e.filter fun x => x ≥ tol ^ ((7 : ℝ) / 6)).length

/-- The biased logarithms `cc`, `Chebyshev.cpp:256-266`. -/
noncomputable def biased (e : List ℝ) (tol : ℝ) (j2 i : Nat) : WithBot ℝ :=
  log10 (e.getD i 0) + ((-1 / 3 * Real.logb 10 tol * i / (j2 - 1 : ℕ) : ℝ) : WithBot ℝ)

open Classical in
/-- Step 3, `Chebyshev.cpp:241-279`; `none` is a write out of bounds. -/
noncomputable def cutoff (e : List ℝ) (tol : ℝ) (plateauPoint j2 : Nat) : Option Nat :=
  if e.getD plateauPoint 0 = 0 then some plateauPoint
  else
    let j3 := countAbove e tol
    if j3 < j2 then
      if j3 + 1 < e.length then
        some (max (argmin (biased (e.set (j3 + 1) (tol ^ ((7 : ℝ) / 6))) tol (j3 + 1)) (j3 + 1 - 1)) 1)
      else none
    else some (max (argmin (biased e tol j2) (j2 - 1)) 1)

open Classical in
/-- `standardChop`, `Chebyshev.cpp:171-280`. -/
noncomputable def standardChop (coeffs : List ℝ) (tol : ℝ) : Option Nat :=
  if tol ≥ 1 then some 1
  else if coeffs.length < 17 then some coeffs.length
  else
    let e := accumulateMaximumReverse (coeffs.map abs)
    if e.getD 0 0 = 0 then some 1
    else
      let e := normalize e
      match plateau e tol (coeffs.length - 1) 2 with
      | none => some coeffs.length
      | some (p, j2) => cutoff e tol p j2

/-- `interpolateChebyshevWithSmartDegreeSelection`, `Chebyshev.cpp:282-315`: `last` are the coefficients
of the last pass. -/
noncomputable def smartLoop (f : ℝ → ℝ) (tol : ℝ) (maxDegree : Nat) : Nat → Nat → List ℝ → Option (List ℝ)
  | 0, _, last => some last
  | fuel + 1, deg, last =>
    if deg ≤ maxDegree then
      let c := interpolate ((chebPoints (1 + deg)).map f)
      (standardChop c tol).bind fun k =>
        if k < deg then some (c.take k) else smartLoop f tol maxDegree fuel (2 * deg - 1) c
    else some last

/-- The degree at least doubles less one, so `maxDegree` passes are enough. -/
noncomputable def smart (f : ℝ → ℝ) (tol : ℝ) (maxDegree : Nat) : Option (List ℝ) :=
  smartLoop f tol maxDegree (maxDegree + 1) 17 []

/-! ## The approximation by Carathéodory and Fejér -/

/-- The Hankel matrix, `CaratheodoryFejer.cpp:35-50`. -/
def hankel (tail : List ℝ) : List (List ℝ) :=
  (List.range tail.length).map fun i => (List.range tail.length).map fun j =>
    if i + j < tail.length then tail.getD (i + j) 0 else 0

/-- One pass of the loop that extends `b` to the left, `CaratheodoryFejer.cpp:85-99`. -/
noncomputable def extendLeft (vv : List ℝ) (v1 : ℝ) (t : Nat) (b : List ℝ) : List ℝ :=
  (-(List.zipWith (· * ·) (b.take t) vv).sum / v1) :: b

/-- `caratheodoryFejerApproximationUnitInterval`, `CaratheodoryFejer.cpp:27-113`. `eig` is the eigenvector
that the library finds. `none` is undefined, or a division by zero, which the caller rejects. -/
noncomputable def cfUnit (eig : List (List ℝ) → List ℝ) (f : ℝ → ℝ) (degree : Nat) : Option (List ℝ) :=
  (smart f (1 / 10 ^ 16) 129).bind fun cheb =>
    if cheb.length - 1 ≤ degree then some cheb
    else
      let tail := cheb.drop (degree + 1)
      let v := eig (hankel tail)
      if v.headD 0 = 0 then none
      else
        let t := cheb.length - 1 - degree - 1
        let b := (extendLeft v.tail (v.headD 0) t)^[2 * degree + 1] tail
        let bb := (List.range (degree + 1)).map fun i =>
          if i = 0 then b.getD degree 0 else b.getD (degree + i) 0 + b.getD (degree - i) 0
        some ((List.range (degree + 1)).map fun i => cheb.getD i 0 - bb.getD i 0)

/-- `caratheodoryFejerApproximation`, `CaratheodoryFejer.cpp:115-135`. -/
noncomputable def cf (eig : List (List ℝ) → List ℝ) (f : ℝ → ℝ) (degree : Nat) (lower upper : ℝ) :
    Option (List ℝ) :=
  cfUnit eig (if lower ≠ -1 ∨ upper ≠ 1 then fun x => f ((lower + upper) / 2 + (upper - lower) / 2 * x) else f)
    degree

/-! ## Evaluation -/

open Classical in
/-- The input of the lowered evaluation, `LowerPolynomialEval/Patterns.cpp:192-219`, and
`rescaleToUnitInterval`, `PolynomialApproximation.cpp:221-242`. -/
noncomputable def rescale (lower upper x : ℝ) : ℝ :=
  let rescale := 2 / (upper - lower)
  let shift := -(upper + lower) / (upper - lower)
  let x := if rescale ≠ 1 then x * rescale else x
  if shift ≠ 0 then x + shift else x

open Classical in
/-- The input of `kernel.eval_chebyshev`, `LowerPolynomialEval/Patterns.cpp:247-269`. -/
noncomputable def rescaleKernel (lower upper x : ℝ) : ℝ :=
  if |lower - -1| > 1 / 10 ^ 9 ∨ |upper - 1| > 1 / 10 ^ 9 then rescale lower upper x else x

open Classical in
/-- `LowerViaPatersonStockmeyerChebyshev`, `LowerPolynomialEval/Patterns.cpp:170-229`: the value computed.
Coefficients smaller than `δ` are skipped; `none` is the node that is null if all are. -/
noncomputable def evalLowered (δ : ℝ) (c : List ℝ) (lower upper x : ℝ) : Option ℝ :=
  (PolyEval.psChebyshev (fun y => decide (|y| < δ)) c).bind fun v => v.map (PolyEval.eval (rescale lower upper x))

/-! ## Exponentials and powers -/

/-- `ceil(log2(degree))`, `PolynomialApproximation.cpp:463-470`; without a positive degree the default. -/
def expSteps (degree : Option Int) : Nat :=
  match degree with
  | some d => if d > 0 then Nat.clog 2 d.toNat else 7
  | none => 7

/-- The check of the domain, `PolynomialApproximation.cpp:472-494`. -/
def expAccepted {K : Type} [Field K] [LinearOrder K] (k : Nat) (lower upper : Option K) : Prop :=
  (∀ l, lower = some l → ¬ l < -(2 ^ k)) ∧ ∀ u, upper = some u → ¬ u > 1

/-- The squarings, `PolynomialApproximation.cpp:519-521`. -/
def expSquare {K : Type} [Field K] : Nat → K → K
  | 0, c => c
  | k + 1, c => expSquare k (c * c)

/-- `ExpOpTaylorApproximation`, `PolynomialApproximation.cpp:447-530`. -/
def expTaylor {K : Type} [Field K] (k : Nat) (x : K) : K := expSquare k (x * (1 / 2 ^ k) + 1)

/-- The loop of `SquareAndMultiplyForPowOp`, `PolynomialApproximation.cpp:661-667`: `i` counts the bits
left. -/
def powLoop {K : Type} [Mul K] (base : K) (e : BitVec 64) : Nat → K → K
  | 0, res => res
  | i + 1, res =>
    let res := res * res
    powLoop base e i (if (e.sshiftRight i &&& 1#64) = 1#64 then res * base else res)

/-- `SquareAndMultiplyForPowOp`, `PolynomialApproximation.cpp:632-671`: `none` is the error on a negative
exponent, or the assertion of `getSExtValue` on a large one. -/
def powOp {K : Type} [Mul K] [One K] {w : Nat} (base : K) (exp : BitVec w) : Option K :=
  if exp.msb then none
  else if exp.toNat ≥ 2 ^ 63 then none
  else if exp.signExtend 64 = 0#64 then some 1
  else some (powLoop base (exp.signExtend 64) (Nat.log2 exp.toNat) base)

/-! ## Operations with a constant operand -/

/-- A float, a number or NaN. -/
inductive Fl
  | num (q : ℚ)
  | nan
  deriving DecidableEq

/-- The operations with two operands that are minima or maxima. -/
inductive BinOp
  | maxnumf | maximumf | minnumf | minimumf
  deriving DecidableEq

/-- `llvm::maximum`. -/
def llvmMaximum : Fl → Fl → Fl
  | .num a, .num b => .num (max a b)
  | _, _ => .nan

/-- `llvm::maximumnum`. -/
def llvmMaximumnum : Fl → Fl → Fl
  | .num a, .num b => .num (max a b)
  | .nan, b => b
  | a, .nan => a

/-- `llvm::minimum`. -/
def llvmMinimum : Fl → Fl → Fl
  | .num a, .num b => .num (min a b)
  | _, _ => .nan

/-- `llvm::minimumnum`. -/
def llvmMinimumnum : Fl → Fl → Fl
  | .num a, .num b => .num (min a b)
  | .nan, b => b
  | a, .nan => a

/-- The function registered for each operation, `PolynomialApproximation.cpp:756-763`. -/
def BinOp.cppFunc : BinOp → Fl → Fl → Fl
  | .maxnumf => llvmMaximumnum
  | .maximumf => llvmMaximum
  | .minnumf => llvmMinimum
  | .minimumf => llvmMinimumnum

/-- `unaryFunc`, `PolynomialApproximation.cpp:358-394`: the constant operand, the left one if both are
constant. -/
def unaryFunc {α : Type} (f : α → α → α) (lhs rhs : Option α) : Option (α → α) :=
  match lhs, rhs with
  | some c, _ => some fun x => f c x
  | none, some c => some fun x => f x c
  | none, none => none

end Heir.Approx
