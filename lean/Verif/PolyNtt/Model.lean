import Mathlib.Data.List.Basic
import Mathlib.Algebra.BigOperators.Group.List.Basic
import Mathlib.Data.List.Range

/-!
# Model of `--convert-polynomial-mul-to-ntt`

Sources: `lib/Dialect/Polynomial/Transforms/PolyMulToNTT.cpp` and `NTTSolver.cpp`.

A function is a list of operations without regions (the pass handles no others, see the TODO
at lines 170-171) ending in one `func.return`.  Its values are numbered: the arguments first,
then one result per operation.  The CP-SAT solver is not modelled: a solution is any assignment
that satisfies the constraints handed to it.  `runRegionDCE` and the empty greedy rewriting at
the start (123-131) are not modelled; what they ensure is a hypothesis of the theorems.
-/

namespace Heir.PolyNtt

/-- `Form`, `lib/Dialect/Polynomial/IR/PolynomialEnums.td`. -/
inductive Form | coeff | eval
  deriving DecidableEq, Repr

/-- `OpFormClass`, `PolyMulToNTT.cpp:38-63`, with `plain` for operations that touch no
polynomial, which are not walked (178-197).  `RETURN` is the list of returned values. -/
inductive Cls | plain | coeff | eval | either | const | unknown
  deriving DecidableEq, Repr

/-- An operation: its class (`opFormClass`, 65-84), whether its result is polynomial
(`isPolyType`, 92-100: a polynomial or a tensor of polynomials), its operands, and a number
that says which operation of the class it is. -/
structure Ins where
  cls : Cls
  poly : Bool
  ops : List Nat
  fn : Nat

/-- A function: for each argument whether it is polynomial, the operations, the values that are
returned, and for each value `getConversionCost` (`NTTSolver.cpp:46-64`): the number of residues
times the number of elements. -/
structure Prog where
  args : List Bool
  body : List Ins
  rets : List Nat
  cost : Nat → Nat

/-- Is a value polynomial? -/
def Prog.types (p : Prog) : List Bool := p.args ++ p.body.map Ins.poly

/-- The type of a value; values that do not exist are not polynomial. -/
def isPoly (ty : List Bool) (x : Nat) : Bool := ty.getD x false

/-- The variables of a value, `NTTSolver::RepVars`, `NTTSolver.h:22-34`. -/
structure Vars where
  c : Bool
  e : Bool
  conv : Bool
  mode : Bool

/-- What the solver returns. -/
abbrev Sol := Nat → Vars

/-! ### the constraints -/

/-- `addConversionCostIfBothForms`, `NTTSolver.cpp:138-151`. -/
def convBoth (v : Vars) : Bool :=
  (!v.conv || v.c) && (!v.conv || v.e) && (!v.c || !v.e || v.conv)

/-- `addOpMode`, `NTTSolver.cpp:170-180`. -/
def opMode (v : Vars) : Bool := (!v.e || v.c || v.mode) && (!v.c || v.e || !v.mode)

/-- `implyMode`, `NTTSolver.cpp:116-131`. -/
def implyMode (out inp : Vars) : Bool :=
  (out.mode || !out.c || inp.c) && (out.mode || !out.e || inp.c) &&
  (!out.mode || !out.c || inp.e) && (!out.mode || !out.e || inp.e)

/-- The polynomial operands, `filterPolynomialOps`, `PolyMulToNTT.cpp:104-112`. -/
def polyOps (ty : List Bool) (ops : List Nat) : List Nat := ops.filter (isPoly ty)

/-- The constraints of one operation with result `i`, `PolyMulToNTT.cpp:210-302`. -/
def insOK (ty : List Bool) (s : Sol) (i : Nat) (ins : Ins) : Bool :=
  match ins.cls with
  | .plain => true
  | .coeff =>
    if ins.poly then
      -- `implyForm`, `addConversionCostForForm`, `implyUse`
      (!(s i).e || (s i).c) && ((s i).conv == (s i).e) &&
        (polyOps ty ins.ops).all fun x => !(s i).c || (s x).c
    else
      -- `forceDemandFixedForm`
      (polyOps ty ins.ops).all fun x => (s x).c
  | .eval =>
    (!(s i).c || (s i).e) && ((s i).conv == (s i).c) &&
      (polyOps ty ins.ops).all fun x => !(s i).e || (s x).e
  | .either =>
    opMode (s i) && ((polyOps ty ins.ops).all fun x => implyMode (s i) (s x)) && convBoth (s i)
  | .const => !(s i).conv
  -- "Walk 1: Unexpected op": the pass fails
  | .unknown => false

/-- The constraints of operations with results from `i` on. -/
def bodyOK (ty : List Bool) (s : Sol) : Nat → List Ins → Bool
  | _, [] => true
  | i, ins :: rest => insOK ty s i ins && bodyOK ty s (i + 1) rest

/-- All constraints, `PolyMulToNTT.cpp:204-302`.  Returned values are demanded in either form
(`forceDemandEitherForm`, `NTTSolver.cpp:88-91`). -/
def feasible (p : Prog) (s : Sol) : Bool :=
  ((List.range p.args.length).all fun i => !isPoly p.types i || convBoth (s i)) &&
  bodyOK p.types s p.args.length p.body &&
  (polyOps p.types p.rets).all fun x => (s x).c || (s x).e

/-- The share of a conversion in the objective, `getOrCreateVars`, `NTTSolver.cpp:66-86`: the
variable itself and one more for each further unit of the cost. -/
def weight (p : Prog) (i : Nat) : Nat := max 1 (p.cost i)

/-- The objective, `NTTSolver.cpp:66-86` and `setZeroConversionCost`, 153-168: conversions, and
the forms in which constants are materialized. -/
def objective (p : Prog) (s : Sol) : Nat :=
  ((List.range p.types.length).map fun i =>
    if isPoly p.types i && (s i).conv then weight p i else 0).sum +
  ((List.range p.body.length).map fun j =>
    match (p.body[j]?).map Ins.cls with
    | some .const => (s (p.args.length + j)).c.toNat + (s (p.args.length + j)).e.toNat
    | _ => 0).sum

/-! ### the rewritten function -/

/-- Operations of the rewritten function.  `coeff` and `eithC` take polynomials in coefficient
form, `mul` and `eithE` in evaluation form; `ntt` and `intt` carry the weight of their operand's
type. -/
inductive TIns
  | plain (fn : Nat) (ops : List Nat)
  | coeff (fn : Nat) (poly : Bool) (ops : List Nat)
  | mul (ops : List Nat)
  | eithC (fn : Nat) (ops : List Nat)
  | eithE (fn : Nat) (ops : List Nat)
  | constC (fn : Nat)
  | constE (fn : Nat)
  | ntt (w : Nat) (x : Nat)
  | intt (w : Nat) (x : Nat)

/-- Where a value of the source is found: `plain` values keep their SSA value, the others are
in `coeffFormCache` and `evalFormCache` (`PolyMulToNTT.cpp:321-322`). -/
structure Ent where
  p : Option Nat := none
  c : Option Nat := none
  e : Option Nat := none

/-- The rewriting so far: the operations, the number of values, the caches. -/
structure St where
  out : List TIns
  next : Nat
  ents : List Ent

/-- Add an operation. -/
def St.emit (st : St) (t : TIns) : St := { st with out := st.out ++ [t], next := st.next + 1 }

/-- Record where a value is. -/
def St.record (st : St) (e : Ent) : St := { st with ents := st.ents ++ [e] }

/-- `formToValue`, `PolyMulToNTT.cpp:604-612`, for polynomials; `none` when the cache has no
entry, which is undefined. -/
def look (ty : List Bool) (ents : List Ent) (f : Form) (x : Nat) : Option Nat :=
  (ents[x]?).bind fun ent =>
    if isPoly ty x then (match f with | .coeff => ent.c | .eval => ent.e) else ent.p

/-- All operands in one form (step 4, `PolyMulToNTT.cpp:620-684`). -/
def looks (ty : List Bool) (ents : List Ent) (f : Form) (ops : List Nat) : Option (List Nat) :=
  ops.mapM (look ty ents f)

/-- An operation with a result in coefficient form, transformed when the other form is needed. -/
def coeffOut (st : St) (w : Nat) (t : TIns) (alsoE : Bool) : St :=
  if alsoE then
    ((st.emit t).emit (.ntt w st.next)).record { c := some st.next, e := some (st.next + 1) }
  else (st.emit t).record { c := some st.next }

/-- An operation with a result in evaluation form, transformed when the other form is needed. -/
def evalOut (st : St) (w : Nat) (t : TIns) (alsoC : Bool) : St :=
  if alsoC then
    ((st.emit t).emit (.intt w st.next)).record { e := some st.next, c := some (st.next + 1) }
  else (st.emit t).record { e := some st.next }

/-- Steps 3 and 4 for an operation of class `EITHER`, `PolyMulToNTT.cpp:460-513` and 669-677. -/
def transEither (ty : List Bool) (v : Vars) (w : Nat) (ins : Ins) (st : St) : Option St :=
  if v.conv != (v.c && v.e) then none
  else if !v.conv && v.c && v.mode then none
  else if !v.conv && v.e && !v.mode then none
  else if v.mode then
    (looks ty st.ents .eval ins.ops).map fun ops => evalOut st w (.eithE ins.fn ops) v.c
  else
    (looks ty st.ents .coeff ins.ops).map fun ops => coeffOut st w (.eithC ins.fn ops) v.e

/-- Step 3 for a constant, `PolyMulToNTT.cpp:515-588`: `repairConstantValueAttr` (535-562) keeps
the numbers of the attribute and changes its form only. -/
def transConst (v : Vars) (ins : Ins) (st : St) : Option St :=
  if v.conv then none
  else if v.c then
    if v.e then
      some (((st.emit (.constC ins.fn)).emit (.constE ins.fn)).record
        { c := some st.next, e := some (st.next + 1) })
    else some ((st.emit (.constC ins.fn)).record { c := some st.next })
  else some ((st.emit (.constE ins.fn)).record { e := some st.next })

/-- Steps 3 and 4 for the operation with result `i`, `PolyMulToNTT.cpp:395-595` and 617-684.  The
code makes all results first and then sets the operands; since operands precede their uses the
caches have the same entries here. -/
def transIns (ty : List Bool) (s : Sol) (w : Nat) (i : Nat) (ins : Ins) (st : St) : Option St :=
  match ins.cls with
  | .plain => (looks ty st.ents .coeff ins.ops).map fun ops =>
      (st.emit (.plain ins.fn ops)).record { p := some st.next }
  | .coeff =>
    (looks ty st.ents .coeff ins.ops).bind fun ops =>
      if ins.poly then
        if !(s i).c then none
        else if (s i).e != (s i).conv then none
        else some (coeffOut st w (.coeff ins.fn true ops) (s i).e)
      else some ((st.emit (.coeff ins.fn false ops)).record { p := some st.next })
  | .eval =>
    if (s i).c && !(s i).e then none
    else if (s i).c != (s i).conv then none
    else (looks ty st.ents .eval ins.ops).map fun ops => evalOut st w (.mul ops) (s i).c
  | .either => transEither ty (s i) w ins st
  | .const => transConst (s i) ins st
  | .unknown => none

/-- All operations, `i` being the result of the first. -/
def transBody (p : Prog) (s : Sol) : Nat → List Ins → St → Option St
  | _, [], st => some st
  | i, ins :: rest, st =>
    (transIns p.types s (weight p i) i ins st).bind fun st => transBody p s (i + 1) rest st

/-- The form in which an argument is taken, `PolyMulToNTT.cpp:367-372`. -/
def argForm (v : Vars) : Form := if v.c then .coeff else .eval

/-- The arguments, `PolyMulToNTT.cpp:355-393`; `i` is the next one. -/
def transArgs (p : Prog) (s : Sol) : Nat → List Bool → St → St
  | _, [], st => st
  | i, poly :: rest, st =>
    transArgs p s (i + 1) rest <|
      if poly then
        if (s i).c then
          if (s i).e then
            (st.emit (.ntt (weight p i) i)).record { c := some i, e := some st.next }
          else st.record { c := some i }
        else st.record { e := some i }
      else st.record { p := some i }

/-- A returned value, `PolyMulToNTT.cpp:636-656`: the coefficient form if it is needed. -/
def transRet (ty : List Bool) (s : Sol) (ents : List Ent) (x : Nat) : Option Nat :=
  if isPoly ty x && !(s x).c && !(s x).e then none
  else look ty ents (argForm (s x)) x

/-- The rewritten function: arguments and their forms are those of the source. -/
structure TProg where
  body : List TIns
  rets : List Nat

/-- The pass, given a solution. -/
def trans (p : Prog) (s : Sol) : Option TProg :=
  (transBody p s p.args.length p.body (transArgs p s 0 p.args ⟨[], p.args.length, []⟩)).bind
    fun st => (p.rets.mapM (transRet p.types s st.ents)).map fun rets => ⟨st.out, rets⟩

end Heir.PolyNtt
