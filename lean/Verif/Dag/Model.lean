import Verif.Loop

/-!
# Model of the arithmetic DAG and its caching evaluator

`lib/Kernel/ArithmeticDag.h` (nodes, `CachingVisitor`) and `lib/Kernel/EvalVisitor.cpp`.

A DAG is a heap: node identifiers (addresses of the `shared_ptr`s) to nodes.  The value type and
the operators that do not control evaluation are parameters (`Sem`), instantiated below with
`LiteralValue`.  `none` is a failed assertion or undefined behaviour.  Child pointers are not null
(the factory functions assert it; the body of a loop is asserted when it is run).
-/

namespace Heir.Dag

/-- A `ForLoopNode`, `ArithmeticDag.h:228-238`; fields are node identifiers. -/
structure LoopNode where
  iv : Nat
  inits : List Nat
  iterArgs : List Nat
  body : Nat
  lower : Int
  upper : Int
  step : Int
deriving DecidableEq, Repr

/-- A node, `ArithmeticDag.h:100-252`.  `pure o cs`: any node whose visitor processes the children
`cs` in this order, takes element 0 of each result and combines them (leaves, constants,
arithmetic, rotation, extraction, insertion, comparison, splat, empty). -/
inductive Kind (O : Type) where
  | pure (o : O) (children : List Nat)
  | var
  | ifElse (cond thenBody elseBody : Nat)
  | loop (l : LoopNode)
  | yield (elements : List Nat)
  | resultAt (operand index : Nat)
deriving DecidableEq, Repr

/-- The operators of the visitor. -/
structure Sem (V O : Type) where
  pure : O → List V → Option V
  /-- the value of an induction variable -/
  ofInt : Int → V
  /-- `std::get<int>(condition.get()) != 0` -/
  truth : V → Option Bool

abbrev Heap (O : Type) := Nat → Kind O
abbrev Env (V : Type) := Nat → Option V
abbrev Cache (V : Type) := Nat → Option (List V)

/-- State of the evaluator: the cache (`ArithmeticDag.h:730`) and the `value` fields of the
variable nodes (`ArithmeticDag.h:109-112`). -/
structure St (V : Type) where
  cache : Cache V
  env : Env V

variable {V O : Type}

/-- Assignment of one variable node. -/
def setVar (env : Env V) (x : Nat) (v : V) : Env V := fun y => if y = x then some v else env y

/-- Assignment of the iteration arguments, in order, `EvalVisitor.cpp:363-367`. -/
def setVars : Env V → List Nat → List V → Env V
  | env, x :: xs, v :: vs => setVars (setVar env x v) xs vs
  | env, _, _ => env

/-- Children visited by `clearSubtreeCache`, `ArithmeticDag.h:672-723`. -/
def clearChildren : Kind O → List Nat
  | .pure _ cs => cs
  | .var => []
  | .ifElse c t e => [c, t, e]
  | .loop l => l.iv :: l.inits ++ l.iterArgs ++ [l.body]
  | .yield cs => cs
  | .resultAt c _ => [c]

/-- `clearCacheEntry`, `ArithmeticDag.h:663`. -/
def erase (c : Cache V) (n : Nat) : Cache V := fun m => if m = n then none else c m

/-- `clearSubtreeCache`, `ArithmeticDag.h:665-727`; the first argument bounds the depth. -/
def clearSubtree (D : Heap O) : Nat → Cache V → Nat → Cache V
  | 0, c, _ => c
  | k + 1, c, n => (clearChildren (D n)).foldl (clearSubtree D k) (erase c n)

/-- The values taken by `for (int32_t i = lower; i < upper; i += step)`, `EvalVisitor.cpp:352`, at
most the given number of them. -/
def tripsUpTo : Nat → Int → Int → Int → Option (List Int)
  | k, lower, upper, step =>
    if upper ≤ lower then some []
    else
      match k with
      | 0 => none
      | k + 1 =>
        if 2 ^ 31 ≤ lower + step then none
        else do
          let r ← tripsUpTo k (lower + step) upper step
          some (lower :: r)

/-- The values of a loop counter.  With a positive step there are at most `upper - lower`; a
non-positive step does not terminate before the counter overflows; overflow is undefined. -/
def trips (lower upper step : Int) : Option (List Int) :=
  tripsUpTo (upper - lower).toNat lower upper step

/-- `EvalResults x = process(child); x[0]`. -/
def procFirst (rec : St V → Nat → Option (List V × St V)) (s : St V) (c : Nat) :
    Option (V × St V) := do
  let (r, s) ← rec s c
  let v ← r.head?
  some (v, s)

/-- `process(child)` with the assertion that there is exactly one result
(`EvalVisitor.cpp:346-348`, `389-392`). -/
def procSingle (rec : St V → Nat → Option (List V × St V)) (s : St V) (c : Nat) :
    Option (V × St V) := do
  let (r, s) ← rec s c
  match r with
  | [v] => some (v, s)
  | _ => none

/-- A list of children from left to right. -/
def procList (f : St V → Nat → Option (V × St V)) : St V → List Nat → Option (List V × St V)
  | s, [] => some ([], s)
  | s, c :: cs => do
    let (v, s) ← f s c
    let (vs, s) ← procList f s cs
    some (v :: vs, s)

/-- `std::holds_alternative<YieldNode>`. -/
def isYield : Kind O → Bool
  | .yield _ => true
  | _ => false

/-- One iteration of a loop, `EvalVisitor.cpp:353-378`. -/
def iteration (S : Sem V O) (D : Heap O) (clear : Cache V → Nat → Cache V)
    (rec : St V → Nat → Option (List V × St V)) (l : LoopNode) (i : Int) (vals : List V)
    (s : St V) : Option (List V × St V) :=
  if l.iterArgs.length ≠ vals.length then none
  else if isYield (D l.body) = false then none
  else do
    let (r, s) ← rec ⟨clear s.cache l.body, setVars (setVar s.env l.iv (S.ofInt i)) l.iterArgs vals⟩ l.body
    if r.length ≠ vals.length then none else some (r, s)

/-- All iterations. -/
def iterations (f : Int → List V → St V → Option (List V × St V)) :
    List Int → List V → St V → Option (List V × St V)
  | [], vals, s => some (vals, s)
  | i :: is, vals, s => do
    let (vals, s) ← f i vals s
    iterations f is vals s

/-- The visit methods of `EvalVisitor.cpp`; `rec` is `process`. -/
def visit (S : Sem V O) (D : Heap O) (clear : Cache V → Nat → Cache V)
    (rec : St V → Nat → Option (List V × St V)) (s : St V) (n : Nat) : Option (List V × St V) :=
  match D n with
  | .pure o cs => do
    let (vs, s) ← procList (procFirst rec) s cs
    let v ← S.pure o vs
    some ([v], s)
  | .var => do
    let v ← s.env n
    some ([v], s)
  | .ifElse c t e => do
    let (v, s) ← procFirst rec s c
    let b ← S.truth v
    rec s (if b then t else e)
  | .loop l => do
    let (vals, s) ← procList (procSingle rec) s l.inits
    let is ← trips l.lower l.upper l.step
    iterations (iteration S D clear rec l) is vals s
  | .yield cs => procList (procSingle rec) s cs
  | .resultAt c i => do
    let (r, s) ← rec s c
    let v ← r[i]?
    some ([v], s)

/-- `CachingVisitor::process`, `ArithmeticDag.h:518-534`; the first argument bounds the depth of
the DAG. -/
def process (S : Sem V O) (D : Heap O) : Nat → St V → Nat → Option (List V × St V)
  | 0, _, _ => none
  | k + 1, s, n =>
    match s.cache n with
    | some r => some (r, s)
    | none => do
      let (r, s) ← visit S D (clearSubtree D k) (process S D k) s n
      some (r, ⟨fun m => if m = n then some r else s.cache m, s.env⟩)

/-- `process` on several roots, `ArithmeticDag.h:537-545`: one cache for all. -/
def processAll (S : Sem V O) (D : Heap O) (k : Nat) : St V → List Nat → Option (List (List V))
  | _, [] => some []
  | s, n :: ns => do
    let (r, s) ← process S D k s n
    let rs ← processAll S D k s ns
    some (r :: rs)

/-- `evalKernel`, `EvalVisitor.cpp:404-408`, on a heap whose variable nodes hold `env`. -/
def evalKernel (S : Sem V O) (D : Heap O) (env : Env V) (n : Nat) : Option (List V) := do
  let (r, _) ← process S D (n + 1) ⟨fun _ => none, env⟩ n
  some r

/-- `multiEvalKernel`, `EvalVisitor.cpp:410-414`. -/
def multiEvalKernel (S : Sem V O) (D : Heap O) (env : Env V) (ns : List Nat) :
    Option (List (List V)) :=
  processAll S D (ns.foldr max 0 + 1) ⟨fun _ => none, env⟩ ns

/-! ## `LiteralValue` operators -/

/-- `LiteralValue`, `AbstractValue.h:59-97`. -/
inductive Lit where
  | scalar (v : Int)
  | vec (v : List Int)
  | mat (v : List (List Int))
deriving DecidableEq, Repr

/-- Signed 32-bit arithmetic: overflow is undefined. -/
def int32 (x : Int) : Option Int := if -2 ^ 31 ≤ x ∧ x < 2 ^ 31 then some x else none

/-- `ComparisonPredicate`, `ArithmeticDag.h:187-194`. -/
inductive Pred where
  | LT | LE | GT | GE | EQ | NE
deriving DecidableEq, Repr

/-- The operators; constants carry the value after `static_cast<int>`. -/
inductive LitOp where
  | leaf (v : Lit)
  | add | sub | mul
  | floorDiv (d : Int)
  | rotate
  | extract
  | insert
  | cmp (p : Pred)
deriving DecidableEq, Repr

/-- Pointwise operator of two vectors of the same length. -/
def zipInt (f : Int → Int → Int) : List Int → List Int → Option (List Int)
  | [], [] => some []
  | a :: as, b :: bs => do
    let r ← int32 (f a b)
    let rs ← zipInt f as bs
    some (r :: rs)
  | _, _ => none

/-- `AddNode`, `SubtractNode`, `MultiplyNode`: `EvalVisitor.cpp:40-133`.  A scalar left operand
with a tensor right operand reads `getShape()[0]` of an empty shape; otherwise unsupported types
return the left operand. -/
def litBin (f : Int → Int → Int) : Lit → Lit → Option Lit
  | .scalar a, .scalar b => (int32 (f a b)).map .scalar
  | .scalar _, _ => none
  | .vec a, .vec b => (zipInt f a b).map .vec
  | l, _ => some l

/-- `FloorDivNode`, `EvalVisitor.cpp:135-155`.  `if (*lScalar)` tests the value, not the pointer:
a zero scalar goes on to `getShape()[0]` of an empty shape, a tensor dereferences a null pointer. -/
def litFloorDiv (d : Int) : Lit → Option Lit
  | .scalar a => if a ≠ 0 ∧ d ≠ 0 then (int32 (a.tdiv d)).map .scalar else none
  | _ => none

/-- `LeftRotateNode`, `EvalVisitor.cpp:158-177` with `normalizeRotation`, `RotationUtils.h:14-16`. -/
def litRotate : Lit → Lit → Option Lit
  | .vec v, .scalar a =>
    if v.length = 0 then none
    else
      let k := ((a.tmod v.length + v.length).tmod v.length).toNat
      some (.vec (v.drop k ++ v.take k))
  | .mat m, .scalar _ => if (m.headD []).length = 0 then none else some (.mat m)
  | _, _ => none

/-- `ExtractNode`, `EvalVisitor.cpp:179-199`. -/
def litExtract : Lit → Lit → Option Lit
  | .vec v, .scalar i => if i < 0 then none else (v[i.toNat]?).map .scalar
  | .mat m, .scalar i => if i < 0 then none else (m[i.toNat]?).map .vec
  | _, _ => none

/-- `InsertNode`, `EvalVisitor.cpp:201-228`: scalar, destination, index. -/
def litInsert : Lit → Lit → Lit → Option Lit
  | .scalar x, .vec v, .scalar i => if i < 0 then none else (Loop.put v i.toNat x).map .vec
  | .vec x, .mat m, .scalar i => if i < 0 then none else (Loop.put m i.toNat x).map .mat
  | _, _, _ => none

/-- `ComparisonNode`, `EvalVisitor.cpp:238-258`. -/
def holds : Pred → Int → Int → Bool
  | .LT, a, b => a < b
  | .LE, a, b => a ≤ b
  | .GT, a, b => a > b
  | .GE, a, b => a ≥ b
  | .EQ, a, b => a = b
  | .NE, a, b => a ≠ b

/-- The operators of `EvalVisitor`. -/
def litPure : LitOp → List Lit → Option Lit
  | .leaf v, [] => some v
  | .add, [a, b] => litBin (· + ·) a b
  | .sub, [a, b] => litBin (· - ·) a b
  | .mul, [a, b] => litBin (· * ·) a b
  | .floorDiv d, [a] => litFloorDiv d a
  | .rotate, [a, b] => litRotate a b
  | .extract, [a, b] => litExtract a b
  | .insert, [a, b, c] => litInsert a b c
  | .cmp p, [.scalar a, .scalar b] => some (.scalar (if holds p a b then 1 else 0))
  | _, _ => none

/-- The semantics of `EvalVisitor`. -/
def litSem : Sem Lit LitOp where
  pure := litPure
  ofInt := .scalar
  truth
    | .scalar v => some (v ≠ 0)
    | _ => none

end Heir.Dag
