import Verif.Dag.Model

/-!
# Model of the analysis that finds the rotation keys of a program

`lib/Analysis/RotationAnalysis/{RotationAnalysis,DagBuilder,RotationEvalVisitor}.cpp` and the
Galois elements of `lib/Dialect/Lattigo/Transforms/ConfigureCryptoContext.cpp`.

A function body is a `Block`: operations in order, values and nodes named by numbers.  A rotation
by constants contributes its constants.  For a rotation by something else, the outermost enclosing
`scf.for` is translated to an arithmetic DAG and evaluated; the evaluator records the shifts it
meets.  `none` is a failure of the analysis, a failed assertion or undefined behaviour: no set of
keys is produced.
-/

namespace Heir.RotKeys

open Heir.Dag (Kind LoopNode Sem Heap Env Cache St Lit Pred)

/-! ## Programs -/

/-- A type as seen by `mlirTypeToDagType`, `Kernel/Utils.cpp:58-83`: `scalar` covers integers,
index, floats and every type unknown to the function; `secret` is a ciphertext or plaintext. -/
inductive Ty where
  | scalar
  | tensor (shape : List Nat)
  | secret
  | secretTensor (shape : List Nat)
deriving DecidableEq, Repr

/-- The constants of `arith.constant`. -/
inductive Cst where
  | int (v : Int)
  | bool (b : Bool)
  | table (vs : List Int)
  | float
deriving DecidableEq, Repr

inductive BinOp where
  | add | sub | mul
deriving DecidableEq, Repr

/-- `arith::CmpIPredicate`. -/
inductive CmpP where
  | slt | sle | sgt | sge | ult | ule | ugt | uge | eq | ne
deriving DecidableEq, Repr

/-- Operations with one result that `DagBuilder::build` knows (`DagBuilder.cpp:396-402`).  `w` is
the width of the operands.  `splat n`: a tensor of `n` elements. -/
inductive K where
  | const (c : Cst)
  | bin (o : BinOp) (w : Nat)
  | fbin (o : BinOp)
  | negf
  | cmp (w : Nat) (p : CmpP)
  | divs (w : Nat)
  | extract
  | splat (n : Nat)
  | slice
  | insert
  | insertSlice
deriving DecidableEq, Repr

/-- A block: operations, then the terminator.  A shift is an attribute (`inl`) or a value.
`opq`: any other operation without regions; the flag says that the element type of the operand is
a ciphertext or a plaintext.  `region`: any other operation with a region (`affine.for`,
`scf.while`), block arguments `ivs`.  Loops and conditionals have a node `n` of their own besides
their results, the terminator has the node `y`. -/
inductive Block where
  | done (y : Nat) (vs : List Nat)
  | op (r : Nat) (k : K) (args : List Nat) (rest : Block)
  | rot (r t : Nat) (sh : List (Int ⊕ Nat)) (rest : Block)
  | opq (rs : List Nat) (args : List (Nat × Bool)) (rest : Block)
  | region (rs : List Nat) (args : List (Nat × Bool)) (ivs : List Nat) (body rest : Block)
  | loop (n lb ub st iv : Nat) (inits args rs : List Nat) (body rest : Block)
  | ite (n c : Nat) (rs : List Nat) (hasElse : Bool) (t e rest : Block)
deriving DecidableEq, Repr

/-- The node of the terminator. -/
def Block.yieldNode : Block → Nat
  | .done y _ => y
  | .op _ _ _ rest => rest.yieldNode
  | .rot _ _ _ rest => rest.yieldNode
  | .opq _ _ rest => rest.yieldNode
  | .region _ _ _ _ rest => rest.yieldNode
  | .loop _ _ _ _ _ _ _ _ _ rest => rest.yieldNode
  | .ite _ _ _ _ _ _ rest => rest.yieldNode

/-- The operands of the terminator. -/
def Block.yields : Block → List Nat
  | .done _ vs => vs
  | .op _ _ _ rest => rest.yields
  | .rot _ _ _ rest => rest.yields
  | .opq _ _ rest => rest.yields
  | .region _ _ _ _ rest => rest.yields
  | .loop _ _ _ _ _ _ _ _ _ rest => rest.yields
  | .ite _ _ _ _ _ _ rest => rest.yields

/-- All constants of a block, nested ones included: what `matchPattern(value, m_Constant(&attr))`
can see. -/
def Block.consts : Block → List (Nat × Cst)
  | .done _ _ => []
  | .op r (.const c) _ rest => (r, c) :: rest.consts
  | .op _ _ _ rest => rest.consts
  | .rot _ _ _ rest => rest.consts
  | .opq _ _ rest => rest.consts
  | .region _ _ _ body rest => body.consts ++ rest.consts
  | .loop _ _ _ _ _ _ _ _ body rest => body.consts ++ rest.consts
  | .ite _ _ _ _ t e rest => t.consts ++ e.consts ++ rest.consts

/-- The shifts of the rotations of a block in the order of `walk` (`RotationAnalysis.cpp:141-150`:
post-order, that is program order for operations without regions). -/
def Block.rots : Block → List (List (Int ⊕ Nat))
  | .done _ _ => []
  | .op _ _ _ rest => rest.rots
  | .rot _ _ sh rest => sh :: rest.rots
  | .opq _ _ rest => rest.rots
  | .region _ _ _ body rest => body.rots ++ rest.rots
  | .loop _ _ _ _ _ _ _ _ body rest => body.rots ++ rest.rots
  | .ite _ _ _ _ t e rest => t.rots ++ e.rots ++ rest.rots

/-! ## Nodes -/

/-- Operators of the DAG (`ArithmeticDag.h:98-252`).  `rotate`: `LeftRotateNode` and
`LeftRotateBulkNode`; shifts that are attributes are kept in the operator instead of constant
nodes.  `first`: `resultAt(yield(operands), 0)`, `DagBuilder.cpp:430`. -/
inductive ROp where
  | konst (c : Cst)
  | splat (n : Nat) (c : Int)
  | bin (o : BinOp)
  | neg
  | floorDiv (d : Int)
  | cmp (p : Pred)
  | extract
  | copy
  | insert
  | rotate (sh : List (Option Int))
  | first
deriving DecidableEq, Repr

/-- Conversion of `int64_t` to `int32_t` (the bounds in `Node::loop`, the divisor of
`Node::floorDiv`). -/
def wrap32 (x : Int) : Int := Int.bmod x (2 ^ 32)

/-- `matchPattern(value, m_Constant(&attr))` with an `IntegerAttr`; `attr.getInt()` sign-extends,
so that `true` is -1. -/
def intConst (cs : List (Nat × Cst)) (v : Nat) : Option Int :=
  match List.lookup v cs with
  | some (.int i) => some i
  | some (.bool b) => some (if b then -1 else 0)
  | _ => none

/-- The predicates of `visit(arith::CmpIOp)`, `DagBuilder.cpp:238-261`: unsigned ones become
signed. -/
def predOf : CmpP → Pred
  | .slt => .LT
  | .ult => .LT
  | .sle => .LE
  | .ule => .LE
  | .sgt => .GT
  | .ugt => .GT
  | .sge => .GE
  | .uge => .GE
  | .eq => .EQ
  | .ne => .NE

/-- The node of an operation with one result, `DagBuilder.cpp:210-391`.  A constant that is not an
integer or a tensor of integers is a failure (`DagBuilder.cpp:269-290`); a divisor that is not
constant dereferences a null attribute (`:315-326`); a splat of something not constant is a
variable (`:302-313`); the result of `extract_slice` is its source (`:361-370`), here a copy. -/
def node (cs : List (Nat × Cst)) : K → List Nat → Option (Kind ROp)
  | .const .float, _ => none
  | .const c, _ => some (.pure (.konst c) [])
  | .bin o _, [a, b] => some (.pure (.bin o) [a, b])
  | .fbin o, [a, b] => some (.pure (.bin o) [a, b])
  | .negf, [a] => some (.pure .neg [a])
  | .cmp _ p, [a, b] => some (.pure (.cmp (predOf p)) [a, b])
  | .divs _, [a, b] => (intConst cs b).map fun d => .pure (.floorDiv (wrap32 d)) [a]
  | .extract, [t, i] => some (.pure .extract [t, i])
  | .splat n, [x] =>
    match intConst cs x with
    | some c => some (.pure (.splat n c) [])
    | none => some .var
  | .slice, [s] => some (.pure .copy [s])
  | .insert, [s, d, i] => some (.pure .insert [s, d, i])
  | .insertSlice, [s, d] => some (.pure .insert [s, d])
  | _, _ => none

/-- The shifts that are attributes, `none` for the others. -/
def staticShifts (sh : List (Int ⊕ Nat)) : List (Option Int) :=
  sh.map fun
    | .inl i => some i
    | .inr _ => none

/-- The shifts that are values. -/
def dynShifts (sh : List (Int ⊕ Nat)) : List Nat :=
  sh.filterMap fun
    | .inl _ => none
    | .inr v => some v

/-- The node of the results of an unknown operation, `DagBuilder.cpp:403-436`.  Without a secret
or plaintext operand nothing is stored: the first use of a result makes a variable
(`findNodeOrMakeNewVariable`, `:41-78`). -/
def opqNode (args : List (Nat × Bool)) : Kind ROp :=
  match (args.filter (·.2)).map Prod.fst with
  | [] => .var
  | cs => .pure .first cs

/-- `resultAt(n, 0), resultAt(n, 1), …` from index `j`. -/
def resultsFrom (n : Nat) : Nat → List Nat → List (Nat × Kind ROp)
  | _, [] => []
  | j, r :: rs => (r, .resultAt n j) :: resultsFrom n (j + 1) rs

/-- `DagBuilder::build` on the operations of a block, `DagBuilder.cpp:80-436`: the nodes made.
The bounds of a loop must be constants (`:99-105`), a conditional must have an else branch
(`:140-144`).  The regions of unknown operations are not visited. -/
def build (cs : List (Nat × Cst)) : Block → Option (List (Nat × Kind ROp))
  | .done y vs => some [(y, .yield vs)]
  | .op r k args rest => do
    let n ← node cs k args
    let ns ← build cs rest
    some ((r, n) :: ns)
  | .rot r t sh rest => do
    let ns ← build cs rest
    some ((r, .pure (.rotate (staticShifts sh)) (t :: dynShifts sh)) :: ns)
  | .opq rs args rest => do
    let ns ← build cs rest
    some (rs.map (fun r => (r, opqNode args)) ++ ns)
  | .region rs args _ _ rest => do
    let ns ← build cs rest
    some (rs.map (fun r => (r, opqNode args)) ++ ns)
  | .loop n lb ub st iv inits args rs body rest => do
    let l ← intConst cs lb
    let u ← intConst cs ub
    let s ← intConst cs st
    let ms ← build cs body
    let ns ← build cs rest
    some ((iv, .var) :: args.map (fun a => (a, .var)) ++ ms ++
      (n, .loop ⟨iv, inits, args, body.yieldNode, wrap32 l, wrap32 u, wrap32 s⟩) ::
      resultsFrom n 0 rs ++ ns)
  | .ite n c rs hasElse t e rest => do
    if hasElse = false then none
    else
      let ms ← build cs t
      let ms' ← build cs e
      let ns ← build cs rest
      some (ms ++ ms' ++ (n, .ifElse c t.yieldNode e.yieldNode) :: resultsFrom n 0 rs ++ ns)

/-- The node of a value: the one built, else a constant, else a new variable
(`findNodeOrMakeNewVariable`, `DagBuilder.cpp:41-78`). -/
def heapOf (cs : List (Nat × Cst)) (ns : List (Nat × Kind ROp)) : Heap ROp := fun v =>
  match List.lookup v ns with
  | some k => k
  | none =>
    match List.lookup v cs with
    | some .float => .var
    | some c => .pure (.konst c) []
    | none => .var

/-! ## Evaluation -/

/-- The shape of `mlirTypeToDagType(type, numSlots)`, `Kernel/Utils.cpp:58-83`; `none` for
scalars. -/
def dagShape (slots : Nat) : Ty → Option (List Nat)
  | .scalar => none
  | .tensor s => some s
  | .secret => some [slots]
  | .secretTensor s => some (s ++ [slots])

/-- The value of a variable that is not set, `RotationEvalVisitor.cpp:78-118`: zeros, of the first
two dimensions only. -/
def zeroOf : Option (List Nat) → Option Lit
  | none => some (.scalar 0)
  | some [] => none
  | some [n] => some (.vec (List.replicate n 0))
  | some (n :: m :: _) => some (.mat (List.replicate n (List.replicate m 0)))

/-- `static_cast<int>(double)` of integers. -/
def castInts : List Int → Option (List Int)
  | [] => some []
  | x :: xs => do
    let y ← Dag.int32 x
    let ys ← castInts xs
    some (y :: ys)

/-- The value of a constant node, `EvalVisitor.cpp:274-289`. -/
def konstLit : Cst → Option Lit
  | .int v => (Dag.int32 v).map .scalar
  | .bool b => some (.scalar (if b then -1 else 0))
  | .table vs => (castInts vs).map .vec
  | .float => none

def BinOp.fn : BinOp → Int → Int → Int
  | .add => (· + ·)
  | .sub => (· - ·)
  | .mul => (· * ·)

/-- `getShape().back()`, `AbstractValue.h:72-91`; a scalar has no dimension. -/
def lastDim : Lit → Option Nat
  | .scalar _ => none
  | .vec v => some v.length
  | .mat m => some (m.headD []).length

/-- The evaluated shifts: attributes and, in order, `std::get<int>` of the evaluated values. -/
def amounts : List (Option Int) → List Lit → Option (List Int)
  | [], [] => some []
  | some i :: sh, vs => do
    let a ← Dag.int32 i
    let as ← amounts sh vs
    some (a :: as)
  | none :: sh, .scalar a :: vs => do
    let as ← amounts sh vs
    some (a :: as)
  | _, _ => none

/-- `normalizeRotation`, `RotationUtils.h:14-16`. -/
def normalize (rot slots : Int) : Int := ((rot.tmod slots) + slots).tmod slots

/-- The shifts a rotation node records, `RotationEvalVisitor.cpp:31-68`: `none` when the operand
has no dimension, a shift is not an integer, or the modulus is zero. -/
def shiftsOf (sh : List (Option Int)) : List Lit → Option (List Int)
  | [] => none
  | t :: vs => do
    let d ← lastDim t
    let as ← amounts sh vs
    if d = 0 ∧ as ≠ [] then none else some (as.map fun a => normalize a d)

/-- The visit methods of `RotationEvalVisitor` and, for the others, `EvalVisitor`: a rotation
returns its operand, an insertion its destination (`RotationEvalVisitor.cpp:70-76`). -/
def rotPure : ROp → List Lit → Option Lit
  | .konst c, [] => konstLit c
  | .splat n c, [] => (Dag.int32 c).map fun x => .vec (List.replicate n x)
  | .bin o, [a, b] => Dag.litBin o.fn a b
  | .neg, [a] => Dag.litBin (· - ·) (.scalar 0) a
  | .floorDiv d, [a] => Dag.litFloorDiv d a
  | .cmp p, [.scalar a, .scalar b] => some (.scalar (if Dag.holds p a b then 1 else 0))
  | .extract, [t, i] => Dag.litExtract t i
  | .copy, [a] => some a
  | .insert, _ :: d :: _ => some d
  | .rotate sh, t :: vs => (shiftsOf sh (t :: vs)).map fun _ => t
  | .first, a :: _ => some a
  | _, _ => none

def rotSem : Sem Lit ROp where
  pure := rotPure
  ofInt := .scalar
  truth
    | .scalar v => some (v ≠ 0)
    | _ => none

/-- What a node adds to `evaluatedShifts`. -/
def recOf : ROp → List Lit → List Int
  | .rotate sh, vs => (shiftsOf sh vs).getD []
  | _, _ => []

/-! The caching evaluator (`Dag.process`, `ArithmeticDag.h:511-727`, `EvalVisitor.cpp`) with the
set of recorded shifts as an additional state. -/

structure LSt (V : Type) where
  st : St V
  log : List Int

variable {V O : Type}

/-- `process(child)[0]`. -/
def procFirst (rec : LSt V → Nat → Option (List V × LSt V)) (s : LSt V) (c : Nat) :
    Option (V × LSt V) := do
  let (r, s) ← rec s c
  let v ← r.head?
  some (v, s)

/-- `process(child)` with exactly one result. -/
def procSingle (rec : LSt V → Nat → Option (List V × LSt V)) (s : LSt V) (c : Nat) :
    Option (V × LSt V) := do
  let (r, s) ← rec s c
  match r with
  | [v] => some (v, s)
  | _ => none

/-- Children from left to right. -/
def procList (f : LSt V → Nat → Option (V × LSt V)) : LSt V → List Nat → Option (List V × LSt V)
  | s, [] => some ([], s)
  | s, c :: cs => do
    let (v, s) ← f s c
    let (vs, s) ← procList f s cs
    some (v :: vs, s)

/-- One iteration of a loop, `EvalVisitor.cpp:353-378`. -/
def iteration (S : Sem V O) (D : Heap O) (clear : Cache V → Nat → Cache V)
    (rec : LSt V → Nat → Option (List V × LSt V)) (l : LoopNode) (i : Int) (vals : List V)
    (s : LSt V) : Option (List V × LSt V) :=
  if l.iterArgs.length ≠ vals.length then none
  else if Dag.isYield (D l.body) = false then none
  else do
    let (r, s) ← rec ⟨⟨clear s.st.cache l.body,
      Dag.setVars (Dag.setVar s.st.env l.iv (S.ofInt i)) l.iterArgs vals⟩, s.log⟩ l.body
    if r.length ≠ vals.length then none else some (r, s)

/-- All iterations. -/
def iterations (f : Int → List V → LSt V → Option (List V × LSt V)) :
    List Int → List V → LSt V → Option (List V × LSt V)
  | [], vals, s => some (vals, s)
  | i :: is, vals, s => do
    let (vals, s) ← f i vals s
    iterations f is vals s

/-- The visit methods. -/
def visit (S : Sem V O) (record : O → List V → List Int) (D : Heap O)
    (clear : Cache V → Nat → Cache V) (rec : LSt V → Nat → Option (List V × LSt V))
    (s : LSt V) (n : Nat) : Option (List V × LSt V) :=
  match D n with
  | .pure o cs => do
    let (vs, s) ← procList (procFirst rec) s cs
    let v ← S.pure o vs
    some ([v], ⟨s.st, s.log ++ record o vs⟩)
  | .var => do
    let v ← s.st.env n
    some ([v], s)
  | .ifElse c t e => do
    let (v, s) ← procFirst rec s c
    let b ← S.truth v
    rec s (if b then t else e)
  | .loop l => do
    let (vals, s) ← procList (procSingle rec) s l.inits
    let is ← Dag.trips l.lower l.upper l.step
    iterations (iteration S D clear rec l) is vals s
  | .yield cs => procList (procSingle rec) s cs
  | .resultAt c i => do
    let (r, s) ← rec s c
    let v ← r[i]?
    some ([v], s)

/-- `CachingVisitor::process`, `ArithmeticDag.h:518-533`; the number bounds the depth. -/
def process (S : Sem V O) (record : O → List V → List Int) (D : Heap O) :
    Nat → LSt V → Nat → Option (List V × LSt V)
  | 0, _, _ => none
  | k + 1, s, n =>
    match s.st.cache n with
    | some r => some (r, s)
    | none => do
      let (r, s) ← visit S record D (Dag.clearSubtree D k) (process S record D k) s n
      some (r, ⟨⟨fun m => if m = n then some r else s.st.cache m, s.st.env⟩, s.log⟩)

/-- `evalRotations`, `RotationEvalVisitor.cpp:120-125`: the recorded shifts. -/
def evalRotations (D : Heap ROp) (env : Env Lit) (n : Nat) : Option (List Int) :=
  (process rotSem recOf D (n + 1) ⟨⟨fun _ => none, env⟩, []⟩ n).map fun p => p.2.log

/-! ## The analysis -/

/-- What the analysis reads besides the operations: the number of slots
(`kActualSlotCountAttrName`) and the types. -/
structure Sig where
  slots : Nat
  ty : Nat → Ty

/-- The values of the variables that no loop sets. -/
def Sig.env (G : Sig) : Env Lit := fun v => zeroOf (dagShape G.slots (G.ty v))

/-- The indices of a rotation when all are constant, `RotationAnalysis.cpp:87-115`. -/
def constShifts (cs : List (Nat × Cst)) : List (Int ⊕ Nat) → Option (List Int)
  | [] => some []
  | .inl i :: sh => do
    let as ← constShifts cs sh
    some (i :: as)
  | .inr v :: sh => do
    let a ← intConst cs v
    let as ← constShifts cs sh
    some (a :: as)

/-- The rotations of an outermost loop in order: the constants of those before the first one with
an index that is not constant, and whether there is such a one. -/
def scan (cs : List (Nat × Cst)) : List (List (Int ⊕ Nat)) → List Int × Bool
  | [] => ([], false)
  | sh :: rest =>
    match constShifts cs sh with
    | none => ([], true)
    | some as => (as ++ (scan cs rest).1, (scan cs rest).2)

/-- `handleScfFor`, `RotationAnalysis.cpp:41-76`, on an outermost loop: the loop is translated and
evaluated.  All its rotations are then marked as visited. -/
def loopShifts (G : Sig) (cs : List (Nat × Cst)) (n lb ub st iv : Nat) (inits args : List Nat)
    (body : Block) : Option (List Int) := do
  let ns ← build cs (.loop n lb ub st iv inits args [] body (.done (n + 1) []))
  evalRotations (heapOf cs ns) G.env n

/-- The rotations found in an outermost loop, `RotationAnalysis.cpp:78-124`. -/
def runLoop (G : Sig) (cs : List (Nat × Cst)) (n lb ub st iv : Nat) (inits args : List Nat)
    (body : Block) : Option (List Int) :=
  if (scan cs body.rots).2 = true then do
    let log ← loopShifts G cs n lb ub st iv inits args body
    some ((scan cs body.rots).1 ++ log)
  else some (scan cs body.rots).1

/-- `RotationAnalysis::run`, `RotationAnalysis.cpp:78-150`, on a block outside of `scf.for`: there
a rotation by something not constant is a failure (also in `affine.for`). -/
def run (G : Sig) (cs : List (Nat × Cst)) : Block → Option (List Int)
  | .done _ _ => some []
  | .op _ _ _ rest => run G cs rest
  | .rot _ _ sh rest => do
    let as ← constShifts cs sh
    let ks ← run G cs rest
    some (as ++ ks)
  | .opq _ _ rest => run G cs rest
  | .region _ _ _ body rest => do
    let ks ← run G cs body
    let ks' ← run G cs rest
    some (ks ++ ks')
  | .loop n lb ub st iv inits args _ body rest => do
    let ks ← runLoop G cs n lb ub st iv inits args body
    let ks' ← run G cs rest
    some (ks ++ ks')
  | .ite _ _ _ _ t e rest => do
    let ks ← run G cs t
    let ks' ← run G cs e
    let ks'' ← run G cs rest
    some (ks ++ ks' ++ ks'')

/-- The set of rotation indices of a function. -/
def rotationIndices (G : Sig) (F : Block) : Option (List Int) := run G F.consts F

/-! ## Galois elements -/

/-- The loop of `ConfigureCryptoContext.cpp:333-336`. -/
def galoisLoop (n : Int) : Nat → Int → Int
  | 0, g => g
  | k + 1, g => galoisLoop n k ((g * 5).tmod (2 * n))

/-- The Galois element of a rotation index, Lattigo `ConfigureCryptoContext.cpp:329-344`; `int`
does not overflow below `logN = 28`. -/
def galoisElement (logN : Nat) (rotIndex : Int) : Int :=
  let n : Int := 2 ^ logN
  galoisLoop n (normalize rotIndex (n / 2)).toNat 1

end Heir.RotKeys
