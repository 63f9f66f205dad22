import Verif.Dag.Model

/-!
# Model of the visitor that turns an arithmetic DAG into operations

`lib/Kernel/IRMaterializingVisitor.{h,cpp}` on top of `CachingVisitor`
(`lib/Kernel/ArithmeticDag.h:511-545`).

The DAG is the heap of `Verif.Dag.Model`.  A `LeafNode` holds a value that exists before the visitor
runs, and so does a `VariableNode` that is not bound by a loop: both are `Kind.var` nodes with a
name in the initial state.  SSA values are numbered names, numbered in the order in which they are
made (the results of an `scf` operation after the values in its regions; nothing reads the numbers).
`none` is a failed assertion or an access past the end of a vector.

Simplified: types and attributes are left out, and one node makes one operation (index casts, the
bounds of a loop and the divisor of a floor division are part of the operation that uses them; they
are made in front of it, in the same block).
-/

namespace Heir.Emit

open Heir.Dag (Kind Heap Env LoopNode setVar setVars)

variable {O : Type}

/-- Operations in a block.  `seq` is concatenation. -/
inductive Code (O : Type) where
  | nil
  | seq (first second : Code O)
  /-- an operation with one result -/
  | op (res : Nat) (o : O) (args : List Nat)
  /-- `scf.if` with its two regions and the operands of their `scf.yield`s -/
  | ite (res : List Nat) (cond : Nat) (thenCode : Code O) (thenYields : List Nat)
      (elseCode : Code O) (elseYields : List Nat)
  /-- `scf.for` with its body and the operands of its `scf.yield` -/
  | loop (res : List Nat) (iv : Nat) (lower upper step : Int) (inits args : List Nat)
      (body : Code O) (yields : List Nat)
deriving DecidableEq, Repr

/-- State of the visitor: the cache (`ArithmeticDag.h:521-531`), the `value` fields of the variable
nodes (`ArithmeticDag.h:109-112`) and the next unused name. -/
structure ESt where
  cache : Nat → Option (List Nat)
  vars : Env Nat
  next : Nat

/-- What a visit returns: the values of the node, the operations made, the state. -/
abbrev Res (O : Type) := Option (List Nat × Code O × ESt)

/-- `n` new names. -/
def fresh (start n : Nat) : List Nat := (List.range n).map (start + ·)

/-- `process(child)[0]`. -/
def first : List Nat → Option Nat
  | v :: _ => some v
  | [] => none

/-- `process(child)` with the assertion of `IRMaterializingVisitor.cpp:411` that there is one
value. -/
def single : List Nat → Option Nat
  | [v] => some v
  | _ => none

/-- Visit children in order and take one value of each; the operations are made in this order. -/
def visitList (pick : List Nat → Option Nat) (rec : ESt → Nat → Res O) : ESt → List Nat → Res O
  | s, [] => some ([], .nil, s)
  | s, c :: cs =>
    (rec s c).bind fun r => (pick r.1).bind fun v =>
      (visitList pick rec r.2.2 cs).map fun q => (v :: q.1, .seq r.2.1 q.2.1, q.2.2)

/-- The number of elements of a `YieldNode`. -/
def yieldSize : Kind O → Option Nat
  | .yield cs => some cs.length
  | _ => none

/-- `IRMaterializingVisitor.cpp:329-338`: both bodies are `YieldNode`s of the same size. -/
def sameYields (t e : Kind O) : Bool := (yieldSize t).isSome && yieldSize t == yieldSize e

/-- State in the body of a loop, `IRMaterializingVisitor.cpp:379-388`: the block arguments get new
names and are stored in the variable nodes, the induction variable first. -/
def enterLoop (l : LoopNode) (n : Nat) (s : ESt) : ESt :=
  { s with
    vars := setVars (setVar s.vars l.iv s.next) l.iterArgs (fresh (s.next + 1) n)
    next := s.next + 1 + n }

/-- The nodes that make one operation: `IRMaterializingVisitor.cpp:40-323`,
`IRMaterializingVisitor.h:38-55`. -/
def visitPure (o : O) (r : List Nat × Code O × ESt) : List Nat × Code O × ESt :=
  ([r.2.2.next], .seq r.2.1 (.op r.2.2.next o r.1), { r.2.2 with next := r.2.2.next + 1 })

/-- `IRMaterializingVisitor.cpp:325-355`, after the condition: the then region, then the else
region. -/
def visitIf (rec : ESt → Nat → Res O) (cond : Nat) (code : Code O) (s : ESt) (t e : Nat) : Res O :=
  (rec s t).bind fun rt => (rec rt.2.2 e).map fun re =>
    let res := fresh re.2.2.next rt.1.length
    (res, .seq code (.ite res cond rt.2.1 rt.1 re.2.1 re.1),
      { re.2.2 with next := re.2.2.next + rt.1.length })

/-- `IRMaterializingVisitor.cpp:372-403`, after the initial values. -/
def visitLoop (rec : ESt → Nat → Res O) (l : LoopNode) (inits : List Nat) (code : Code O)
    (s : ESt) : Res O :=
  (rec (enterLoop l inits.length s) l.body).map fun r =>
    let res := fresh r.2.2.next inits.length
    (res, .seq code (.loop res s.next l.lower l.upper l.step inits (fresh (s.next + 1) inits.length)
        r.2.1 r.1),
      { r.2.2 with next := r.2.2.next + inits.length })

/-- `operator()`, by kind of node. -/
def visit (D : Heap O) (rec : ESt → Nat → Res O) (s : ESt) (n : Nat) : Res O :=
  match D n with
  | .pure o cs => (visitList first rec s cs).map (visitPure o)
  | .var => (s.vars n).map fun v => ([v], .nil, s)
  | .ifElse c t e =>
    (rec s c).bind fun r => (first r.1).bind fun v =>
      if sameYields (D t) (D e) then visitIf rec v r.2.1 r.2.2 t e else none
  | .loop l =>
    (visitList first rec s l.inits).bind fun r =>
      if l.iterArgs.length = r.1.length ∧ (yieldSize (D l.body)).isSome then
        visitLoop rec l r.1 r.2.1 r.2.2
      else none
  | .yield cs => visitList single rec s cs
  | .resultAt c i => (rec s c).bind fun r => (r.1[i]?).map fun v => ([v], r.2)

/-- `process`, `ArithmeticDag.h:518-533`; the first argument bounds the depth. -/
def process (D : Heap O) : Nat → ESt → Nat → Res O
  | 0, _, _ => none
  | k + 1, s, n =>
    match s.cache n with
    | some vs => some (vs, .nil, s)
    | none => (visit D (process D k) s n).map fun r =>
        (r.1, r.2.1, { r.2.2 with cache := fun m => if m = n then some r.1 else r.2.2.cache m })

/-- A new visitor at a root.  `vars` are the values that exist already, `next` is above them. -/
def materialize (D : Heap O) (vars : Env Nat) (next : Nat) (n : Nat) : Res O :=
  process D (n + 1) ⟨fun _ => none, vars, next⟩ n

end Heir.Emit
