import Mathlib.Data.List.Basic

/-! # Balancing trees of additions and multiplications

`lib/Transforms/OperationBalancer/OperationBalancer.cpp`.

Simplifications. A block is a list of ops with one result each; ops with more results, with regions
or with side effects (among them the terminator) are `other`, with every value used inside their
regions as an operand. Values defined outside of the block are not ops of the block, so the walk stops
there. The balanced tree takes over the name of the root it replaces, which stands for
`replaceAllUsesWith`; all other new ops get new names. -/

namespace Heir.Balance

/-- `arith::AddIOp`, `arith::MulIOp`, `arith::AddFOp`, `arith::MulFOp` -/
inductive Name where
  | addi | muli | addf | mulf
deriving DecidableEq

/-- The op that defines a value. -/
inductive Inst where
  | other (tag : Nat) (args : List Nat)
  | arith (op : Name) (lhs rhs : Nat)
deriving DecidableEq

def Inst.operands : Inst → List Nat
  | .other _ args => args
  | .arith _ a c => [a, c]

/-- The ops of a block, each with the name of its result. -/
abbrev Block := List (Nat × Inst)

def ids (b : Block) : List Nat := b.map Prod.fst

/-- `getDefiningOp` -/
def defOf (b : Block) (v : Nat) : Option Inst := (b.find? fun p => p.1 = v).map Prod.snd

/-- Number of uses of a value. -/
def numUses (b : Block) (v : Nat) : Nat := (b.flatMap fun p => p.2.operands).count v

/-- Trees made by `recursiveProduceBalancedTree`. -/
inductive Tree where
  | leaf (v : Nat)
  | node (l r : Tree)
deriving DecidableEq

/-- `recursiveProduceBalancedTree`, `OperationBalancer.cpp:30-75`. Fewer than two operands would
recurse forever, which runs out of fuel; the fuel is the number of operands. -/
def balancedTree : Nat → List Nat → Option Tree
  | _ + 1, [a, c] => some (.node (.leaf a) (.leaf c))
  | _ + 1, [a, c, d] => some (.node (.node (.leaf a) (.leaf c)) (.leaf d))
  | fuel + 1, l =>
    (balancedTree fuel (l.take (l.length / 2))).bind fun x =>
      (balancedTree fuel (l.drop (l.length / 2))).bind fun y => some (.node x y)
  | 0, _ => none

/-- The operands of a value that is not an operand of the tree but an intermediate result, condition
`OperationBalancer.cpp:135-136`. -/
def internal (b : Block) (T : Name) (v : Nat) : Option (Nat × Nat) :=
  match defOf b v with
  | some (.arith op a c) => if op = T ∧ numUses b v = 1 then some (a, c) else none
  | _ => none

/-- The depth-first search `OperationBalancer.cpp:125-162`: operands of the tree and intermediate
ops, in the order in which they are found. `3 ^ (number of ops)` is enough fuel
(`flattenLoop_fuel`). -/
def flattenLoop (b : Block) (T : Name) : Nat → List Nat → List Nat → List Nat → List Nat × List Nat
  | 0, _, ops, inner => (ops, inner)
  | _ + 1, [], ops, inner => (ops, inner)
  | fuel + 1, v :: stack, ops, inner =>
    match internal b T v with
    | some (a, c) => flattenLoop b T fuel (a :: c :: stack) ops (inner ++ [v])
    | none => flattenLoop b T fuel stack (ops ++ [v]) inner

/-- One entry of `roots`, `deleteOpsOrderLists` (without the root, which comes first) and
`operandsLists`. -/
structure Root where
  root : Nat
  inner : List Nat
  operands : List Nat
deriving DecidableEq

def flattenRoot (b : Block) (T : Name) (v a c : Nat) : Root :=
  let f := flattenLoop b T (3 ^ b.length) [a, c] [] []
  ⟨v, f.2, f.1⟩

/-- The first loop, over the reversed block, `OperationBalancer.cpp:97-167`. -/
def collect (b : Block) (T : Name) : Block → List Nat → List Root
  | [], _ => []
  | (v, i) :: rest, visited =>
    match i with
    | .arith op a c =>
      if op = T ∧ v ∉ visited then
        let r := flattenRoot b T v a c
        r :: collect b T rest (v :: r.inner ++ visited)
      else collect b T rest visited
    | _ => collect b T rest visited

/-- `std::stable_partition`, `OperationBalancer.cpp:188-191` -/
def groupPublic (isPublic : Nat → Bool) (l : List Nat) : List Nat :=
  l.filter isPublic ++ l.filter fun v => !isPublic v

/-- The ops of a tree in the order of creation, the name of its result, the next free name. -/
def emit (T : Name) : Tree → Nat → Block × Nat × Nat
  | .leaf v, n => ([], v, n)
  | .node l r, n =>
    let x := emit T l n
    let y := emit T r x.2.2
    (x.1 ++ y.1 ++ [(y.2.2, .arith T x.2.1 y.2.1)], y.2.2, y.2.2 + 1)

/-- The same for the tree that replaces `root`. -/
def emitRoot (T : Name) (root : Nat) : Tree → Nat → Block × Nat
  | .leaf _, n => ([], n)
  | .node l r, n =>
    let x := emit T l n
    let y := emit T r x.2.2
    (x.1 ++ y.1 ++ [(root, .arith T x.2.1 y.2.1)], y.2.2)

/-- The new ops go before the root, which they replace (`OperationBalancer.cpp:195-199` and the first
`erase`). -/
def replaceOp (b : Block) (root : Nat) (new : Block) : Block :=
  b.flatMap fun p => if p.1 = root then new else [p]

/-- `op->erase()` for the other ops, `OperationBalancer.cpp:201-204`. Erasing an op twice is undefined,
erasing an op that still has uses fails an assertion. -/
def eraseAll : Block → List Nat → Option Block
  | b, [] => some b
  | b, d :: ds =>
    if d ∈ ids b ∧ numUses b d = 0 then eraseAll (b.filter fun p => p.1 ≠ d) ds else none

/-- One round of the second loop, `OperationBalancer.cpp:169-205`. The state is the block and the next
free name. -/
def balanceRoot (isPublic : Nat → Bool) (T : Name) (st : Block × Nat) (r : Root) :
    Option (Block × Nat) :=
  if r.operands.length ≤ 2 then some st
  else
    (balancedTree r.operands.length (groupPublic isPublic r.operands)).bind fun t =>
      (eraseAll (replaceOp st.1 r.root (emitRoot T r.root t st.2).1) r.inner).map fun b' =>
        (b', (emitRoot T r.root t st.2).2)

/-- `tryBalanceBlock`, `OperationBalancer.cpp:88-206` -/
def tryBalanceBlock (isPublic : Nat → Bool) (T : Name) (b : Block) (next : Nat) :
    Option (Block × Nat) :=
  (collect b T b.reverse []).foldlM (balanceRoot isPublic T) (b, next)

/-- `runOnOperation` on the body of one `secret.generic`, `OperationBalancer.cpp:225-230`. Which values
are known to be public may be different for every call (new values are in no lattice). -/
def runOnBody (isPublic : Name → Nat → Bool) (b : Block) (next : Nat) : Option (Block × Nat) :=
  [Name.addi, .muli, .addf, .mulf].foldlM
    (fun st T => tryBalanceBlock (isPublic T) T st.1 st.2) (b, next)

end Heir.Balance
