import Mathlib.Data.Finset.Max
import Mathlib.Algebra.Ring.Defs
import Mathlib.Algebra.Order.Ring.Int

/-! # Partial reductions by rotation, and insertion chains

`lib/Analysis/PartialReductionRotateAnalysis/PartialReductionRotateAnalysis.{h,cpp}`,
`lib/Dialect/TensorExt/Transforms/RotateAndReduce.cpp`.

Simplifications. The program is a straight-line list of SSA values (regions only add more values that
are opaque to the analysis). Index arithmetic is on unbounded integers: `index + shift` in the code is
a 64-bit sum. The map from roots to reductions is a list indexed by the value, which forgets the
difference between an absent root and one without reductions; no loop over reductions sees it. -/

namespace Heir.Reduce

/-- Names of the four ops the analysis handles. -/
inductive Name where
  | addi | muli | addf | mulf
deriving DecidableEq

/-- Types: one-dimensional ranked tensor, any other ranked tensor, anything else. -/
inductive Ty where
  | vec (n : Nat)
  | ranked
  | scalar
deriving DecidableEq

/-- One SSA value. A shift or index carries its run-time value and whether constant propagation
finds it. `other` is any op without special treatment, or a block argument. -/
inductive Inst where
  | other (ty : Ty)
  | rotate (src : Nat) (shift : Int) (known : Bool)
  | extract (src : Nat) (index : Int) (known : Bool)
  | arith (op : Name) (lhs rhs : Nat)
deriving DecidableEq

/-- `PartialReduction`, `PartialReductionRotateAnalysis.h:35-268`. The root is the value under which
the reduction is stored. -/
structure PR where
  tensor : Nat
  /-- `tensor.getType().getShape()[0]` -/
  size : Nat
  opName : Option Name
  accessed : Finset Int
  saved : List Nat
deriving DecidableEq

namespace PR

/-- `isComplete`, `PartialReductionRotateAnalysis.h:43-54` (the set is never empty) -/
def isComplete (r : PR) : Bool :=
  decide (r.accessed.min = ((0 : Int) : WithTop Int) ∧
    r.accessed.max = (((r.size : Int) - 1 : Int) : WithBot Int) ∧ r.accessed.card = r.size)

/-- `initializeFromValue`, `PartialReductionRotateAnalysis.h:81-93` -/
def initializeFromValue (v n : Nat) : PR := ⟨v, n, none, {0}, []⟩

/-- `rotate`, `PartialReductionRotateAnalysis.h:98-118`: `%` truncates; the saved values are not
copied. -/
def rotate (r : PR) (shift : Int) : PR :=
  { r with accessed := r.accessed.image fun i => (i + shift).tmod r.size, saved := [] }

/-- The op names agree, `PartialReductionRotateAnalysis.h:128-144` -/
def namesAgree (a b : Option Name) (op : Name) : Bool :=
  match a, b with
  | none, none => true
  | some x, some y => x = y && x = op
  | some x, none => x = op
  | none, some y => y = op

/-- `canJoin`, `PartialReductionRotateAnalysis.h:122-160` -/
def canJoin (l r : PR) (op : Name) : Bool :=
  l.tensor == r.tensor && namesAgree l.opName r.opName op &&
    let smaller := if l.accessed.card < r.accessed.card then l else r
    let larger := if l.accessed.card ≥ r.accessed.card then l else r
    decide (∀ i ∈ smaller.accessed, i ∉ larger.accessed)

/-- `join`, `PartialReductionRotateAnalysis.h:164-191` -/
def join (l r : PR) (op : Name) : PR :=
  ⟨l.tensor, l.size, some op, l.accessed ∪ r.accessed, l.saved ++ r.saved⟩

/-- `canSave`, `PartialReductionRotateAnalysis.h:195-214` -/
def canSave (l : PR) (ty : Ty) (op : Name) : Bool :=
  (l.opName = none || l.opName = some op) &&
    match ty with
    | .scalar => true
    | _ => false

/-- `save`, `PartialReductionRotateAnalysis.h:218-234` -/
def save (l : PR) (v : Nat) (op : Name) : PR :=
  ⟨l.tensor, l.size, some op, l.accessed, l.saved ++ [v]⟩

end PR

/-- What is known about a value: its type and the reductions rooted at it. -/
structure Info where
  ty : Ty
  reds : List PR

/-- Type of the result of an op. -/
def resultTy (st : List Info) : Inst → Ty
  | .other ty => ty
  | .rotate src _ _ => (st[src]?.map Info.ty).getD .scalar
  | .extract .. => .scalar
  | .arith _ lhs _ => (st[lhs]?.map Info.ty).getD .scalar

def redsAt (st : List Info) (v : Nat) : List PR := (st[v]?.map Info.reds).getD []
def tyAt (st : List Info) (v : Nat) : Ty := (st[v]?.map Info.ty).getD .scalar

/-- All joins, `PartialReductionRotateAnalysis.cpp:157-167` -/
def joins (L R : List PR) (op : Name) : List PR :=
  L.flatMap fun l => R.filterMap fun r => if l.canJoin r op then some (l.join r op) else none

/-- Saving the other operand, `PartialReductionRotateAnalysis.cpp:171-187` -/
def saves (L : List PR) (v : Nat) (ty : Ty) (op : Name) : List PR :=
  L.filterMap fun l => if l.canSave ty op then some (l.save v op) else none

/-- Special treatment of one op, `PartialReductionRotateAnalysis.cpp:60-188` -/
def visit (st : List Info) : Inst → List PR
  | .other _ => []
  | .rotate src s known => if known then (redsAt st src).map (·.rotate s) else []
  | .extract src i known => if known then (redsAt st src).map (·.rotate i) else []
  | .arith op a b =>
    let js := joins (redsAt st a) (redsAt st b) op
    if js ≠ [] then js
    else saves (redsAt st a) b (tyAt st b) op ++ saves (redsAt st b) a (tyAt st a) op

/-- A one-dimensional tensor starts a reduction, `PartialReductionRotateAnalysis.cpp:40-52` and
`PartialReductionRotateAnalysis.h:302-306` -/
def leafOf (v : Nat) : Ty → List PR
  | .vec n => [.initializeFromValue v n]
  | _ => []

def step (st : List Info) (i : Inst) : List Info :=
  st ++ [⟨resultTy st i, leafOf st.length (resultTy st i) ++ visit st i⟩]

/-- `PartialReductionRotateAnalysis::run`, `PartialReductionRotateAnalysis.cpp:27-192` -/
def run (prog : List Inst) : List Info := prog.foldl step []

/-- The reductions that `RotateAndReduce::runOnOperation` replaces at value `v`
(`RotateAndReduce.cpp:92-129`): the op is one of the four, the reduction is complete and the tensor
has more than one element. -/
def replaced (prog : List Inst) (v : Nat) : List (Name × PR) :=
  match prog[v]? with
  | some (.arith op _ _) =>
    ((redsAt (run prog) v).filter fun r => r.isComplete && decide (1 < r.size)).map fun r => (op, r)
  | _ => []

end Heir.Reduce
