import Verif.Lut.Model

/-!
# Model of the passes that remove memrefs

`lib/Transforms/MemrefToArith/{UnrollAndForward,ExpandCopy,ExtractLoopBody,MemrefGlobalReplace}.cpp`.

A function body after unrolling is a list of operations.  Scalars and memrefs are numbered
separately.  Loops that were not unrolled, conditionals, calls and all operations on memrefs other
than `affine.load`, `affine.store`, `memref.alloc`, `memref.get_global` and views are `other`.
-/

namespace Heir.Memref

open Heir.Lut (flattenIndex unflattenIndex)

/-! ## Programs -/

/-- An index of an access: a constant or a value. -/
abbrev Idx := Int ⊕ Nat

/-- The operations of a block.  `view`: `reinterpret_cast`, `extract_strided_metadata`, `subview`,
`expand_shape` and `collapse_shape`.  `other f rs ms args mems`: scalar results `rs`, memref results
`ms`, scalar operands `args`, memref operands `mems`, those of regions included. -/
inductive Op where
  | alloc (m : Nat)
  | view (m src : Nat)
  | global (m : Nat)
  | store (v m : Nat) (idx : List Idx)
  | load (r m : Nat) (idx : List Idx)
  | other (f : Nat) (rs ms args mems : List Nat)
deriving DecidableEq, Repr

/-- The layout in the type of a memref, `MemRefType::getStridesAndOffset`; `none` is dynamic. -/
structure Layout where
  strides : List (Option Int)
  offset : Option Int
deriving DecidableEq, Repr

/-- `ShapedType::kDynamic`. -/
def kDynamic : Int := -2 ^ 63

def Layout.strideVals (l : Layout) : List Int := l.strides.map (·.getD kDynamic)

def Layout.offsetVal (l : Layout) : Int := l.offset.getD kDynamic

/-- The types: of the scalars, and the layouts of the memrefs. -/
structure Types where
  ty : Nat → Nat
  lay : Nat → Layout

/-- A function: arguments, operations, returned scalars and memrefs. -/
structure Prog where
  args : List Nat
  margs : List Nat
  body : List Op
  rets : List Nat
  mrets : List Nat
deriving DecidableEq, Repr

/-- Result of a function of the pass. -/
inductive Res (α : Type) where
  | ok (a : α)
  | fail
  | ub
deriving DecidableEq, Repr

/-! ## Forwarding -/

/-- `materialize`, `Utils.cpp:22-41`: all indices constant. -/
def materialize : List Idx → Option (List Int)
  | [] => some []
  | .inl i :: is => (materialize is).map (i :: ·)
  | .inr _ :: _ => none

/-- `findSourceMemRef`, `UnrollAndForward.cpp:174-210`: the operations before the access, last one
first; definitions precede uses.  `none` is `llvm_unreachable`. -/
def findSource : List Op → Nat → Option Nat
  | [], m => some m
  | .view r s :: ops, m => if r = m then findSource ops s else findSource ops m
  | .alloc r :: ops, m => if r = m then some m else findSource ops m
  | .global r :: ops, m => if r = m then none else findSource ops m
  | .store _ _ _ :: ops, m => findSource ops m
  | .load _ _ _ :: ops, m => findSource ops m
  | .other _ _ ms _ _ :: ops, m => if m ∈ ms then none else findSource ops m

/-- The key of an access, `UnrollAndForward.cpp:141-172` and `:222-229`.  No overflow. -/
def key (T : Types) (before : List Op) (m : Nat) (idx : List Idx) : Res (Nat × Int) :=
  match materialize idx with
  | none => .fail
  | some is =>
    match flattenIndex (T.lay m).offsetVal is (T.lay m).strideVals, findSource before m with
    | some k, some s => .ok (s, k)
    | _, _ => .ub

/-- `updateStoreMap`, `UnrollAndForward.cpp:213-234`, on all operations (last one first): fails for
a store whose indices are not constant. -/
def storeMap (T : Types) : List Op → Res Unit
  | [] => .ok ()
  | .store _ m idx :: ops =>
    match storeMap T ops with
    | .ok _ =>
      match key T ops m idx with
      | .ok _ => .ok ()
      | .fail => .fail
      | .ub => .ub
    | r => r
  | _ :: ops => storeMap T ops

/-- The value of the latest store with a key, `UnrollAndForward.cpp:261-272`. -/
def lastStore (T : Types) (k : Nat × Int) : List Op → Option Nat
  | [] => none
  | .store v m idx :: ops => if key T ops m idx = .ok k then some v else lastStore T k ops
  | _ :: ops => lastStore T k ops

/-- The memref is defined by `memref.get_global`. -/
def isGlobal (before : List Op) (m : Nat) : Bool := before.contains (.global m)

/-- The memref is defined by `memref.alloc`. -/
def isAlloc (before : List Op) (m : Nat) : Bool := before.contains (.alloc m)

inductive Action where
  | keep
  | replace (v : Nat)
  | reload (s : Nat) (is : List Int)
deriving DecidableEq, Repr

/-- `forwardFullyUnrolledStoreToLoad`, `UnrollAndForward.cpp:242-323`.  A source that is not a
function argument is an `alloc`. -/
def action (T : Types) (before : List Op) (r m : Nat) (idx : List Idx) : Res Action :=
  if isGlobal before m then .fail
  else
    match key T before m idx with
    | .fail => .fail
    | .ub => .ub
    | .ok k =>
      match lastStore T k before with
      | some v => if T.ty v ≠ T.ty r then .fail else .ok (.replace v)
      | none =>
        if isAlloc before k.1 then .ub
        else if k.1 = m then .ok .keep
        else
          match unflattenIndex k.2 (T.lay k.1).offsetVal (T.lay k.1).strideVals with
          | some is => .ok (.reload k.1 is)
          | none => .ub

def ren (r v x : Nat) : Nat := if x = r then v else x

def renIdx (r v : Nat) : Idx → Idx
  | .inl i => .inl i
  | .inr x => .inr (ren r v x)

def Op.rename (r v : Nat) : Op → Op
  | .alloc m => .alloc m
  | .view m s => .view m s
  | .global m => .global m
  | .store x m idx => .store (ren r v x) m (idx.map (renIdx r v))
  | .load x m idx => .load x m (idx.map (renIdx r v))
  | .other f rs ms args mems => .other f rs ms (args.map (ren r v)) mems

/-- The operation at position `i`, if it is a load, is forwarded: the load is replaced and erased.
(The pass erases the loads, then without uses, later.) -/
def forward (T : Types) (p : Prog) (i : Nat) : Res Prog :=
  match p.body.drop i with
  | .load r m idx :: after =>
    match action T (p.body.take i).reverse r m idx with
    | .fail => .fail
    | .ub => .ub
    | .ok .keep => .ok p
    | .ok (.replace v) =>
      .ok { p with body := p.body.take i ++ after.map (Op.rename r v), rets := p.rets.map (ren r v) }
    | .ok (.reload s is) => .ok { p with body := p.body.take i ++ .load r s (is.map .inl) :: after }
  | _ => .fail

/-! ## Unused memrefs -/

/-- The memref and its views. -/
def views (S : List Nat) : List Op → List Nat
  | [] => S
  | .view m s :: ops => if s ∈ S then views (m :: S) ops else views S ops
  | _ :: ops => views S ops

/-- An operation that uses a memref of `S` other than by storing to it or by making a view. -/
def reads (S : List Nat) : Op → Bool
  | .load _ m _ => S.contains m
  | .other _ _ _ _ mems => mems.any (S.contains ·)
  | _ => false

/-- A view of a view. -/
def nested (a : Nat) (S : List Nat) : Op → Bool
  | .view _ s => s != a && S.contains s
  | _ => false

/-- An operation that goes with the memref `a`. -/
def goes (a : Nat) (S : List Nat) : Op → Bool
  | .alloc m => m == a
  | .view _ s => S.contains s
  | .store _ m _ => S.contains m
  | _ => false

/-- `eraseUnusedMemrefOps`, `UnrollAndForward.cpp:85-139`.  Views are erased in the order they are
found, a view before the views of it, whose operand then is erased: undefined. -/
def eraseUnused (p : Prog) (a : Nat) : Res Prog :=
  if p.body.any (reads (views [a] p.body)) || p.mrets.any ((views [a] p.body).contains ·) then .fail
  else if p.body.any (nested a (views [a] p.body)) then .ub
  else .ok { p with body := p.body.filter fun o => !goes a (views [a] p.body) o }

end Heir.Memref
