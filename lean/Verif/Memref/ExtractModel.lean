/-!
# The body of a loop as a function

Model of `lib/Transforms/MemrefToArith/ExtractLoopBody.cpp`: what is done to the body of the
innermost loop.  The operations of the body have no regions and no more than one result.  Trip
counts, thresholds and the name of the function are left out.
-/

namespace Heir.Memref.Extract

/-- Operations of the body: `affine.load`/`memref.load` (the memref is part of `f`), `affine.store`
of a value at indices, other operations, and the call. -/
inductive Op where
  | load (f r : Nat) (args : List Nat)
  | store (f v : Nat) (args : List Nat)
  | op (f r : Nat) (args : List Nat)
  | call (r : Nat) (args : List Nat)
deriving DecidableEq, Repr

def Op.args : Op → List Nat
  | .load _ _ as => as
  | .store _ v as => v :: as
  | .op _ _ as => as
  | .call _ as => as

def Op.res : Op → Option Nat
  | .load _ r _ => some r
  | .store _ _ _ => none
  | .op _ r _ => some r
  | .call r _ => some r

/-- The loop: the induction variables, the `arith.constant`s defined outside (value and constant),
the values defined outside otherwise and the body. -/
structure Loop where
  ivs : List Nat
  consts : List (Nat × Nat)
  outer : List Nat
  body : List Op
deriving DecidableEq, Repr

structure Fun where
  inputs : List Nat
  ops : List Op
  ret : Nat
deriving DecidableEq, Repr

inductive Res (α : Type) where
  | ok (a : α)
  | unchanged
  | ub
deriving DecidableEq, Repr

/-- Some value of `S`, or computed from values of `S` without a load, is an operand of a load,
`checkUsedForLoad`, `ExtractLoopBody.cpp:43-71`.  (Users come after definitions, so that one pass
finds what the queue finds.) -/
def reachesLoad (S : List Nat) : List Op → Bool
  | [] => false
  | o :: os =>
    if o.args.any (S.contains ·) then
      match o with
      | .load _ _ _ => true
      | .store _ _ _ => reachesLoad S os
      | .op _ r _ => reachesLoad (r :: S) os
      | .call r _ => reachesLoad (r :: S) os
    else reachesLoad S os

/-- The same for stores. -/
def reachesStore (S : List Nat) : List Op → Bool
  | [] => false
  | o :: os =>
    if o.args.any (S.contains ·) then
      match o with
      | .load _ _ _ => reachesStore S os
      | .store _ _ _ => true
      | .op _ r _ => reachesStore (r :: S) os
      | .call r _ => reachesStore (r :: S) os
    else reachesStore S os

/-- The loaded values, `ExtractLoopBody.cpp:107-111`. -/
def inputs : List Op → List Nat
  | [] => []
  | .load _ r _ :: os => r :: inputs os
  | _ :: os => inputs os

/-- The stored values, `ExtractLoopBody.cpp:112-115`. -/
def results : List Op → List Nat
  | [] => []
  | .store _ v _ :: os => v :: results os
  | _ :: os => results os

/-- The operations that go into the function, `ExtractLoopBody.cpp:118-132`: those not used to
compute load operands only. -/
def toCopy (body : List Op) : List Op → List Op
  | [] => []
  | .op f r as :: os =>
    if reachesLoad [r] body && !reachesStore [r] body then toCopy body os
    else .op f r as :: toCopy body os
  | _ :: os => toCopy body os

/-- The constants among the operands, `ExtractLoopBody.cpp:123-130`; those defined in the body are
themselves among the operations to copy or only used by loads. -/
def constOps (L : Loop) (copied : List Op) : List Op :=
  (L.consts.filter fun c => copied.any fun o => o.args.contains c.1).map fun c => .op c.2 c.1 []

def ren (r c x : Nat) : Nat := if x = r then c else x

def Op.rename (r c : Nat) : Op → Op
  | .load f x as => .load f x (as.map (ren r c))
  | .store f v as => .store f (ren r c v) (as.map (ren r c))
  | .op f x as => .op f x (as.map (ren r c))
  | .call x as => .call x (as.map (ren r c))

/-- The call goes after the operation that defines the result; then all uses of the result are
replaced, those in the call itself too, `ExtractLoopBody.cpp:184-187`. -/
def insertCall (r c : Nat) (ins : List Nat) : List Op → List Op
  | [] => []
  | o :: os => if o.res = some r then o :: .call c ins :: os else o :: insertCall r c ins os

/-- A copied operation that is erased: its result is not used for a load, `:189-196`. -/
def erased (copied body : List Op) (o : Op) : Bool :=
  match o with
  | .op _ r _ => copied.contains o && !reachesLoad [r] body
  | _ => false

/-- `extractLoopBody`, `ExtractLoopBody.cpp:86-197`; `c` is the result of the call. -/
def extract (L : Loop) (c : Nat) : Res (Fun × List Op) :=
  let copied := toCopy L.body L.body
  if copied.any fun o => o.args.any (L.ivs.contains ·) then .ub
  else
    match copied.getLast?, inputs L.body, results L.body with
    | none, _, _ => .unchanged
    | some last, i :: is, [v] =>
      -- the check of lines 146-151 never fails for an operation with one result
      -- a stored value from outside: the call would be there too, or at an induction variable
      if ¬ L.body.any (fun o => o.res = some v) then .ub
      else
        let ins := i :: is
        let body := (insertCall v c ins L.body).map (Op.rename v c)
        let kept := body.filter fun o => !erased (copied.map (Op.rename v c)) body o
        if body.any fun o => erased (copied.map (Op.rename v c)) body o &&
            kept.any fun k => match o.res with
              | some r => k.args.contains r
              | none => false
        then .ub
        else .ok (⟨ins, constOps L copied ++ copied, last.res.getD 0⟩, kept)
    | _, _, _ => .unchanged

end Heir.Memref.Extract
