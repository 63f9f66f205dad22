import Mathlib.Logic.Function.Basic

/-! # Secretness analysis and if-to-select conversion

Model of `lib/Analysis/SecretnessAnalysis` and `lib/Transforms/ConvertIfToSelect` on structured
programs. Values are named by numbers. Multi-result ops other than `scf.if` and `scf.for` are left
out, and so are calls. -/

namespace Heir.Secret

/-- Op names: `arith.select` or something else. -/
inductive Fn where
  | select
  | other (n : Nat)
  deriving DecidableEq, Repr

/-- A block: a list of ops. The terminators of the regions of `ite` and `loop` are the lists `ty`,
`ey` and `ys`.

`op` is a pure op without regions, `reg` a pure op with regions that is not control flow and whose
regions use the values `caps`, `reveal` is `secret.reveal`, `eff` an op that is not pure, `ite` is
`scf.if`, `loop` is `scf.for` with the operands `bounds` (lower, upper, step). -/
inductive Blk where
  | done
  | op (res : Nat) (f : Fn) (args : List Nat) (rest : Blk)
  | reg (res f : Nat) (args caps : List Nat) (rest : Blk)
  | reveal (res arg : Nat) (rest : Blk)
  | eff (res f : Nat) (args : List Nat) (rest : Blk)
  | ite (res : List Nat) (cond : Nat) (thn : Blk) (ty : List Nat) (els : Blk) (ey : List Nat)
      (rest : Blk)
  | loop (res bounds : List Nat) (iv : Nat) (params inits : List Nat) (body : Blk) (ys : List Nat)
      (rest : Blk)
  deriving DecidableEq, Repr

/-! ## The analysis -/

/-- `Secretness`, SecretnessAnalysis.h:23-97: unknown, public (`some false`) or secret. -/
abbrev Secretness := Option Bool

/-- `Secretness::join`, SecretnessAnalysis.h:47-54. -/
def join : Secretness → Secretness → Secretness
  | none, r => r
  | l, none => l
  | some l, some r => if l = r then some l else some (l || r)

/-- The loop over the operands, SecretnessAnalysis.cpp:95-108: the joined state, and whether an
operand in an unknown state was met before a secret one. -/
def scan : List Secretness → Secretness → Bool → Secretness × Bool
  | [], res, un => (res, un)
  | o :: os, res, un =>
    if join res o = some true then (join res o, un || o.isNone)
    else scan os (join res o) (un || o.isNone)

/-- `visitOperation` on an op that is not `secret.reveal`, SecretnessAnalysis.cpp:74-128: the state
joined into the results. -/
def visit (operands : List Secretness) (hasRegions : Bool) : Secretness :=
  let r := scan operands (if operands.isEmpty then some false else none) false
  if (r.2 || hasRegions) ∧ r.1 = some false then none else r.1

/-- The lattice elements of all values. -/
abbrev Labels := Nat → Secretness

/-- `propagateIfChanged(result, result->join(...))`. -/
def raise (L : Labels) (v : Nat) (s : Secretness) : Labels := Function.update L v (join (L v) s)

/-- The solver joining the states of forwarded operands into the values they are forwarded to
(MLIR's `SparseForwardDataFlowAnalysis::visitRegionSuccessors`). -/
def raiseMany (L : Labels) : List Nat → List Nat → Labels
  | v :: vs, s :: ss => raiseMany (raise L v (L s)) vs ss
  | _, _ => L

/-- The updates of the solver, one for every op of the program and every region successor.
`SecretnessAnalysis::visitOperation` is not called on `scf.if` and `scf.for`: MLIR forwards the
yielded values to the results, and the initial and yielded values to the loop arguments; the
induction variable gets the entry state of SecretnessAnalysis.cpp:34-72, public for a type that is
not secret. Dead branches (a condition known to be constant) are treated as live. -/
def visits : Blk → List (Labels → Labels)
  | .done => []
  | .op res _ args rest => (fun L => raise L res (visit (args.map L) false)) :: visits rest
  | .reg res _ args _ rest => (fun L => raise L res (visit (args.map L) true)) :: visits rest
  | .reveal res _ rest => (fun L => raise L res (some false)) :: visits rest
  | .eff res _ args rest => (fun L => raise L res (visit (args.map L) false)) :: visits rest
  | .ite res _ thn ty els ey rest =>
    (fun L => raiseMany L res ty) :: (fun L => raiseMany L res ey) ::
      (visits thn ++ visits els ++ visits rest)
  | .loop res _ iv params inits body ys rest =>
    (fun L => raise L iv (some false)) :: (fun L => raiseMany L params inits) ::
      (fun L => raiseMany L params ys) :: (fun L => raiseMany L res inits) ::
      (fun L => raiseMany L res ys) :: (visits body ++ visits rest)

/-! ## If-to-select -/

/-- Concatenation of blocks. -/
def Blk.app : Blk → Blk → Blk
  | .done, b => b
  | .op r f a rest, b => .op r f a (rest.app b)
  | .reg r f a c rest, b => .reg r f a c (rest.app b)
  | .reveal r a rest, b => .reveal r a (rest.app b)
  | .eff r f a rest, b => .eff r f a (rest.app b)
  | .ite r c t ty e ey rest, b => .ite r c t ty e ey (rest.app b)
  | .loop r bs iv ps ins body ys rest, b => .loop r bs iv ps ins body ys (rest.app b)

/-- `isPure` of all ops of a block. For `scf.for` MLIR also asks for a step that makes the loop
finite; loops are finite here. -/
def Blk.isPure : Blk → Bool
  | .done => true
  | .op _ _ _ rest => rest.isPure
  | .reg _ _ _ _ rest => rest.isPure
  | .reveal _ _ rest => rest.isPure
  | .eff _ _ _ _ => false
  | .ite _ _ t _ e _ rest => t.isPure && e.isPure && rest.isPure
  | .loop _ _ _ _ _ body _ rest => body.isPure && rest.isPure

/-- The pure ops in front of the first op that is not pure, and the others. -/
def Blk.split : Blk → Blk × Blk
  | .done => (.done, .done)
  | .op r f a rest => (.op r f a rest.split.1, rest.split.2)
  | .reg r f a c rest => (.reg r f a c rest.split.1, rest.split.2)
  | .reveal r a rest => (.reveal r a rest.split.1, rest.split.2)
  | .eff r f a rest => (.done, .eff r f a rest)
  | .ite r c t ty e ey rest =>
    if t.isPure && e.isPure then (.ite r c t ty e ey rest.split.1, rest.split.2)
    else (.done, .ite r c t ty e ey rest)
  | .loop r bs iv ps ins body ys rest =>
    if body.isPure then (.loop r bs iv ps ins body ys rest.split.1, rest.split.2)
    else (.done, .loop r bs iv ps ins body ys rest)

/-- The `arith.select`s made from the terminators, ConvertIfToSelect.cpp:79-91. -/
def selects (cond : Nat) : List Nat → List Nat → List Nat → Blk → Blk
  | r :: rs, t :: ts, e :: es, rest => .op r .select [cond, t, e] (selects cond rs ts es rest)
  | _, _, _, rest => rest

/-- `IfToSelectConversion::matchAndRewrite`, ConvertIfToSelect.cpp:39-97, on an `scf.if` followed
by `rest`; the result is `none` if nothing changes. When an op is not pure the ops in front of it
have already been hoisted (:53-72), although the pattern then fails. An `scf.if` without results and
with pure regions is erased as dead by the greedy driver before it gets here. -/
def convertIf (L : Labels) (res : List Nat) (cond : Nat) (thn : Blk) (ty : List Nat) (els : Blk)
    (ey : List Nat) (rest : Blk) : Option Blk :=
  if L cond = some false then none
  else if thn.isPure && els.isPure then
    some (thn.app (els.app (selects cond res ty ey rest)))
  else if thn.isPure then
    some (thn.app (els.split.1.app (.ite res cond .done ty els.split.2 ey rest)))
  else some (thn.split.1.app (.ite res cond thn.split.2 ty els ey rest))

end Heir.Secret
