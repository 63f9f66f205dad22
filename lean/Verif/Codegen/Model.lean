import Mathlib.Data.List.Basic

/-!
# Loop nests from isl syntax trees

Model of `lib/Utils/Layout/Codegen.cpp:49-68, :219-647`.  The syntax tree made by isl is an input.  Names of
variables and SSA values are numbers.  Locations, callbacks and insertion points are left out; the
regions of operations are kept, so that a value used outside of its region is undefined.  A failure, a
null value that is used, an assertion and an operation that the verifier rejects are `none`.
-/

namespace Heir.Codegen

/-! ## Trees of isl -/

inductive Bin where
  | add | sub | mul | div | pdivq | max | min | and | or | fdivq
deriving DecidableEq, Repr

inductive Cmp where
  | eq | lt | le | gt | ge
deriving DecidableEq, Repr

/-- `isl_ast_expr_op_type`. -/
inductive Kind where
  | bin (k : Bin)
  | minus
  | cmp (k : Cmp)
  | select
  | zdivr
  | pdivr
  | other
deriving DecidableEq, Repr

inductive Expr where
  | id (x : Nat)
  | int (n : Int)
  | op (k : Kind) (args : List Expr)

/-- `le`: the condition of the loop is `x <= ub`, otherwise `x < ub`. -/
inductive Node where
  | loop (x : Nat) (init : Expr) (le : Bool) (ub step : Expr) (body : Node)
  | ifThen (c : Expr) (t : Node)
  | ifElse (c : Expr) (t e : Node)
  | block (ns : List Node)
  | user (args : List Expr)

/-! ## Operations of MLIR -/

inductive ABin where
  | addi | subi | muli | divsi | floordivsi | maxsi | minsi | andi | ori | remsi
deriving DecidableEq, Repr

/-- `body` stands for what the function `bodyBuilder` builds. -/
inductive Op where
  | const (r : Nat) (n : Int)
  | bin (r : Nat) (k : ABin) (a b : Nat)
  | cmpi (r : Nat) (k : Cmp) (a b : Nat)
  /-- `arith.extui` of an `i1` -/
  | ext (r a : Nat)
  | select (r c a b : Nat)
  | loop (rs : List Nat) (iv : Nat) (args : List Nat) (lb ub step : Nat) (inits : List Nat)
      (body : List Op) (yields : List Nat)
  | ite (rs : List Nat) (c : Nat) (t : List Op) (ty : List Nat) (e : List Op) (ey : List Nat)
  | body (rs idx iters : List Nat)

/-! ## Expressions -/

/-- `islBinaryOpToMlir`, `Codegen.cpp:49-60`. -/
def Bin.mlir : Bin → ABin
  | .add => .addi
  | .sub => .subi
  | .mul => .muli
  | .div => .divsi
  | .pdivq => .floordivsi
  | .max => .maxsi
  | .min => .minsi
  | .and => .andi
  | .or => .ori
  | .fdivq => .floordivsi

/-- A value and whether its type is `i1`; otherwise it is `i32`. -/
abbrev Arg := Nat × Bool

/-- Operators with more than two operands, `Codegen.cpp:257-267`. -/
def foldBin (k : ABin) (acc : Nat) : List Arg → Nat → List Op × Nat × Nat
  | [], n => ([], acc, n)
  | a :: as, n =>
    match foldBin k n as (n + 1) with
    | (ops, r, n') => (.bin n k acc a.1 :: ops, r, n')

/-- `extendToCommonWidth`, `Utils.cpp:249-280`, of one value. -/
def extend (a : Arg) (n : Nat) : List Op × Nat × Nat :=
  if a.2 then ([.ext n a.1], n, n + 1) else ([], a.1, n)

/-- The operations for an operator, `Codegen.cpp:253-345`. -/
def emitOp (k : Kind) (args : List Arg) (n : Nat) : Option (List Op × Arg × Nat) :=
  match k, args with
  | .bin k, a :: b :: as =>
    match foldBin k.mlir a.1 (b :: as) n with
    | (ops, r, n') => some (ops, (r, a.2), n')
  | .minus, a :: _ => some ([.const n 0, .bin (n + 1) .subi n a.1], (n + 1, false), n + 2)
  | .cmp k, a :: b :: _ =>
    if a.2 = b.2 then some ([.cmpi n k a.1 b.1], (n, true), n + 1)
    else
      match extend a n with
      | (oa, ra, n1) =>
        match extend b n1 with
        | (ob, rb, n2) => some (oa ++ ob ++ [.cmpi n2 k ra rb], (n2, true), n2 + 1)
  | .select, c :: a :: b :: _ =>
    if c.2 then some ([.select n c.1 a.1 b.1], (n, a.2), n + 1) else none
  | .zdivr, a :: b :: _ => some ([.bin n .remsi a.1 b.1], (n, false), n + 1)
  | .pdivr, a :: b :: _ =>
    some ([.bin n .floordivsi a.1 b.1, .bin (n + 1) .muli b.1 n, .bin (n + 2) .subi a.1 (n + 1)],
      (n + 2, false), n + 3)
  | _, _ => none

mutual

/-- `buildIslExpr`, `Codegen.cpp:219-353`; `iv` is `ivToValue`, `n` the next value. -/
def genE (iv : Nat → Option Nat) : Expr → Nat → Option (List Op × Arg × Nat)
  | .id x, n => (iv x).map fun r => ([], (r, false), n)
  | .int c, n => some ([.const n c], (n, false), n + 1)
  | .op k args, n =>
    match genEs iv args n with
    | some (ops, as, n1) => (emitOp k as n1).map fun (ops', r, n2) => (ops ++ ops', r, n2)
    | none => none

def genEs (iv : Nat → Option Nat) : List Expr → Nat → Option (List Op × List Arg × Nat)
  | [], n => some ([], [], n)
  | e :: es, n =>
    match genE iv e n with
    | some (ops, a, n1) => (genEs iv es n1).map fun (ops', as, n2) => (ops ++ ops', a :: as, n2)
    | none => none

end

/-! ## Loop nests -/

/-- The members of `MLIRLoopNestGenerator`; `loops` are the results of `loops_`. -/
structure St where
  next : Nat
  iv : Nat → Option Nat
  iters : List Nat
  loops : List (List Nat)

def fresh (n k : Nat) : List Nat := (List.range k).map (n + ·)

/-- `std::map::insert` keeps a value that is there. -/
def insert (iv : Nat → Option Nat) (x v : Nat) : Nat → Option Nat :=
  fun y => if y = x then some ((iv x).getD v) else iv y

def restore (iv : Nat → Option Nat) (x : Nat) (old : Option Nat) : Nat → Option Nat :=
  fun y => if y = x then old else iv y

/-- The variable of a reversed loop, `Codegen.cpp:409-446`. -/
def reverseOps (lb ub step iv n : Nat) : List Op :=
  [.const n 1, .bin (n + 1) .subi ub n, .bin (n + 2) .subi (n + 1) lb,
    .bin (n + 3) .floordivsi (n + 2) step, .bin (n + 4) .muli (n + 3) step,
    .bin (n + 5) .addi lb (n + 4), .bin (n + 6) .subi iv lb, .bin (n + 7) .subi (n + 5) (n + 6)]

/-- The bounds of a loop, `Codegen.cpp:371-397`: operations, lower bound, upper bound (excluded), step. -/
def genBounds (iv : Nat → Option Nat) (init : Expr) (le : Bool) (ub step : Expr) (n : Nat) :
    Option (List Op × Nat × Nat × Nat × Nat) :=
  match genE iv init n with
  | some (o1, lb, n1) =>
    match genE iv ub n1 with
    | some (o2, u, n2) =>
      let (o3, u', n3) := if le then ([Op.const n2 1, .bin (n2 + 1) .addi u.1 n2], n2 + 1, n2 + 2)
        else ([], u.1, n2)
      (genE iv step n3).map fun (o4, s, n4) => (o1 ++ (o2 ++ (o3 ++ o4)), lb.1, u', s.1, n4)
    | none => none
  | none => none

mutual

/-- `visitAstNode` and its cases, `Codegen.cpp:355-624`.  `scf.for` without values to carry is left
without a terminator. -/
def gen (rev : Bool) : Node → St → Option (List Op × List Nat × St)
  | .loop x init le ub step body, st =>
    match genBounds st.iv init le ub step st.next with
    | some (ops, lb, u, s, n) =>
      if st.iters.isEmpty then none
      else
        let k := st.iters.length
        let rs := fresh n k
        let iv := n + k
        let args := fresh (n + k + 1) k
        let n1 := n + k + 1 + k
        let (ro, v, n2) := if rev then (reverseOps lb u s iv n1, n1 + 7, n1 + 8) else ([], iv, n1)
        (gen rev body ⟨n2, insert st.iv x v, args, st.loops ++ [rs]⟩).map fun (ob, ys, st') =>
          (ops ++ [.loop rs iv args lb u s st.iters (ro ++ ob) ys], rs,
            { st' with iv := restore st'.iv x (st.iv x) })
    | none => none
  | .ifThen c t, st =>
    match genE st.iv c st.next with
    | some (ops, (r, true), n) =>
      let rs := fresh n st.iters.length
      (gen rev t { st with next := n + st.iters.length }).map fun (ot, ys, st') =>
        (ops ++ [.ite rs r ot ys [] (if ys.isEmpty then [] else st.iters)], rs, st')
    | _ => none
  | .ifElse c t e, st =>
    match genE st.iv c st.next with
    | some (ops, (r, true), n) =>
      let rs := fresh n st.iters.length
      match gen rev t { st with next := n + st.iters.length } with
      | some (ot, ys, st1) =>
        match gen rev e { st1 with iters := st.iters } with
        | some (oe, ys', st2) =>
          if ys.length = ys'.length then some (ops ++ [.ite rs r ot ys oe ys'], rs, st2) else none
        | none => none
      | none => none
    | _ => none
  | .block ns, st => genBlock rev ns st
  | .user args, st =>
    match genEs st.iv args st.next with
    | some (ops, as, n) =>
      let rs := fresh n st.iters.length
      some (ops ++ [.body rs (as.map Prod.fst) st.iters], rs,
        { st with next := n + st.iters.length })
    | none => none

/-- `visitAstNodeBlock`; the values carried so far are those of `st`. -/
def genBlock (rev : Bool) : List Node → St → Option (List Op × List Nat × St)
  | [], st => some ([], st.iters, st)
  | x :: ns, st =>
    match gen rev x st with
    | some (ops, rs, st1) =>
      (genBlock rev ns { st1 with iters := rs }).map fun (ops', rs', st2) => (ops ++ ops', rs', st2)
    | none => none

end

/-- `generateForLoop`, `Codegen.cpp:626-647`: the results of the loop that is returned, with `k` initial
values, which are the first ones; `loops_.front()` of an empty vector is undefined. -/
def generateForLoop (node : Node) (k : Nat) (rev : Bool) : Option (List Op × List Nat) :=
  match gen rev node ⟨k, fun _ => none, List.range k, []⟩ with
  | some (ops, _, st) => st.loops.head?.map fun rs => (ops, rs)
  | none => none

end Heir.Codegen
