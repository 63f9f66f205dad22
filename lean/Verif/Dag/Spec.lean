import Verif.Dag.Model

/-!
# Structural semantics of a DAG

The value of a node in an environment of variables: no cache, no mutable state, no evaluation
order.  `den` recurses on the depth; `FreeVar`, `Reach` and `Closed` say when the variables of
loops are used inside the loop that binds them only.
-/

namespace Heir.Dag

variable {V O : Type}

/-- Closed form of the iteration values. -/
def tripList (lower upper step : Int) : Option (List Int) :=
  if upper ≤ lower then some []
  else if step ≤ 0 then none
  else
    let c := ((upper - lower + step - 1) / step).toNat
    if 2 ^ 31 ≤ lower + c * step then none
    else some ((List.range c).map fun (j : Nat) => lower + j * step)

/-- All of a list of optional values. -/
def allSome {α β : Type} (f : α → Option β) : List α → Option (List β)
  | [] => some []
  | a :: as => (f a).bind fun b => (allSome f as).bind fun bs => some (b :: bs)

/-- The only element. -/
def only : List V → Option V
  | [v] => some v
  | _ => none

/-- A `scf.for`-like loop over a list of induction values. -/
def denLoop (f : Int → List V → Option (List V)) : List Int → List V → Option (List V)
  | [], vals => some vals
  | i :: is, vals => (f i vals).bind fun vals => denLoop f is vals

/-- The results of node `n` in the environment `env`. -/
def denK (S : Sem V O) (D : Heap O) : Nat → Env V → Nat → Option (List V)
  | 0, _, _ => none
  | k + 1, env, n =>
    match D n with
    | .pure o cs =>
      (allSome (fun c => (denK S D k env c).bind List.head?) cs).bind fun vs =>
        (S.pure o vs).map fun v => [v]
    | .var => (env n).map fun v => [v]
    | .ifElse c t e =>
      ((denK S D k env c).bind List.head?).bind fun v =>
        (S.truth v).bind fun b => denK S D k env (if b then t else e)
    | .loop l =>
      (allSome (fun c => (denK S D k env c).bind only) l.inits).bind fun vals =>
        (tripList l.lower l.upper l.step).bind fun is =>
          denLoop (fun i vals =>
            if l.iterArgs.length = vals.length ∧ isYield (D l.body) = true then
              (denK S D k (setVars (setVar env l.iv (S.ofInt i)) l.iterArgs vals) l.body).bind
                fun r => if r.length = vals.length then some r else none
            else none) is vals
    | .yield cs => allSome (fun c => (denK S D k env c).bind only) cs
    | .resultAt c i => (denK S D k env c).bind fun r => (r[i]?).map fun v => [v]

/-- Identifiers are numbered so that children come before parents; possible for every acyclic
graph. -/
def Ordered (D : Heap O) : Prop := ∀ n, ∀ c ∈ clearChildren (D n), c < n

/-- The results of node `n`. -/
def den (S : Sem V O) (D : Heap O) (env : Env V) (n : Nat) : Option (List V) :=
  denK S D (n + 1) env n

/-- Children evaluated in the scope of the node itself. -/
def scopeChildren : Kind O → List Nat
  | .pure _ cs => cs
  | .var => []
  | .ifElse c t e => [c, t, e]
  | .loop l => l.inits
  | .yield cs => cs
  | .resultAt c _ => [c]

/-- Variables bound by a loop in its body. -/
def LoopNode.binds (l : LoopNode) (x : Nat) : Prop := x = l.iv ∨ x ∈ l.iterArgs

/-- `x` is a free variable of `n`. -/
inductive FreeVar (D : Heap O) : Nat → Nat → Prop
  | var {n} : D n = .var → FreeVar D n n
  | child {n c x} : c ∈ scopeChildren (D n) → FreeVar D c x → FreeVar D n x
  | body {n l x} : D n = .loop l → FreeVar D l.body x → ¬ l.binds x → FreeVar D n x

/-- `m` is evaluated below `n` (or is `n`). -/
inductive Reach (D : Heap O) (n : Nat) : Nat → Prop
  | refl : Reach D n n
  | child {m c} : Reach D n m → c ∈ scopeChildren (D m) → Reach D n c
  | body {m l} : Reach D n m → D m = .loop l → Reach D n l.body

/-- Below one of the roots. -/
def Below (D : Heap O) (roots : List Nat) (m : Nat) : Prop := ∃ n ∈ roots, Reach D n m

/-- The variables of loops are not used outside of the loop, and belong to one loop. -/
structure Closed (D : Heap O) (roots : List Nat) : Prop where
  free : ∀ n ∈ roots, ∀ x, FreeVar D n x → ∀ m l, Below D roots m → D m = .loop l → ¬ l.binds x
  unique : ∀ m l m' l' x, Below D roots m → Below D roots m' → D m = .loop l → D m' = .loop l' →
    l.binds x → l'.binds x → m = m'

end Heir.Dag
