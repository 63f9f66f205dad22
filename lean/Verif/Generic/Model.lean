import Mathlib.Logic.Basic

/-! # Rewriting of `secret.generic`

`lib/Dialect/Secret/IR/SecretPatterns.cpp` and `SecretOps.cpp` on one block of a function. Values are
numbered; the numbers are those of pointers, so no two values have the same. A clone of an operation
keeps the numbers of what it replaces. Attributes, memrefs and operations with effects are left out. -/

namespace Heir.Generic

variable {K α : Type}

/-- An operation. `captured` are the values that its regions use and that are defined outside of
them. -/
structure Op (K : Type) where
  kind : K
  args : List Nat
  captured : List Nat
  results : List Nat
  deriving DecidableEq

/-- A `secret.generic`: each block argument with its operand, the operations, and each result with the
value yielded for it. -/
structure Gen (K : Type) where
  ins : List (Nat × Nat)
  body : List (Op K)
  outs : List (Nat × Nat)
  deriving DecidableEq

/-- What a block contains: an operation on cleartexts, a `secret.conceal` or a `secret.generic`. -/
inductive Stmt (K : Type)
  | op (o : Op K)
  | conceal (result input : Nat)
  | generic (g : Gen K)
  deriving DecidableEq

/-- A function: its arguments, its block, what it returns, the values whose type is a secret, and a
number above those of all values. -/
structure Prog (K : Type) where
  params : List Nat
  body : List (Stmt K)
  rets : List Nat
  secret : Nat → Bool
  next : Nat

/-! ## Values defined and used -/

/-- The values an operation uses, in its regions too. -/
def Op.uses (o : Op K) : List Nat := o.args ++ o.captured

/-- The values defined in the region of a generic. -/
def Gen.inner (g : Gen K) : List Nat := g.ins.map Prod.fst ++ g.body.flatMap Op.results

/-- The values used in the region of a generic. -/
def Gen.bodyUses (g : Gen K) : List Nat := g.body.flatMap Op.uses ++ g.outs.map Prod.snd

/-- All values that a statement defines, those in its region first. -/
def Stmt.binders : Stmt K → List Nat
  | .op o => o.results
  | .conceal r _ => [r]
  | .generic g => g.inner ++ g.outs.map Prod.fst

/-- All values that a statement uses. -/
def Stmt.uses : Stmt K → List Nat
  | .op o => o.uses
  | .conceal _ x => [x]
  | .generic g => g.ins.map Prod.snd ++ g.bodyUses

/-! ## Execution -/

/-- The values of the variables. -/
abbrev Env (α : Type) := Nat → Option α

/-- The values of a list of variables, if all have one. -/
def readAll (env : Env α) : List Nat → Option (List α)
  | [] => some []
  | x :: l => (env x).bind fun v => (readAll env l).map (v :: ·)

/-- Variables given the values that others have in `src`. -/
def assign (base src : Env α) (l : List (Nat × Nat)) : Env α := fun y =>
  match l.find? (fun p => p.1 == y) with
  | some p => src p.2
  | none => base y

/-- `assign`, if all that is read has a value. -/
def bindAll (base src : Env α) (l : List (Nat × Nat)) : Option (Env α) :=
  if l.all fun p => (src p.2).isSome then some (assign base src l) else none

/-- The results of an operation. -/
def define (env : Env α) (rs : List Nat) (vs : List α) : Env α := fun y =>
  match (rs.zip vs).find? (fun p => p.1 == y) with
  | some p => some p.2
  | none => env y

/-- An operation run; `none` for the use of a value that is not visible. `sem` says what operations
compute. -/
def Op.run (sem : K → List α → List α → List α) (env : Env α) (o : Op K) : Option (Env α) :=
  (readAll env o.args).bind fun a => (readAll env o.captured).bind fun c =>
    if o.results.length = (sem o.kind a c).length then some (define env o.results (sem o.kind a c))
    else none

/-- Operations run in order. -/
def runOps (sem : K → List α → List α → List α) : Env α → List (Op K) → Option (Env α)
  | env, [] => some env
  | env, o :: l => (o.run sem env).bind fun e => runOps sem e l

/-- A generic run on the cleartexts: only its results are visible after it. -/
def Gen.run (sem : K → List α → List α → List α) (env : Env α) (g : Gen K) : Option (Env α) :=
  (bindAll env env g.ins).bind fun e => (runOps sem e g.body).bind fun e' => bindAll env e' g.outs

/-- A statement run; the value of a secret is its cleartext. -/
def Stmt.run (sem : K → List α → List α → List α) (env : Env α) : Stmt K → Option (Env α)
  | .op o => o.run sem env
  | .conceal r x => bindAll env env [(r, x)]
  | .generic g => g.run sem env

/-- Statements run in order. -/
def runAll (sem : K → List α → List α → List α) : Env α → List (Stmt K) → Option (Env α)
  | env, [] => some env
  | env, s :: l => (s.run sem env).bind fun e => runAll sem e l

/-- What a function returns. -/
def Prog.eval (sem : K → List α → List α → List α) (env : Env α) (p : Prog K) : Option (List α) :=
  (runAll sem env p.body).bind fun e => readAll e p.rets

/-! ## Replacing uses -/

/-- Each first component replaced by the second. -/
def sub (l : List (Nat × Nat)) (x : Nat) : Nat :=
  match l.find? (fun p => p.1 == x) with
  | some p => p.2
  | none => x

/-- `replaceAllUsesWith` in an operation and its regions. -/
def Op.rename (ρ : Nat → Nat) (o : Op K) : Op K :=
  ⟨o.kind, o.args.map ρ, o.captured.map ρ, o.results⟩

/-- The second components replaced. -/
def renameSnd (ρ : Nat → Nat) (l : List (Nat × Nat)) : List (Nat × Nat) := l.map fun p => (p.1, ρ p.2)

/-- `replaceAllUsesWith` in a generic. -/
def Gen.rename (ρ : Nat → Nat) (g : Gen K) : Gen K :=
  ⟨renameSnd ρ g.ins, g.body.map (Op.rename ρ), renameSnd ρ g.outs⟩

/-- `replaceAllUsesWith` in a statement. -/
def Stmt.rename (ρ : Nat → Nat) : Stmt K → Stmt K
  | .op o => .op (o.rename ρ)
  | .conceal r x => .conceal r (ρ x)
  | .generic g => .generic (g.rename ρ)

/-! ## Patterns -/

/-- `CollapseSecretlessGeneric`, `SecretPatterns.cpp:100-163`: the block in place of the generic, and
a `secret.conceal` per result. `alloc` are the operations that are not inlined; that for
`tensor.empty` never applies, as no operand is secret when it is asked. -/
def collapse (alloc : K → Bool) (secret : Nat → Bool) (g : Gen K) : Option (List (Stmt K)) :=
  if g.ins.any fun p => secret p.2 then none
  else if g.body.any fun o => alloc o.kind then none
  else some (g.body.map (fun o => .op (o.rename (sub g.ins))) ++
    g.outs.map fun q => .conceal q.1 (sub g.ins q.2))

/-- The loop of `RemoveUnusedGenericArgs`, `SecretPatterns.cpp:165-222`: the block arguments without
uses are gone, up to the first that is yielded. -/
def scanArgs (g : Gen K) : List (Nat × Nat) → List (Nat × Nat) × Option (Nat × Nat)
  | [] => ([], none)
  | a :: l =>
    if !g.bodyUses.contains a.1 then scanArgs g l
    else if (g.outs.map Prod.snd).contains a.1 then (a :: l, some a)
    else (a :: (scanArgs g l).1, (scanArgs g l).2)

/-- `RemoveUnusedGenericArgs`, `SecretPatterns.cpp:165-222`: the generic, and what replaces results. -/
def removeUnusedArgs (g : Gen K) : Option (Gen K × List (Nat × Nat)) :=
  match scanArgs g g.ins with
  | (kept, some a) => some (⟨kept, g.body, g.outs.filter fun q => q.2 != a.1⟩,
      (g.outs.filter fun q => q.2 == a.1).map fun q => (q.1, a.2))
  | (kept, none) => if kept.length < g.ins.length then some (⟨kept, g.body, g.outs⟩, []) else none

/-- `RemoveUnusedYieldedValues`, `SecretPatterns.cpp:224-247`; `used` are the results with uses. -/
def removeUnusedYields (used : Nat → Bool) (g : Gen K) : Option (Gen K) :=
  if g.outs.all fun q => used q.1 then none else some ⟨g.ins, g.body, g.outs.filter fun q => used q.1⟩

/-- `RemoveNonSecretGenericArgs`, `SecretPatterns.cpp:249-282`; the replacements are done at once. -/
def removeNonSecretArgs (secret : Nat → Bool) (g : Gen K) : Option (Gen K) :=
  if g.ins.all fun p => secret p.2 then none
  else
    let ρ := sub (g.ins.filter fun p => !secret p.2)
    some ⟨g.ins.filter fun p => secret p.2, g.body.map (Op.rename ρ), renameSnd ρ g.outs⟩

/-- `CaptureAmbientScope`, `SecretPatterns.cpp:284-342`: one value from outside becomes an operand. The
one taken is the first used; the code visits nested operations before those that contain them. -/
def captureAmbient (next : Nat) (g : Gen K) : Option (Gen K) :=
  (g.bodyUses.find? fun x => !g.inner.contains x).map fun x =>
    ⟨g.ins ++ [(next, x)], g.body.map (Op.rename (sub [(x, next)])), renameSnd (sub [(x, next)]) g.outs⟩

/-- The operands of the merged generic, `SecretPatterns.cpp:362-399`. -/
def mergeIns (g : Gen K) : List (Nat × Nat) → List (Nat × Nat) → List (Nat × Nat)
  | acc, [] => acc
  | acc, a :: l =>
    if (g.outs.map Prod.fst).contains a.2 || (acc.map Prod.snd).contains a.2 then mergeIns g acc l
    else mergeIns g (acc ++ [a]) l

/-- What a block argument of the second generic is mapped to, `SecretPatterns.cpp:421-446`. -/
def mergeArg (g : Gen K) (ins : List (Nat × Nat)) (a : Nat × Nat) : Nat :=
  match g.outs.find? (fun q => q.1 == a.2) with
  | some q => q.2
  | none => match ins.find? (fun p => p.2 == a.2) with
    | some p => p.1
    | none => a.1

/-- `MergeAdjacentGenerics`, `SecretPatterns.cpp:344-486`, on two generics next to each other. -/
def merge (g h : Gen K) : Gen K :=
  let ins := mergeIns g g.ins h.ins
  let ρ := sub (h.ins.map fun a => (a.1, mergeArg g ins a))
  ⟨ins, g.body ++ h.body.map (Op.rename ρ), g.outs ++ renameSnd ρ h.outs⟩

/-- The loop of `DedupeYieldedValues`, `SecretPatterns.cpp:521-532`: the yields that stay, and the
result that replaces the one removed. -/
def dupYield (seen : List (Nat × Nat)) : List (Nat × Nat) → Option (List (Nat × Nat) × (Nat × Nat))
  | [] => none
  | q :: l => match seen.find? (fun s => s.2 == q.2) with
    | some s => some (seen ++ l, (q.1, s.1))
    | none => dupYield (seen ++ [q]) l

/-- `DedupeYieldedValues`, `SecretPatterns.cpp:518-564`. -/
def dedupe (g : Gen K) : Option (Gen K × List (Nat × Nat)) :=
  (dupYield [] g.outs).map fun r => (⟨g.ins, g.body, r.1⟩, [r.2])

/-- The cleartext of a value defined by `secret.conceal`. -/
def concealed : List (Stmt K) → Nat → Option Nat
  | [], _ => none
  | .conceal r c :: l, x => if r = x then some c else concealed l x
  | .op _ :: l, x => concealed l x
  | .generic _ :: l, x => concealed l x

/-- Whether a value is the destination of a `tensor.insert`, whose operands are the scalar, the
destination and the indices. -/
def isDest (insert : K → Bool) (g : Gen K) (x : Nat) : Bool :=
  g.body.any fun o => insert o.kind && o.args[1]? == some x

/-- An operand in `ConcealThenGeneric`. -/
def unconceal (insert : K → Bool) (pre : List (Stmt K)) (g : Gen K) (a : Nat × Nat) : Nat × Nat :=
  match concealed pre a.2 with
  | some c => if isDest insert g a.1 then a else (a.1, c)
  | none => a

/-- `ConcealThenGeneric`, `SecretPatterns.cpp:726-761`. -/
def concealThen (insert : K → Bool) (pre : List (Stmt K)) (g : Gen K) : Option (Gen K) :=
  if g.ins.all fun a => (concealed pre a.2).isNone || isDest insert g a.1 then none
  else some ⟨g.ins.map (unconceal insert pre g), g.body, g.outs⟩

/-! ## Operations moved out -/

/-- Fresh numbers for the members of a list. -/
def number {β : Type} (n : Nat) : List β → List (Nat × β)
  | [] => []
  | x :: l => (n, x) :: number (n + 1) l

/-- `extractOpBeforeGeneric`, `SecretOps.cpp:481-600`, of the operation between `b₁` and `b₂`: the new
generic and the old. The operands of the new one are in the order of the old one, not of the
operation. -/
def extractBefore (next : Nat) (ins : List (Nat × Nat)) (b₁ : List (Op K)) (o : Op K)
    (b₂ : List (Op K)) (outs : List (Nat × Nat)) : Gen K × Gen K × Nat :=
  let used := ins.filter fun p => o.uses.contains p.1
  let args := number next used
  let ρ := sub (args.map fun a => (a.2.1, a.1))
  let inn := number (next + used.length) o.results
  let out := number (next + used.length + o.results.length) inn
  (⟨args.map fun a => (a.1, a.2.2), [⟨o.kind, o.args.map ρ, o.captured.map ρ, inn.map Prod.fst⟩],
      out.map fun a => (a.1, a.2.1)⟩,
    ⟨ins ++ out.map fun a => (a.2.2, a.1), b₁ ++ b₂, outs⟩,
    next + used.length + o.results.length + o.results.length)

/-- `HoistOpBeforeGeneric::canHoist`, `SecretPatterns.cpp:566-581`, for an operation of the configured
names. -/
def canHoistBefore (g : Gen K) (o : Op K) : Bool :=
  o.args.all fun x => !(g.body.flatMap Op.results).contains x

/-- A value that does not depend on secrets, in `HoistPlaintextOps::canHoist`. -/
def isPlain (secret : Nat → Bool) (g : Gen K) (x : Nat) : Bool :=
  match g.ins.find? (fun p => p.1 == x) with
  | some p => !secret p.2
  | none => !(g.body.flatMap Op.results).contains x

/-- `HoistPlaintextOps::canHoist`, `SecretPatterns.cpp:643-695`, for an operation that is speculatable.
The pattern moves all such operations one after the other. -/
def canHoistPlain (secret : Nat → Bool) (g : Gen K) (o : Op K) : Bool :=
  o.args.all (isPlain secret g) && o.captured.all (isPlain secret g)

/-- `HoistOpAfterGeneric::canHoist`, `SecretPatterns.cpp:610-617`: all uses are in the yield. -/
def canHoistAfter (g : Gen K) (o : Op K) : Bool :=
  g.body.all fun o' => o'.uses.all fun x => !o.results.contains x

/-- What an operand of the operation moved is outside of the generic, `SecretOps.cpp:672-699`. -/
def operandOf (ins : List (Nat × Nat)) (results : List Nat) (outs : List (Nat × Nat)) (x : Nat) :
    Option Nat :=
  match ins.find? (fun p => p.1 == x) with
  | some p => some p.2
  | none =>
    if !results.contains x then some x
    else (outs.find? (fun q => q.2 == x)).map Prod.fst

/-- All of the optional values. -/
def allSome {β : Type} : List (Option β) → Option (List β)
  | [] => some []
  | x :: l => x.bind fun v => (allSome l).map (v :: ·)

/-- `extractOpAfterGeneric`, `SecretOps.cpp:637-750`, of the operation between `b₁` and `b₂`: the old
generic and the new. The result of the generic that stands for a result of the operation is that of
the first use in the list of uses, which is the last operand of the yield. `none` if there is no use:
the end of the list is dereferenced. -/
def extractAfter (next : Nat) (ins : List (Nat × Nat)) (b₁ : List (Op K)) (o : Op K)
    (b₂ : List (Op K)) (outs : List (Nat × Nat)) : Option (Gen K × Gen K × Nat) :=
  let outs' := outs ++ number next o.args
  let args := number (next + o.args.length) o.args
  let ρ := sub (args.map fun a => (a.2, a.1)).reverse
  let inn := number (next + o.args.length + o.args.length) o.results
  (allSome (o.args.map (operandOf ins ((b₁ ++ o :: b₂).flatMap Op.results) outs'))).bind fun xs =>
  (allSome (o.results.map fun r => outs'.reverse.find? fun q => q.2 == r)).map fun qs =>
    (⟨ins, b₁ ++ b₂, outs'.filter fun q => !o.results.contains q.2⟩,
     ⟨(args.map Prod.fst).zip xs, [⟨o.kind, o.args.map ρ, o.captured.map ρ, inn.map Prod.fst⟩],
      (qs.map Prod.fst).zip (inn.map Prod.fst)⟩,
     next + o.args.length + o.args.length + o.results.length)

/-! ## Patterns that replace uses elsewhere -/

/-- The destination that `ConcealPlaintextInsert` finds, `SecretPatterns.cpp:763-785`. -/
def plainDest (insert : K → Bool) (secret : Nat → Bool) (g : Gen K) : List (Op K) → Option Nat
  | [] => none
  | o :: l =>
    match insert o.kind, o.args[0]?, o.args[1]? with
    | true, some s, some d =>
      if (g.ins.any fun p => p.1 == s && secret p.2) && !(g.ins.any fun p => p.1 == d && secret p.2)
          && !g.inner.contains d then some d
      else plainDest insert secret g l
    | _, _, _ => plainDest insert secret g l

/-- Uses in `tensor.insert` replaced. -/
def Op.renameInsert (insert : K → Bool) (ρ : Nat → Nat) (o : Op K) : Op K :=
  if insert o.kind then ⟨o.kind, o.args.map ρ, o.captured, o.results⟩ else o

/-- Uses in the `tensor.insert`s of a statement replaced. -/
def Stmt.renameInsert (insert : K → Bool) (ρ : Nat → Nat) : Stmt K → Stmt K
  | .op o => .op (o.renameInsert insert ρ)
  | .conceal r x => .conceal r x
  | .generic g => .generic ⟨g.ins, g.body.map (Op.renameInsert insert ρ), g.outs⟩

/-- `ConcealPlaintextInsert`, `SecretPatterns.cpp:763-811`, on the generic between `pre` and `post`. The
uses replaced are in all `tensor.insert`s of the function. The `secret.conceal` is put before the
generic, not after the definition of the destination. -/
def concealInsert (insert : K → Bool) (secret : Nat → Bool) (next : Nat) (pre : List (Stmt K))
    (g : Gen K) (post : List (Stmt K)) : Option (List (Stmt K)) :=
  (plainDest insert secret g g.body).map fun d =>
    let ρ := sub [(d, next + 1)]
    pre.map (Stmt.renameInsert insert ρ) ++
      .conceal next d ::
      .generic ⟨g.ins ++ [(next + 1, next)], g.body.map (Op.renameInsert insert ρ), g.outs⟩ ::
      post.map (Stmt.renameInsert insert ρ)

/-- The constant that defines a value. -/
def constantOf (isConst : K → Bool) : List (Stmt K) → Nat → Option K
  | [], _ => none
  | .op o :: l, x =>
    if isConst o.kind && o.args == [] && o.captured == [] && o.results == [x] then some o.kind
    else constantOf isConst l x
  | .conceal _ _ :: l, x => constantOf isConst l x
  | .generic _ :: l, x => constantOf isConst l x

/-- `genericAbsorbConstants`, `SecretPatterns.cpp:813-857`, for one use of a block argument whose operand
is a constant. -/
def absorbArg (isConst : K → Bool) (pre : List (Stmt K)) (g : Gen K) (a : Nat × Nat) :
    Option (Gen K) :=
  if g.bodyUses.contains a.1 then (constantOf isConst pre a.2).map fun k =>
    ⟨g.ins.filter fun p => p.1 != a.1, ⟨k, [], [], [a.1]⟩ :: g.body, g.outs⟩
  else none

/-- The types with those of new values. -/
def retype (next : Nat) (secrets : List Nat) (secret : Nat → Bool) (x : Nat) : Bool :=
  if x < next then secret x else secrets.contains x

/-- `genericAbsorbConstants`, `SecretPatterns.cpp:813-857`, for one use of a constant from outside: all
its uses in the function are replaced. -/
def absorbAmbient (isConst : K → Bool) (next : Nat) (p : Prog K) (pre : List (Stmt K)) (g : Gen K)
    (post : List (Stmt K)) (x : Nat) : Option (Prog K) :=
  if g.bodyUses.contains x && !g.inner.contains x then (constantOf isConst pre x).map fun k =>
    let ρ := sub [(x, next)]
    { p with
      body := pre.map (Stmt.rename ρ) ++
        .generic ⟨renameSnd ρ g.ins, ⟨k, [], [], [next]⟩ :: g.body.map (Op.rename ρ),
          renameSnd ρ g.outs⟩ :: post.map (Stmt.rename ρ)
      rets := p.rets.map ρ
      secret := retype next [] p.secret
      next := next + 1 }
  else none

/-! ## Patterns in a function -/

/-- What replaces some statements: others, the values that replace values in what follows, the secrets
among the new values, and a number above those of all values. -/
structure Repl (K : Type) where
  stmts : List (Stmt K)
  subst : List (Nat × Nat)
  secrets : List Nat
  next : Nat

/-- `rewriter.replaceOp` and its like: the statements of `p` after `pre` and before `post` replaced. -/
def Prog.replace (p : Prog K) (pre post : List (Stmt K)) (r : Repl K) : Prog K :=
  ⟨p.params, pre ++ r.stmts ++ post.map (Stmt.rename (sub r.subst)), p.rets.map (sub r.subst),
    retype p.next r.secrets p.secret, r.next⟩

/-- The applications of a pattern to the statements between `pre` and `post`; those of
`SecretPatterns.cpp` that are applied without a condition on the rest of the function. -/
inductive Applies (p : Prog K) (pre post : List (Stmt K)) : List (Stmt K) → Repl K → Prop
  | collapse {alloc g l} : collapse alloc p.secret g = some l →
      Applies p pre post [.generic g] ⟨l, [], [], p.next⟩
  | unusedArgs {g g' ρ} : removeUnusedArgs g = some (g', ρ) →
      Applies p pre post [.generic g] ⟨[.generic g'], ρ, [], p.next⟩
  | unusedYields {g g'} :
      removeUnusedYields (fun x => (post.flatMap Stmt.uses ++ p.rets).contains x) g = some g' →
      Applies p pre post [.generic g] ⟨[.generic g'], [], [], p.next⟩
  | nonSecretArgs {g g'} : removeNonSecretArgs p.secret g = some g' →
      Applies p pre post [.generic g] ⟨[.generic g'], [], [], p.next⟩
  | capture {g g'} : captureAmbient p.next g = some g' →
      Applies p pre post [.generic g] ⟨[.generic g'], [], [], p.next + 1⟩
  | merge {g h} : Applies p pre post [.generic g, .generic h] ⟨[.generic (merge g h)], [], [], p.next⟩
  | dedupe {g g' ρ} : dedupe g = some (g', ρ) →
      Applies p pre post [.generic g] ⟨[.generic g'], ρ, [], p.next⟩
  | concealThen {insert g g'} : concealThen insert pre g = some g' →
      Applies p pre post [.generic g] ⟨[.generic g'], [], [], p.next⟩
  | absorbArg {isConst g g' a} : a ∈ g.ins → absorbArg isConst pre g a = some g' →
      Applies p pre post [.generic g] ⟨[.generic g'], [], [], p.next⟩
  | hoistPlain {ins b₁ o b₂ outs h g' n} :
      canHoistPlain p.secret ⟨ins, b₁ ++ o :: b₂, outs⟩ o = true →
      extractBefore p.next ins b₁ o b₂ outs = (h, g', n) →
      Applies p pre post [.generic ⟨ins, b₁ ++ o :: b₂, outs⟩]
        ⟨[.generic h, .generic g'], [], h.outs.map Prod.fst, n⟩

/-- A function rewritten at one place. -/
inductive Step : Prog K → Prog K → Prop
  | at {p pre mid post r} : p.body = pre ++ mid ++ post → Applies p pre post mid r →
      Step p (p.replace pre post r)

/-- A function rewritten any number of times: the patterns applied greedily, in any order. -/
inductive Steps : Prog K → Prog K → Prop
  | refl (p) : Steps p p
  | step {p q r} : Step p q → Steps q r → Steps p r

end Heir.Generic
