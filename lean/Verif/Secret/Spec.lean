import Verif.Secret.Model
import Mathlib.Data.List.Nodup
import Mathlib.Logic.Relation

/-! # Execution of structured programs, dominance, rewriting and obliviousness -/

namespace Heir.Secret

/-- The meaning of ops over a type of run-time values. Impure ops see the history of effects; loop
bounds give a trip count and the values of the induction variable. -/
structure Sem (V : Type) where
  app : Nat → List V → V
  eff : Nat → List V → List (Nat × List V) → V
  truth : V → Bool
  trips : List V → Nat
  iv : List V → Nat → V
  junk : V

variable {V : Type}

/-- What an observer of the control flow sees. -/
inductive Ctl where
  | branch (b : Bool)
  | trip (n : Nat)
  deriving DecidableEq

/-- Values, history of effects, control trace, revealed values. -/
structure St (V : Type) where
  env : Nat → V
  mem : List (Nat × List V)
  ctl : List Ctl
  rev : List V

/-- The value of a pure op; `arith.select` picks its second or third operand. -/
def Fn.eval (S : Sem V) : Fn → List V → V
  | .select, [c, a, b] => if S.truth c then a else b
  | .select, _ => S.junk
  | .other n, l => S.app n l

def setMany (env : Nat → V) : List Nat → List V → Nat → V
  | n :: ns, v :: vs => setMany (Function.update env n v) ns vs
  | _, _ => env

/-- `g (n-1) (... (g 0 a))`. -/
def iter {A : Type} (g : Nat → A → A) : Nat → A → A
  | 0, a => a
  | n + 1, a => g n (iter g n a)

/-- Leaving a region: back to the values `env`, with the yielded ones bound to the results. -/
def St.leave (s : St V) (env : Nat → V) (res : List Nat) (vals : List V) : St V :=
  { s with env := setMany env res vals }

/-- One iteration of a loop whose body does `run`: from the carried values and the state to the
yielded values and the new state. `env` are the values visible at the loop. -/
def loopStep (run : St V → St V) (env : Nat → V) (iv : Nat) (ivAt : Nat → V) (ps ys : List Nat)
    (k : Nat) (a : List V × St V) : List V × St V :=
  let s := run { a.2 with env := setMany (Function.update env iv (ivAt k)) ps a.1 }
  (ys.map s.env, s)

def eval (S : Sem V) : Blk → St V → St V
  | .done, s => s
  | .op r f a rest, s => eval S rest { s with env := Function.update s.env r (f.eval S (a.map s.env)) }
  | .reg r f a c rest, s =>
    eval S rest { s with env := Function.update s.env r (S.app f ((a ++ c).map s.env)) }
  | .reveal r a rest, s =>
    eval S rest { s with env := Function.update s.env r (s.env a), rev := s.rev ++ [s.env a] }
  | .eff r f a rest, s =>
    eval S rest { s with
      env := Function.update s.env r (S.eff f (a.map s.env) s.mem)
      mem := s.mem ++ [(f, a.map s.env)] }
  | .ite res c t ty e ey rest, s =>
    if S.truth (s.env c) then
      eval S rest ((eval S t { s with ctl := s.ctl ++ [.branch true] }).leave s.env res
        (ty.map (eval S t { s with ctl := s.ctl ++ [.branch true] }).env))
    else
      eval S rest ((eval S e { s with ctl := s.ctl ++ [.branch false] }).leave s.env res
        (ey.map (eval S e { s with ctl := s.ctl ++ [.branch false] }).env))
  | .loop res bs iv ps ins body ys rest, s =>
    let r := iter (loopStep (eval S body) s.env iv (S.iv (bs.map s.env)) ps ys)
      (S.trips (bs.map s.env))
      (ins.map s.env, { s with ctl := s.ctl ++ [.trip (S.trips (bs.map s.env))] })
    eval S rest (r.2.leave s.env res r.1)

/-! ## Dominance and single assignment -/

/-- The values visible after a block. -/
def topDefs : Blk → List Nat
  | .done => []
  | .op r _ _ rest => r :: topDefs rest
  | .reg r _ _ _ rest => r :: topDefs rest
  | .reveal r _ rest => r :: topDefs rest
  | .eff r _ _ rest => r :: topDefs rest
  | .ite res _ _ _ _ _ rest => res ++ topDefs rest
  | .loop res _ _ _ _ _ _ rest => res ++ topDefs rest

/-- All values defined in a block, nested ones included. -/
def allDefs : Blk → List Nat
  | .done => []
  | .op r _ _ rest => r :: allDefs rest
  | .reg r _ _ _ rest => r :: allDefs rest
  | .reveal r _ rest => r :: allDefs rest
  | .eff r _ _ rest => r :: allDefs rest
  | .ite res _ t _ e _ rest => res ++ (allDefs t ++ (allDefs e ++ allDefs rest))
  | .loop res _ iv ps _ body _ rest => res ++ (iv :: ps ++ (allDefs body ++ allDefs rest))

/-- Operands are visible where they are used, and the numbers of yielded values and results agree.
`P` are the values visible in front of the block. -/
def Valid (P : List Nat) : Blk → Prop
  | .done => True
  | .op r _ a rest => a ⊆ P ∧ Valid (r :: P) rest
  | .reg r _ a c rest => a ⊆ P ∧ c ⊆ P ∧ Valid (r :: P) rest
  | .reveal r a rest => a ∈ P ∧ Valid (r :: P) rest
  | .eff r _ a rest => a ⊆ P ∧ Valid (r :: P) rest
  | .ite res c t ty e ey rest =>
    c ∈ P ∧ Valid P t ∧ ty ⊆ P ++ topDefs t ∧ ty.length = res.length ∧
    Valid P e ∧ ey ⊆ P ++ topDefs e ∧ ey.length = res.length ∧ Valid (res ++ P) rest
  | .loop res bs iv ps ins body ys rest =>
    bs ⊆ P ∧ ins ⊆ P ∧ ins.length = res.length ∧ ps.length = res.length ∧
    Valid (iv :: ps ++ P) body ∧ ys ⊆ (iv :: ps ++ P) ++ topDefs body ∧ ys.length = res.length ∧
    Valid (res ++ P) rest

/-- Static single assignment: every value is defined once. -/
def SSA (P : List Nat) (b : Blk) : Prop := (P ++ allDefs b).Nodup

/-! ## Rewriting anywhere -/

/-- One application of the pattern somewhere in the program, with the analysis in any state `L`, or
the removal of a dead `scf.if`. -/
inductive Step (L : Labels) : Blk → Blk → Prop
  | convert {res c t ty e ey rest b} : res ≠ [] → convertIf L res c t ty e ey rest = some b →
      Step L (.ite res c t ty e ey rest) b
  | dead {c t e rest} : t.isPure = true → e.isPure = true →
      Step L (.ite [] c t [] e [] rest) rest
  | op {r f a b b'} : Step L b b' → Step L (.op r f a b) (.op r f a b')
  | reg {r f a c b b'} : Step L b b' → Step L (.reg r f a c b) (.reg r f a c b')
  | reveal {r a b b'} : Step L b b' → Step L (.reveal r a b) (.reveal r a b')
  | eff {r f a b b'} : Step L b b' → Step L (.eff r f a b) (.eff r f a b')
  | thn {res c t t' ty e ey rest} : Step L t t' →
      Step L (.ite res c t ty e ey rest) (.ite res c t' ty e ey rest)
  | els {res c t e e' ty ey rest} : Step L e e' →
      Step L (.ite res c t ty e ey rest) (.ite res c t ty e' ey rest)
  | after {res c t e ty ey rest rest'} : Step L rest rest' →
      Step L (.ite res c t ty e ey rest) (.ite res c t ty e ey rest')
  | body {res bs iv ps ins b b' ys rest} : Step L b b' →
      Step L (.loop res bs iv ps ins b ys rest) (.loop res bs iv ps ins b' ys rest)
  | afterLoop {res bs iv ps ins b ys rest rest'} : Step L rest rest' →
      Step L (.loop res bs iv ps ins b ys rest) (.loop res bs iv ps ins b ys rest')

/-- Same values of the names `P` and same effects. -/
def SameOn (P : List Nat) (s s' : St V) : Prop :=
  (∀ v ∈ P, s.env v = s'.env v) ∧ s.mem = s'.mem

/-! ## Obliviousness -/

/-- The solver has stopped: no update changes anything. -/
def Stable (L : Labels) (b : Blk) : Prop := ∀ f ∈ visits b, f L = L

/-- The solver has reached `L` from `L₀`, visiting in any order. -/
def Reached (b : Blk) (L₀ L : Labels) : Prop :=
  Relation.ReflTransGen (fun L L' => ∃ f ∈ visits b, L' = f L) L₀ L

/-- The initial state: unknown for everything the program defines. -/
def Fresh (b : Blk) (L : Labels) : Prop := ∀ v ∈ allDefs b, L v = none

/-- No yielded or initial value of an `scf.if` or `scf.for` is left unknown. -/
def YieldsKnown (L : Labels) : Blk → Prop
  | .done => True
  | .op _ _ _ rest => YieldsKnown L rest
  | .reg _ _ _ _ rest => YieldsKnown L rest
  | .reveal _ _ rest => YieldsKnown L rest
  | .eff _ _ _ rest => YieldsKnown L rest
  | .ite _ _ t ty e ey rest =>
    (∀ v ∈ ty ++ ey, L v ≠ none) ∧ YieldsKnown L t ∧ YieldsKnown L e ∧ YieldsKnown L rest
  | .loop _ _ _ _ ins body ys rest =>
    (∀ v ∈ ins ++ ys, L v ≠ none) ∧ YieldsKnown L body ∧ YieldsKnown L rest

/-- No op with regions besides `scf.if` and `scf.for`. -/
def RegFree : Blk → Prop
  | .done => True
  | .op _ _ _ rest => RegFree rest
  | .reg _ _ _ _ _ => False
  | .reveal _ _ rest => RegFree rest
  | .eff _ _ _ rest => RegFree rest
  | .ite _ _ t _ e _ rest => RegFree t ∧ RegFree e ∧ RegFree rest
  | .loop _ _ _ _ _ body _ rest => RegFree body ∧ RegFree rest

/-- No `secret.reveal`. -/
def NoReveal : Blk → Prop
  | .done => True
  | .op _ _ _ rest => NoReveal rest
  | .reg _ _ _ _ rest => NoReveal rest
  | .reveal _ _ _ => False
  | .eff _ _ _ rest => NoReveal rest
  | .ite _ _ t _ e _ rest => NoReveal t ∧ NoReveal e ∧ NoReveal rest
  | .loop _ _ _ _ _ body _ rest => NoReveal body ∧ NoReveal rest

/-- All loop bounds are labelled public. -/
def PublicBounds (L : Labels) : Blk → Prop
  | .done => True
  | .op _ _ _ rest => PublicBounds L rest
  | .reg _ _ _ _ rest => PublicBounds L rest
  | .reveal _ _ rest => PublicBounds L rest
  | .eff _ _ _ rest => PublicBounds L rest
  | .ite _ _ t _ e _ rest => PublicBounds L t ∧ PublicBounds L e ∧ PublicBounds L rest
  | .loop _ bs _ _ _ body _ rest =>
    (∀ v ∈ bs, L v = some false) ∧ PublicBounds L body ∧ PublicBounds L rest

/-- The number of `scf.if`s. -/
def ifs : Blk → Nat
  | .done => 0
  | .op _ _ _ rest => ifs rest
  | .reg _ _ _ _ rest => ifs rest
  | .reveal _ _ rest => ifs rest
  | .eff _ _ _ rest => ifs rest
  | .ite _ _ t _ e _ rest => ifs t + ifs e + ifs rest + 1
  | .loop _ _ _ _ _ body _ rest => ifs body + ifs rest

/-- What an impure op returns does not depend on earlier effects (it prints, say, but does not
load). -/
def Sem.NoLoads (S : Sem V) : Prop := ∀ f a m m', S.eff f a m = S.eff f a m'

/-- All branch conditions and loop bounds are labelled public. -/
def PublicCtl (L : Labels) : Blk → Prop
  | .done => True
  | .op _ _ _ rest => PublicCtl L rest
  | .reg _ _ _ _ rest => PublicCtl L rest
  | .reveal _ _ rest => PublicCtl L rest
  | .eff _ _ _ rest => PublicCtl L rest
  | .ite _ c t _ e _ rest => L c = some false ∧ PublicCtl L t ∧ PublicCtl L e ∧ PublicCtl L rest
  | .loop _ bs _ _ _ body _ rest =>
    (∀ v ∈ bs, L v = some false) ∧ PublicCtl L body ∧ PublicCtl L rest

/-- Indistinguishable: same public values, same control trace, same revealed values. -/
def LowEq (L : Labels) (P : List Nat) (s s' : St V) : Prop :=
  (∀ v ∈ P, L v = some false → s.env v = s'.env v) ∧ s.ctl = s'.ctl ∧ s.rev = s'.rev

/-- The revealed values differ at some position. -/
def Diverge (l l' : List V) : Prop := ∃ (k : Nat) (a b : V), l[k]? = some a ∧ l'[k]? = some b ∧ a ≠ b

end Heir.Secret
