import Verif.Generic.Model

/-! # What the rewriting of generics must keep -/

namespace Heir.Generic

variable {K α : Type}

/-- The values defined in a list of statements. -/
def bindersOf (l : List (Stmt K)) : List Nat := l.flatMap Stmt.binders

/-- Each value is defined once, with a number below `next`. -/
structure Ssa (p : Prog K) : Prop where
  nodup : (p.params ++ bindersOf p.body).Nodup
  below : ∀ x ∈ p.params ++ bindersOf p.body, x < p.next

/-- The types of a statement: operations take and give cleartexts, `secret.conceal` makes a secret of a
cleartext, the operands of a generic are of any type, all in its region is cleartext, its results are
secrets. -/
def Stmt.typed (secret : Nat → Bool) : Stmt K → Prop
  | .op o => ∀ x ∈ o.uses ++ o.results, secret x = false
  | .conceal r x => secret x = false ∧ secret r = true
  | .generic g => (∀ x ∈ g.inner ++ g.bodyUses, secret x = false) ∧
      ∀ x ∈ g.outs.map Prod.fst, secret x = true

instance (secret : Nat → Bool) (s : Stmt K) : Decidable (s.typed secret) := by
  cases s <;> unfold Stmt.typed <;> infer_instance

/-- A function as the verifier accepts it. -/
structure Valid (p : Prog K) : Prop extends Ssa p where
  typed : ∀ s ∈ p.body, s.typed p.secret
  known : ∀ x ∈ p.body.flatMap Stmt.uses ++ p.rets, x < p.next

/-- The values of the arguments and of nothing else. -/
def Inputs (p : Prog K) (env : Env α) : Prop := ∀ x, (env x).isSome ↔ x ∈ p.params

/-- The second function returns what the first returns, whatever the operations compute. -/
def Sound (p p' : Prog K) : Prop :=
  ∀ (α : Type) (sem : K → List α → List α → List α) (env : Env α), Inputs p env →
    ∀ vs, p.eval sem env = some vs → p'.eval sem env = some vs

/-- The types of what is returned. -/
def Prog.signature (p : Prog K) : List Bool := p.rets.map p.secret

/-- The operations of a statement. -/
def Stmt.ops : Stmt K → List (Op K)
  | .op o => [o]
  | .conceal _ _ => []
  | .generic g => g.body

/-- Two states that agree on cleartexts. -/
def SameClear (secret : Nat → Bool) (e e' : Env α) : Prop := ∀ x, secret x = false → e x = e' x

end Heir.Generic
