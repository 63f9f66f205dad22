import Verif.Memref.ExtractModel

/-!
# One iteration of the loop

Operations, loads and stores have arbitrary meanings.  A value that is not defined has none, so
that no execution of IR that the verifier rejects has a result.
-/

namespace Heir.Memref.Extract

structure Sem (V M : Type) where
  op : Nat → List V → V
  load : Nat → List V → M → V
  store : Nat → V → List V → M → M

variable {V M : Type}

structure State (V M : Type) where
  env : Nat → Option V
  mem : M

def vals (env : Nat → Option V) : List Nat → Option (List V)
  | [] => some []
  | x :: xs =>
    match env x, vals env xs with
    | some v, some vs => some (v :: vs)
    | _, _ => none

def bindE (env : Nat → Option V) (r : Nat) (v : V) : Nat → Option V :=
  fun x => if x = r then some v else env x

def bindL (env : Nat → Option V) : List Nat → List V → Nat → Option V
  | r :: rs, v :: vs => bindE (bindL env rs vs) r v
  | _, _ => env

/-- The operations of the function. -/
def evalOps (S : Sem V M) : List Op → (Nat → Option V) → Option (Nat → Option V)
  | [], env => some env
  | .op f r as :: os, env =>
    match vals env as with
    | some vs => evalOps S os (bindE env r (S.op f vs))
    | none => none
  | _ :: _, _ => none

/-- The function sees its arguments only. -/
def evalFun (S : Sem V M) (F : Fun) (vs : List V) : Option V :=
  (evalOps S F.ops (bindL (fun _ => none) F.inputs vs)).bind fun env => env F.ret

def step (S : Sem V M) (F : Option Fun) (s : State V M) : Op → Option (State V M)
  | .load f r as => (vals s.env as).map fun vs => ⟨bindE s.env r (S.load f vs s.mem), s.mem⟩
  | .store f v as =>
    match s.env v, vals s.env as with
    | some x, some vs => some ⟨s.env, S.store f x vs s.mem⟩
    | _, _ => none
  | .op f r as => (vals s.env as).map fun vs => ⟨bindE s.env r (S.op f vs), s.mem⟩
  | .call r as =>
    match F, vals s.env as with
    | some F, some vs => (evalFun S F vs).map fun x => ⟨bindE s.env r x, s.mem⟩
    | _, _ => none

def run (S : Sem V M) (F : Option Fun) : List Op → State V M → Option (State V M)
  | [], s => some s
  | o :: os, s => (step S F s o).bind (run S F os)

/-! ## What the verifier accepts -/

def wf : List Nat → List Op → Prop
  | _, [] => True
  | sc, o :: os =>
    (∀ x ∈ o.args, x ∈ sc) ∧ (∀ r, o.res = some r → r ∉ sc) ∧ wf (o.res.toList ++ sc) os

def scope (sc : List Nat) (os : List Op) : List Nat := os.foldl (fun sc o => o.res.toList ++ sc) sc

def Loop.scope (L : Loop) : List Nat := L.ivs ++ L.consts.map (·.1) ++ L.outer

def Loop.wf (L : Loop) : Prop := Extract.wf L.scope L.body

def Fun.wf (F : Fun) : Prop := Extract.wf F.inputs F.ops ∧ F.ret ∈ Extract.scope F.inputs F.ops

/-- The constants have their values. -/
def Consts (S : Sem V M) (L : Loop) (s : State V M) : Prop :=
  ∀ c ∈ L.consts, s.env c.1 = some (S.op c.2 [])

/-- An iteration has the same effect on the memory. -/
def SameEffect (S : Sem V M) (L : Loop) (F : Fun) (body : List Op) : Prop :=
  ∀ s s1, Consts S L s → run S none L.body s = some s1 →
    ∃ s2, run S (some F) body s = some s2 ∧ s2.mem = s1.mem

end Heir.Memref.Extract
