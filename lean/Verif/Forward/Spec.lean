import Verif.Forward.Model
import Mathlib.Logic.Function.Basic
import Mathlib.Logic.Relation
import Mathlib.Data.List.Nodup

/-! # Memory, tensors and static single assignment -/

namespace Heir.Forward

variable {V : Type}

/-- Memory: contents by memref and indices. Two names may hold the same memref. -/
abbrev Mem (V : Type) := V → List V → V

structure Sem (V : Type) where
  app : Nat → List V → V
  call : Nat → List V → Mem V → V × Mem V

structure St (V : Type) where
  env : Nat → V
  mem : Mem V

open Classical in
/-- Writing one element. -/
noncomputable def Mem.write (μ : Mem V) (m : V) (i : List V) (v : V) : Mem V :=
  fun m' i' => if m' = m ∧ i' = i then v else μ m' i'

noncomputable def step (S : Sem V) (s : St V) : Op → St V
  | .pure r f a => { s with env := Function.update s.env r (S.app f (a.map s.env)) }
  | .load r m idx => { s with env := Function.update s.env r (s.mem (s.env m) (idx.map s.env)) }
  | .store v m idx => { s with mem := s.mem.write (s.env m) (idx.map s.env) (s.env v) }
  | .call r f a | .region r f a =>
    ⟨Function.update s.env r (S.call f (a.map s.env) s.mem).1, (S.call f (a.map s.env) s.mem).2⟩

noncomputable def run (S : Sem V) (p : List Op) (s : St V) : St V := p.foldl (step S) s

def Op.res : Op → Option Nat
  | .pure r _ _ | .load r _ _ | .call r _ _ | .region r _ _ => some r
  | .store .. => none

def Op.operands : Op → List Nat
  | .pure _ _ a | .call _ _ a | .region _ _ a => a
  | .load _ m idx => m :: idx
  | .store v m idx => v :: m :: idx

def results (p : List Op) : List Nat := p.filterMap Op.res

/-- Every value is defined once and before its uses. -/
def WF : List Op → Prop
  | [] => True
  | op :: rest => (∀ a ∈ op.operands, a ∉ results (op :: rest)) ∧
      (∀ r, op.res = some r → r ∉ results rest) ∧ WF rest

/-- Memref and indices of an access. -/
def Op.access : Op → Option (Nat × List Nat)
  | .load _ m idx => some (m, idx)
  | .store _ m idx => some (m, idx)
  | _ => none

/-- Accesses that name different memrefs or indices touch different elements when values are
`env`. -/
def AliasFree (env : Nat → V) (p : List Op) : Prop :=
  ∀ op ∈ p, ∀ op' ∈ p, ∀ a a', op.access = some a → op'.access = some a' → a ≠ a' →
    (env a.1, a.2.map env) ≠ (env a'.1, a'.2.map env)

/-- No op without regions writes memory besides stores. -/
def NoCalls (p : List Op) : Prop := ∀ op ∈ p, ∀ r f a, op ≠ .call r f a

/-- Memrefs are not indices and are not stored in memory. -/
def Typed (isMemref : Nat → Prop) (p : List Op) : Prop :=
  ∀ op ∈ p, (∀ a, op.access = some a → isMemref a.1 ∧ ∀ i ∈ a.2, ¬ isMemref i) ∧
    (∀ v m idx, op = .store v m idx → ¬ isMemref v) ∧
    (∀ r m idx, op = .load r m idx → ¬ isMemref r)

/-- `users` lists users of the memref of the access at `j`. -/
def UsersOf (p : List Op) (users : List Nat) (j : Nat) : Prop :=
  ∃ op a, p[j]? = some op ∧ op.access = some a ∧
    ∀ i ∈ users, ∃ u, p[i]? = some u ∧ a.1 ∈ u.operands

/-- One rewrite of the pass, with the use lists in any order. -/
def Rewrite (p q : List Op) : Prop :=
  ∃ users j, UsersOf p users j ∧ (forwardLoad p users j = some q ∨ removeStore p users j = some q)

/-- What the pass needs: single assignment, no aliasing among different names, no calls, and memrefs
kept apart from other values. -/
structure Good (S : Sem V) (s : St V) (isMemref : Nat → Prop) (p : List Op) : Prop where
  wf : WF p
  sep : AliasFree (run S p s).env p
  calls : NoCalls p
  typed : Typed isMemref p

/-! ## Tensors -/

/-- The value of an index. -/
def Idx.eval (env : Nat → Int) : Idx → Int
  | .const z => z
  | .val n => env n

/-- Position in row-major order; `none` outside the shape. -/
def rowMajor : List Nat → List Int → Option Nat
  | [], [] => some 0
  | d :: ds, i :: is => if 0 ≤ i ∧ i < d then (rowMajor ds is).map (i.toNat * ds.prod + ·) else none
  | _, _ => none

/-- The shape of a tensor, given those of the tensors the walk knows nothing about. -/
def Tensor.shape {α : Type} (sh : Nat → List Nat) : Tensor α → List Nat
  | .other n => sh n
  | .insert _ dest _ => dest.shape sh
  | .splat _ s | .dense _ s | .fromElements _ s => s

/-- `tensor.extract` at run time: `none` if an access is out of bounds. `env` are the values of
indices, `sc` of scalars, `lit` of attributes, `arr` the contents of other tensors. -/
def Tensor.read {α : Type} (sh : Nat → List Nat) (env : Nat → Int) (sc : Nat → V) (lit : α → V)
    (arr : Nat → Nat → V) : Tensor α → Nat → Option V
  | .other n, k => if k < (sh n).prod then some (arr n k) else none
  | .insert x dest idx, k => (rowMajor (dest.shape sh) (idx.map (Idx.eval env))).bind fun i =>
      if i = k then some (sc x) else dest.read sh env sc lit arr k
  | .splat a s, k => if k < s.prod then some (lit a) else none
  | .dense l s, k => if k < s.prod then (l[k]?).map lit else none
  | .fromElements l s, k => if k < s.prod then (l[k]?).map sc else none

/-- Index lists that differ have different values. -/
def Separate (env : Nat → Int) (a b : List Idx) : Prop :=
  a ≠ b → a.map (Idx.eval env) ≠ b.map (Idx.eval env)

/-- All inserts of the chain are separate from `indices`. -/
def Tensor.Separate {α : Type} (env : Nat → Int) (indices : List Idx) : Tensor α → Prop
  | .insert _ dest idx => Forward.Separate env idx indices ∧ dest.Separate env indices
  | _ => True

/-- Numbers of elements, and fewer than 2^31 of them for `tensor.from_elements`. -/
def Tensor.Sized {α : Type} : Tensor α → Prop
  | .insert _ dest _ => dest.Sized
  | .dense l s => l.length = s.prod ∧ ∀ d ∈ s, d < 9223372036854775808
  | .fromElements l s => l.length = s.prod ∧ s.prod < 2147483648
  | _ => True

/-- The run-time value of what was found. -/
def Found.eval {α : Type} (sc : Nat → V) (lit : α → V) : Found α → V
  | .value n => sc n
  | .attr a => lit a

end Heir.Forward
