import Verif.Scale.Model
import Mathlib.Algebra.Algebra.Defs
import Mathlib.Algebra.Field.Defs

/-! # What scales are for

A CKKS ciphertext holds a message times a power of two; the exponent is its scale.  The meaning of a program is
given twice: on messages, where management is the identity, and on what the ciphertexts hold.  Rounding and the
difference between a prime and a power of two are left out. -/

namespace Heir.Scale

variable {K M : Type} [Field K] [CommRing M] [Algebra K M]

/-- Each value is defined once, before its uses; arithmetic operations have two operands and management
operations one. -/
def SSA (N : Nat) : (Nat → Prop) → List Op → Prop
  | _, [] => True
  | P, op :: ops =>
    (∀ a ∈ op.args, P a) ∧ ¬ P op.res ∧ op.res < N ∧
      (op.kind = .add ∨ op.kind = .sub ∨ op.kind = .mul → op.args.length = 2) ∧
      (op.kind = .init ∨ op.kind = .modReduce ∨ op.kind = .adjust ∨ op.kind = .bootstrap → op.args.length = 1) ∧
      SSA N (fun v => P v ∨ v = op.res) ops

/-- A well-formed program. -/
structure Prog.WF (p : Prog) : Prop where
  nargs : p.nargs ≤ p.next
  ssa : SSA p.next (· < p.nargs) p.ops

/-- The meaning of an operation on messages; `I` gives the meaning of the operations not mentioned. -/
def msgOp (I : Kind → List M → M) (env : Nat → M) (op : Op) : M :=
  match op.kind with
  | .add => env (op.args.getD 0 0) + env (op.args.getD 1 0)
  | .sub => env (op.args.getD 0 0) - env (op.args.getD 1 0)
  | .mul => env (op.args.getD 0 0) * env (op.args.getD 1 0)
  | .insert | .other _ => I op.kind (op.args.map env)
  | .init | .modReduce | .adjust | .bootstrap => env (op.args.headD 0)

/-- The messages of all values. -/
def messages (I : Kind → List M → M) (p : Prog) (inp : Nat → M) : Nat → M := run (msgOp I) p.ops inp

/-- The meaning of an operation on what plaintexts and ciphertexts hold, with the scale attributes `sc`.
`β` is two.  An initialisation encodes at its scale; a modulus reduction divides by the prime of its level; an
adjustment multiplies with ones encoded at the scale `materialize` says; bootstrapping gives the message at the
default scale. -/
def heldOp (β : K) (cfg : Cfg) (I : Kind → List M → M) (t : Nat → Fact) (sc : Nat → Option Int)
    (env : Nat → M) (op : Op) : M :=
  let a := op.args.headD 0
  match op.kind with
  | .add => env (op.args.getD 0 0) + env (op.args.getD 1 0)
  | .sub => env (op.args.getD 0 0) - env (op.args.getD 1 0)
  | .mul => env (op.args.getD 0 0) * env (op.args.getD 1 0)
  | .insert | .other _ => I op.kind (op.args.map env)
  | .init => β ^ ((sc op.res).getD 0) • env a
  | .modReduce => if (t op.res).sec then β ^ (- cfg.qAt (t a).lvl) • env a else env a
  | .adjust =>
    match materialize ((sc a).getD 0) ((sc op.res).getD 0) with
    | some (some d) => env a * (β ^ d • 1)
    | _ => env a
  | .bootstrap => β ^ (cfg.dflt - (sc a).getD 0) • env a

/-- What the values hold; a secret argument holds its message at the scale of its attribute. -/
def held (β : K) (cfg : Cfg) (I : Kind → List M → M) (t : Nat → Fact) (sc : Nat → Option Int) (p : Prog)
    (inp : Nat → M) : Nat → M :=
  run (heldOp β cfg I t sc) p.ops fun v => if (t v).sec then β ^ ((sc v).getD 0) • inp v else inp v

/-- Operands of secret additions, subtractions and multiplications are secret or encoded; encoded values are only
used by operations with secret results; an initialisation has a plain operand; adjustments and bootstraps are of
secret values. -/
def Encoded (t : Nat → Fact) (p : Prog) : Prop :=
  ∀ op ∈ p.ops,
    ((t op.res).sec = true → op.kind = .add ∨ op.kind = .sub ∨ op.kind = .mul →
      ∀ a ∈ op.args, (t a).scaled = true) ∧
    (∀ a ∈ op.args, (t a).ini = true → (t op.res).sec = true) ∧
    (op.kind = .init → ∀ a ∈ op.args, (t a).scaled = false) ∧
    (op.kind = .adjust ∨ op.kind = .bootstrap → (t op.res).sec = true)

/-- An operation whose meaning is left open commutes with scaling its secret or encoded operands. -/
def Homogeneous (K : Type) {M : Type} [Field K] [CommRing M] [Algebra K M] (I : Kind → List M → M)
    (t : Nat → Fact) (p : Prog) : Prop :=
  ∀ op ∈ p.ops, op.kind = .insert ∨ (∃ g, op.kind = .other g) → (t op.res).sec = true →
    ∀ (c : K) (xs : List M), xs.length = op.args.length →
    I op.kind (List.zipWith (fun a x => if (t a).scaled then c • x else x) op.args xs) = c • I op.kind xs

/-- The operations without a rule have one scale on their result and on all their secret or encoded operands. -/
def OthersKeep (t : Nat → Fact) (sc : Nat → Option Int) (p : Prog) : Prop :=
  ∀ op ∈ p.ops, (∃ g, op.kind = .other g) → (t op.res).sec = true →
    ∀ a ∈ op.args, (t a).scaled = true → sc a = sc op.res

/-- Every secret or encoded value has a scale. -/
def AllScaled (t : Nat → Fact) (sc : Nat → Option Int) : Prop := ∀ v, (t v).scaled = true → sc v ≠ none

/-- `v` is the result of a modulus reduction that falls below the default scale according to the propagation `t`. -/
def Lowered (cfg : Cfg) (t : Nat → Fact) (p : Prog) (v : Nat) : Prop :=
  (∃ op ∈ p.ops, op.res = v ∧ op.kind = .modReduce) ∧ (t v).sec = true ∧ ∃ s, (t v).scale = some s ∧ s < cfg.dflt

/-- A lowered value is only used by additive operations beside an operand at the default scale or above it, and by
multiplications whose other operand is between the default scale and the prime of the level. -/
def Covered (cfg : Cfg) (t : Nat → Fact) (p : Prog) : Prop :=
  ∀ op ∈ p.ops, ∀ a ∈ op.args, Lowered cfg t p a →
    (op.kind.additive = true ∧ ∃ b ∈ op.args, (t b).scaled = true ∧ ∃ s, (t b).scale = some s ∧ cfg.dflt ≤ s) ∨
    (op.kind = .mul ∧ ∃ b, (op.args = [a, b] ∨ op.args = [b, a]) ∧
      ∃ s, (t b).scale = some s ∧ cfg.dflt ≤ s ∧ s ≤ cfg.qAt op.lvl)

/-- The operations without a rule have at most one secret or encoded operand. -/
def OthersOne (t : Nat → Fact) (p : Prog) : Prop :=
  ∀ op ∈ p.ops, (∃ g, op.kind = .other g) → ∀ a ∈ op.args, ∀ b ∈ op.args, (t a).scaled = true → (t b).scaled = true →
    a = b

/-- A value of the program: an argument or the result of an operation. -/
def Prog.Value (p : Prog) (v : Nat) : Prop := v < p.nargs ∨ ∃ op ∈ p.ops, op.res = v

end Heir.Scale
