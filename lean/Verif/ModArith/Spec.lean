import Verif.ModArith.Model
import Mathlib.Data.ZMod.Basic

/-!
# Specification for `mod_arith`

Independent of the lowering: a storage word is *canonical* when it is below the modulus; an
expression denotes an element of `ℤ/q`; the centred representative of a residue is the one
in `[-q/2, q/2)`.
-/

namespace Heir.ModArith

variable {w : Nat}

/-- Storage word `a` is the canonical representative of a residue modulo `q`. -/
def Canonical (q a : BitVec w) : Prop := a.toNat < q.toNat

instance (q a : BitVec w) : Decidable (Canonical q a) :=
  inferInstanceAs (Decidable (a.toNat < q.toNat))

/-- Every constant of the expression is canonical. -/
def Expr.CanonicalConsts (q : BitVec w) : Expr w → Prop
  | .var _ => True
  | .const c => Canonical q c
  | .add a b => a.CanonicalConsts q ∧ b.CanonicalConsts q
  | .sub a b => a.CanonicalConsts q ∧ b.CanonicalConsts q
  | .mul a b => a.CanonicalConsts q ∧ b.CanonicalConsts q
  | .mac a b c => a.CanonicalConsts q ∧ b.CanonicalConsts q ∧ c.CanonicalConsts q

/-- The mathematical meaning of an expression, in `ℤ/q`. -/
def Expr.eval (q : Nat) (env : Nat → ZMod q) : Expr w → ZMod q
  | .var i => env i
  | .const c => (c.toNat : ZMod q)
  | .add a b => a.eval q env + b.eval q env
  | .sub a b => a.eval q env - b.eval q env
  | .mul a b => a.eval q env * b.eval q env
  | .mac a b c => a.eval q env * b.eval q env + c.eval q env

/-- `z` is the centred representative of `a` modulo `q`: congruent and in `[-q/2, q/2)`. -/
def IsCentered (q a z : Int) : Prop := z ≡ a [ZMOD q] ∧ -q ≤ 2 * z ∧ 2 * z < q

end Heir.ModArith
