import Verif.ArithMod.Model

/-!
# Specification for C144–C145

What an `arith` program computes (LangRef of the `arith` dialect), and what it computes when
its operations are read as operations on the integers.
-/

namespace Heir.ArithMod

/-- The values a program is run on. -/
structure Env where
  arg : (w : Nat) → Nat → BitVec w
  mem : (w : Nat) → Nat → BitVec w

/-- The value of an `arith` program. -/
def E.eval (ρ : Env) : {w : Nat} → E w → BitVec w
  | w, .arg _ i => ρ.arg w i
  | w, .load _ i => ρ.mem w i
  | _, .const _ c => c
  | _, .bin .add a b => a.eval ρ + b.eval ρ
  | _, .bin .sub a b => a.eval ρ - b.eval ρ
  | _, .bin .mul a b => a.eval ρ * b.eval ρ
  | _, .bin .remu a b => a.eval ρ % b.eval ρ
  | _, .ext true w _ a => (a.eval ρ).signExtend w
  | _, .ext false w _ a => (a.eval ρ).setWidth w

/-- The value of a program on integers of any size: nothing wraps, leaves are unsigned. -/
def E.exact (ρ : Env) : {w : Nat} → E w → Int
  | w, .arg _ i => (ρ.arg w i).toNat
  | w, .load _ i => (ρ.mem w i).toNat
  | _, .const _ c => c.toNat
  | _, .bin .add a b => a.exact ρ + b.exact ρ
  | _, .bin .sub a b => a.exact ρ - b.exact ρ
  | _, .bin .mul a b => a.exact ρ * b.exact ρ
  | _, .bin .remu a b => a.exact ρ % b.exact ρ
  | _, .ext _ _ _ a => a.exact ρ

/-- Every integer of the program satisfies `P`, given its width. -/
def E.Widths (P : Nat → Prop) : {w : Nat} → E w → Prop
  | w, .arg _ _ => P w
  | w, .load _ _ => P w
  | w, .const _ _ => P w
  | w, .bin _ a b => P w ∧ a.Widths P ∧ b.Widths P
  | w, .ext _ _ _ a => P w ∧ a.Widths P

/-- The program takes no remainder. -/
def E.NoRem : {w : Nat} → E w → Prop
  | _, .bin k a b => k ≠ .remu ∧ a.NoRem ∧ b.NoRem
  | _, .ext _ _ _ a => a.NoRem
  | _, _ => True

/-- Is the value a constant or a load?  Those are not reduced by the conversion. -/
def E.raw : {w : Nat} → E w → Bool
  | _, .load _ _ => true
  | _, .const _ _ => true
  | _, _ => false

/-- The operand of every extension has at least two bits and lies in the middle half of its
range: `-2^(v-2) ≤ x < 2^(v-2)` for `extsi`, `0 ≤ x < 2^(v-2)` for `extui`, and for constants
and loads. -/
def E.Fits (ρ : Env) : {w : Nat} → E w → Prop
  | _, .bin _ a b => a.Fits ρ ∧ b.Fits ρ
  | _, .ext (v := v) s _ _ a => a.Fits ρ ∧ 2 ≤ v ∧ 2 * (a.eval ρ).toInt < 2 ^ (v - 1) ∧
      (if s ∧ ¬ a.raw then -(2 ^ (v - 1)) ≤ 2 * (a.eval ρ).toInt else 0 ≤ (a.eval ρ).toInt)
  | _, _ => True

/-- No operation leaves the range of its width, all values being unsigned. -/
def E.NoWrap (ρ : Env) : {w : Nat} → E w → Prop
  | w, .bin k a b => a.NoWrap ρ ∧ b.NoWrap ρ ∧ 0 ≤ (E.bin k a b).exact ρ ∧
      (E.bin k a b).exact ρ < 2 ^ w
  | _, .ext (v := v) s _ _ a => a.NoWrap ρ ∧ (s → 2 * a.exact ρ < 2 ^ v)
  | _, _ => True

/-- Constants and loads are below `q`, loads are narrower than 64 bits, and dense constants are not negative. -/
def E.Below (ρ : Env) (q : Nat) : {w : Nat} → E w → Prop
  | w, .load _ i => w < 64 ∧ (ρ.mem w i).toNat < q
  | _, .const dense c => c.toNat < q ∧ (dense → c.msb = false)
  | _, .bin _ a b => a.Below ρ q ∧ b.Below ρ q
  | _, .ext _ _ _ a => a.Below ρ q
  | _, _ => True

/-- The arguments are handed over as residues, `q w` being the modulus for width `w`. -/
def Hands (ρ : Env) (σ : Store) (q : Nat → Nat) : Prop :=
  (∀ w i, σ.arg w i = (ρ.arg w i).toNat % q w) ∧ ∀ w i, σ.mem w i = ρ.mem w i

end Heir.ArithMod
