import Verif.ModArith.Model
import Mathlib.Algebra.BigOperators.Group.List.Basic
import Mathlib.Data.Int.ModEq

/-! # Specification notions for RNS residue conversion -/

namespace Heir.RNS

open Heir.ModArith

variable {w : Nat}

/-- Product of the moduli of a basis. -/
def modProd (qs : List (BitVec w)) : Nat := (qs.map BitVec.toNat).prod

/-- Pairwise coprime moduli. -/
def PC (qs : List (BitVec w)) : Prop := qs.Pairwise fun a b => Nat.gcd a.toNat b.toNat = 1

/-- The limbs are canonical residues. -/
def Canonical (qs xs : List (BitVec w)) : Prop :=
  ∀ (i : Nat) (q x : BitVec w), qs[i]? = some q → xs[i]? = some x → x.toNat < q.toNat

/-- The integer `z` has the residues `xs`. -/
def HasResidues (qs xs : List (BitVec w)) (z : Int) : Prop :=
  ∀ (i : Nat) (q x : BitVec w), qs[i]? = some q → xs[i]? = some x → z ≡ x.toNat [ZMOD q.toNat]

/-- Conditions on an input basis: accepted moduli at least two, pairwise coprime, odd, and not
the modulus `2^(w-1) - 1` for which the centred lift is wrong. -/
structure GoodBasis (qs : List (BitVec w)) : Prop where
  ne : qs ≠ []
  ver : ∀ q ∈ qs, typeVerify q = true
  two : ∀ q ∈ qs, 2 ≤ q.toNat
  odd : ∀ q ∈ qs, q.toNat % 2 = 1
  top : ∀ q ∈ qs, q.toNat ≠ 2 ^ (w - 1) - 1
  pc : PC qs

end Heir.RNS
