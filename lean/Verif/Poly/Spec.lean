import Verif.Poly.Model
import Verif.NTT.Emitted
import Mathlib.Algebra.Polynomial.Basic
import Mathlib.Algebra.Polynomial.Degree.Defs
import Mathlib.Data.ZMod.Basic

/-! # Specification notions for polynomial lowering -/

namespace Heir.Poly

open Polynomial Finset

/-- The polynomial with coefficients `A 0, …, A (n-1)`. -/
noncomputable def polyOf {R : Type} [CommRing R] (n : Nat) (A : Nat → R) : R[X] :=
  ∑ i ∈ range n, C (A i) * X ^ i

/-- The integer polynomial denoted by a list of terms, over `R`. -/
noncomputable def termsPoly {R : Type} [CommRing R] {wc : Nat} (ts : Terms wc) : R[X] :=
  (ts.map fun t => C ((t.2.toInt : Int) : R) * X ^ t.1).sum

/-- The polynomial over `ℤ/q` stored in a tensor of words. -/
noncomputable def wordsPoly {w : Nat} (q : BitVec w) (a : List (BitVec w)) : (ZMod q.toNat)[X] :=
  polyOf a.length fun i => ((a.getD i 0#w).toNat : ZMod q.toNat)

/-- The polynomial over `∏ ℤ/q_i` stored in a tensor of limbs. -/
noncomputable def limbsPoly {w : Nat} (qs : List (BitVec w)) (a : List (List (BitVec w))) :
    ((i : Fin qs.length) → ZMod (qs.get i).toNat)[X] :=
  polyOf a.length fun p i => (((a.getD p []).getD i.1 0#w).toNat : ZMod (qs.get i).toNat)

/-- A tensor of `n` canonical residues. -/
def CanonTensor {w : Nat} (q : BitVec w) (n : Nat) (a : List (BitVec w)) : Prop :=
  a.length = n ∧ ∀ x ∈ a, x.toNat < q.toNat

/-- A tensor of `n` canonical RNS coefficients. -/
def CanonLimbs {w : Nat} (qs : List (BitVec w)) (n : Nat) (a : List (List (BitVec w))) : Prop :=
  a.length = n ∧ ∀ v ∈ a, v.length = qs.length ∧
    ∀ (i : Nat) (q x : BitVec w), qs[i]? = some q → v[i]? = some x → x.toNat < q.toNat

/-- The integer fits a signed word of width `w`. -/
def Fits (w : Nat) (z : Int) : Prop := -2 ^ (w - 1) ≤ z ∧ z < 2 ^ (w - 1)

/-- `r` is the remainder of `p` modulo `D` (of degree `n`). -/
def IsRemainder {R : Type} [CommRing R] (D p r : R[X]) (n : Nat) : Prop :=
  (∃ Q, p = D * Q + r) ∧ r.degree < n

end Heir.Poly
