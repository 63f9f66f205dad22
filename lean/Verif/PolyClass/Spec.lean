import Verif.PolyClass.Model
import Mathlib.RingTheory.Polynomial.Chebyshev

/-! # Specification: terms as Mathlib polynomials -/

namespace Heir.PolyClass

open Polynomial

variable {R : Type} [CommRing R]

/-- The polynomial denoted by a vector of terms. -/
noncomputable def toPoly (p : List (Nat × R)) : R[X] := (p.map fun x => monomial x.1 x.2).sum

/-- Strictly increasing exponents. -/
def Increasing (p : List (Nat × R)) : Prop := (p.map Prod.fst).Pairwise (· < ·)

/-- No zero coefficient. -/
def NoZero (p : List (Nat × R)) : Prop := ∀ x ∈ p, x.2 ≠ 0

/-- The canonical form. -/
def Canonical (p : List (Nat × R)) : Prop := Increasing p ∧ NoZero p

/-- The polynomial with the given coefficients in the Chebyshev basis. -/
noncomputable def chebSeries (c : List R) : R[X] :=
  ∑ i ∈ Finset.range c.length, C (c.getD i 0) * Chebyshev.T R i

end Heir.PolyClass
