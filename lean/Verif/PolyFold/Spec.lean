import Mathlib.Algebra.Ring.Basic
import Mathlib.Algebra.BigOperators.Group.List.Basic
import Mathlib.Data.Int.Cast.Basic

/-! # Specification notions for the folding of polynomial constants

A constant `Σ c_i X^{e_i}` of the ring `Z_q[X]/(f)` is compared with another one by its value at
`x` in *every* commutative ring where `q = 0` and `f(x) = 0`; two polynomials agree in all of these
exactly when they are equal in `Z_q[X]/(f)`. -/

namespace Heir.PolyFold

/-- Value at `x` of a polynomial given by its terms `(exponent, signed 64-bit coefficient)`. -/
def val {S : Type} [CommRing S] (x : S) (ts : List (Nat × BitVec 64)) : S :=
  (ts.map fun t => ((t.2.toInt : Int) : S) * x ^ t.1).sum

/-- `x` is a root of the ring's polynomial modulus in a ring where the coefficient modulus vanishes. -/
def Point {S : Type} [CommRing S] (q : Nat) (f : List (Nat × BitVec 64)) (x : S) : Prop :=
  (q : S) = 0 ∧ val x f = 0

end Heir.PolyFold
