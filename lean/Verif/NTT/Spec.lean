import Mathlib.Algebra.BigOperators.Intervals
import Mathlib.Algebra.Ring.Basic
import Mathlib.Data.ZMod.Basic

/-! # Specification notions for the number theoretic transforms -/

namespace Heir.NTT

open Finset

/-- Reversal of the low `k` bits: bit `i` moves to position `k - 1 - i`. -/
def bitrev (k p : Nat) : Nat := ∑ i ∈ range k, (p / 2 ^ i % 2) * 2 ^ (k - 1 - i)

/-- Value at `x` of the polynomial with coefficients `a 0, …, a (n-1)`. -/
def evalAt {R : Type} [CommRing R] (n : Nat) (a : Nat → R) (x : R) : R :=
  ∑ i ∈ range n, a i * x ^ i

/-- `k`-th coefficient of the product of two polynomials of degree below `n`, reduced modulo
`X^n + 1`: `X^(n+k) = -X^k`. -/
def negacyclic {R : Type} [CommRing R] (n : Nat) (a b : Nat → R) (k : Nat) : R :=
  ∑ i ∈ range n, ∑ j ∈ range n,
    if i + j = k then a i * b j else if i + j = k + n then -(a i * b j) else 0

end Heir.NTT
