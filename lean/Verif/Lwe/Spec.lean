import Mathlib.Algebra.Ring.Basic
import Mathlib.Algebra.BigOperators.Group.List.Basic
import Mathlib.Algebra.Group.Pi.Basic
import Mathlib.Algebra.Group.Equiv.Basic

/-! # Specification notions for RLWE ciphertexts -/

namespace Heir.Lwe

variable {A : Type} [CommRing A] {n w : Nat}

/-- Congruence of integer polynomials modulo `q`. -/
def Cong (q : Nat) (a b : A) : Prop := (q : A) ∣ a - b

/-- What a ciphertext decrypts to before the noise is removed: "a ciphertext with two components
`[c0, c1]` represents the polynomial `c0 + c1 * S`" (`lib/Dialect/LWE/IR/LWEOps.td:283-287`). -/
def phase (s : A) : List A → A
  | [] => 0
  | c :: cs => c + s * phase s cs

/-- The RNS polynomial has the residues of the integer polynomial `a`. -/
def Represents (x : List (BitVec w × A)) (a : A) : Prop := ∀ l ∈ x, Cong l.1.toNat l.2 a

/-- The product of the moduli. -/
def modulus (basis : List (BitVec w)) : Nat := (basis.map BitVec.toNat).prod

/-- Moduli that are at least 2 and pairwise coprime. -/
structure GoodBasis (basis : List (BitVec w)) : Prop where
  two : ∀ q ∈ basis, 2 ≤ q.toNat
  pc : basis.Pairwise fun a b => Nat.Coprime a.toNat b.toNat

/-- All coefficients are in `[-Q/2, Q/2)`. -/
def Centered (C : A ≃+ (Fin n → ℤ)) (Q : Nat) (a : A) : Prop :=
  ∀ i, -(Q : ℤ) ≤ 2 * C a i ∧ 2 * C a i < Q

/-- All coefficients are in `[0, q)`. -/
def Reduced (C : A ≃+ (Fin n → ℤ)) (q : Nat) (a : A) : Prop := ∀ i, 0 ≤ C a i ∧ C a i < q

/-- All coefficients are in the window of the representatives `mod_switch` takes, `[q/2 - q, q/2)` with
the division rounding down. -/
def Small (C : A ≃+ (Fin n → ℤ)) (q : Nat) (a : A) : Prop :=
  ∀ i, ((q / 2 : Nat) : ℤ) - q ≤ C a i ∧ C a i < ((q / 2 : Nat) : ℤ)

/-- A component of a key-switching key from `sIn` to `sOut` for the moduli `part` of the basis
`input`, in the basis `input ++ primes`: an encryption of `P * g * sIn` with noise `e` under `sOut`,
where `P` is the product of `primes` and the integer `g` is 1 modulo the moduli in `part` and 0 modulo
the other ones of `input`. -/
structure IsKey (input primes part : List (BitVec w)) (sIn sOut e : A)
    (key : List (BitVec w × A) × List (BitVec w × A)) : Prop where
  basis0 : key.1.map (·.1) = input ++ primes
  basis1 : key.2.map (·.1) = input ++ primes
  enc : ∃ (g : ℤ) (k0 k1 : A), Represents key.1 k0 ∧ Represents key.2 k1 ∧
    (∀ q ∈ part, (q.toNat : ℤ) ∣ g - 1) ∧ (∀ q ∈ input, q ∉ part → (q.toNat : ℤ) ∣ g) ∧
    ∀ q ∈ input ++ primes,
      Cong q.toNat (phase sOut [k0, k1]) ((modulus primes : A) * g * sIn + e)

end Heir.Lwe
