import Mathlib.Data.Nat.Prime.Basic
import Mathlib.Algebra.BigOperators.Group.List.Basic

/-! # What the parameters are for -/

namespace Heir.Params

/-- "Security Guidelines for Implementing Homomorphic Encryption" (ia.cr/2024/463): the largest
logarithm of all moduli together for 128 bits of security, ternary secrets. -/
def maxLogQ : Nat → Option Nat
  | 1024 => some 26
  | 2048 => some 53
  | 4096 => some 106
  | 8192 => some 214
  | 16384 => some 430
  | 32768 => some 868
  | 65536 => some 1747
  | 131072 => some 3523
  | _ => none

/-- The product `Q` of all moduli is not too large for the ring dimension `n`. -/
def Secure (n Q : Nat) : Prop := ∃ M, maxLogQ n = some M ∧ Q ≤ 2 ^ M

/-- A modulus for which `X ^ n + 1` has `n` roots. -/
def NttPrime (n p : Nat) : Prop := p.Prime ∧ 2 * n ∣ p - 1

/-- The moduli `q` in digits of `size`. -/
def digit (q : List Nat) (size i : Nat) : List Nat := (q.drop (i * size)).take size

end Heir.Params
