import Verif.NumTheory.Lemmas2
import Mathlib.Data.Nat.Log

/-! # The next power of two -/

namespace Heir.Kernel

open Heir.NumTheory

theorem nextPowerOfTwo_toNat (v : BitVec 64) (h1 : 1 ≤ v.toNat) (h2 : v.toNat ≤ 2 ^ 63) :
    (nextPowerOfTwo v).toNat = 2 ^ Nat.clog 2 v.toNat := by
  obtain ⟨k, hk, hle, hmin⟩ := nextPowerOfTwo_val v h1 h2
  rw [hk, Nat.le_antisymm (hmin _ (Nat.le_pow_clog (by omega) _)) (Nat.clog_le_of_le_pow hle)]

end Heir.Kernel
