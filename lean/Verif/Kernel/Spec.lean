import Verif.Kernel.Model
import Mathlib.Algebra.BigOperators.Group.Finset.Basic

/-! # What the kernels should compute -/

namespace Heir.Kernel

open Heir.Dag Finset

variable {R : Type} {N : Nat} [CommRing R] [DecidableEq R]

/-- Every rotation has a key. -/
def anyKey : Int → Bool := fun _ => true

/-- Only the listed amounts have a key (a rotation by zero needs none). -/
def onlyKeys (keys : List Int) : Int → Bool := fun a => a == 0 || keys.contains a

/-- With the given rotation keys the kernel succeeds and returns the slots `w`. -/
def Computes (ok : Int → Bool) (e : KExpr R N) (w : Slots R N) : Prop :=
  ∀ env, ∃ secret, e.eval (kSem ok) env = some [.vec secret w]

/-- Slot `t` of the diagonal sum: diagonal `c` meets the slot `c` periods to the right. -/
def diagSum (D : Nat → Slots R N) (v : Slots R N) (period : Int) (steps : Nat) : Slots R N :=
  fun t => ∑ c ∈ range steps, D c t * v (t + ((c * period : Int) : ZMod N))

end Heir.Kernel
