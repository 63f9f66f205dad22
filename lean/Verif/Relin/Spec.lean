import Verif.Mgmt.Secret

/-! # What relinearizations are for -/

namespace Heir.Relin
open Heir.Mgmt

/-- The number of components of the result: a relinearized ciphertext has two, the product of ciphertexts with `d` and
`e` components has `d + e - 1`, and any other operation gives as many as its largest operand has. -/
def compStep (sec : Nat → Bool) (t : Nat → Nat) (op : Op) : Nat :=
  if op.kind = .relinearize then 2
  else if op.kind = .mul then ((op.args.filter sec).map fun a => t a - 1).sum + 1
  else ((op.args.filter sec).map t).foldr max 0

/-- The numbers of components of the ciphertexts of a program; fresh ones have two. -/
def comps (p : Prog) : Nat → Nat := run (compStep (secs p)) p.ops fun _ => 2

/-- The operations that can only be performed on two components: rotations, modulus reductions, and operations of a
ciphertext with a plaintext. -/
def NeedsLinear (rot : Nat → Bool) (p : Prog) (op : Op) : Prop :=
  (∃ t, op.kind = .other t ∧ rot t = true) ∨ op.kind = .modReduce ∨
  ((op.kind = .add ∨ op.kind = .sub ∨ op.kind = .mul ∨ op.kind = .insert) ∧
    ∃ a, (op.args[0]? = some a ∨ op.args[1]? = some a) ∧ secs p a = false)

/-- What the backends need.  `mixed` tells whether they add ciphertexts with different numbers of components. -/
structure Valid (rot : Nat → Bool) (mixed : Bool) (p : Prog) : Prop where
  three : ∀ op ∈ p.ops, secs p op.res = true → comps p op.res ≤ 3
  linear : ∀ op ∈ p.ops, NeedsLinear rot p op → ∀ a ∈ op.args, secs p a = true → comps p a = 2
  yields : ∀ y ∈ p.yields, secs p y = true → comps p y = 2
  same : mixed = false → ∀ op ∈ p.ops, ∀ a ∈ op.args, ∀ b ∈ op.args, secs p a = true → secs p b = true →
    comps p a = comps p b

/-- How many relinearizations there are. -/
def relins (p : Prog) : Nat := (p.ops.filter fun op => op.kind = .relinearize).length

end Heir.Relin
