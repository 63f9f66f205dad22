import Verif.NTT.Spec
import Mathlib.Algebra.Order.Round
import Mathlib.Data.Real.Archimedean
import Mathlib.Data.Int.ModEq

/-! # Specification notions for BFV noise

A BFV ciphertext is looked at through its phase, the coefficients that decryption gets before it
scales and rounds.  `Q` is the ciphertext modulus and `t` the plaintext modulus. -/

namespace Heir.BfvNoise

/-- Programs that add, subtract, rotate and relinearize, as trees (shared values may repeat).
`keySwitch σ s a` sends coefficient `σ i` to place `i` with the sign `s i`, as automorphisms do; a
relinearization is the one that moves nothing. -/
inductive Prog
  | input (m : Nat → Int)
  | plain (p : Nat → Int)
  | add (a b : Prog)
  | sub (a b : Prog)
  | keySwitch (σ : Nat → Nat) (s : Nat → Int) (a : Prog)

/-- A plaintext operand. -/
def Prog.isPlain : Prog → Bool
  | .plain _ => true
  | _ => false

/-- Signs are signs, and only ciphertexts are rotated. -/
def Prog.WF : Prog → Prop
  | .input _ | .plain _ => True
  | .add a b | .sub a b => a.WF ∧ b.WF
  | .keySwitch _ s a => (∀ i, s i = 1 ∨ s i = -1) ∧ a.isPlain = false ∧ a.WF

/-- The message that the program computes. -/
def Prog.message : Prog → Nat → Int
  | .input m => m
  | .plain p => p
  | .add a b => fun i => a.message i + b.message i
  | .sub a b => fun i => a.message i - b.message i
  | .keySwitch σ s a => fun i => s i * a.message (σ i)

/-- The phase stands for the message, up to `B`. -/
def Near (Q t : Nat) (m ph : Nat → Int) (B : ℝ) : Prop :=
  ∀ i, ∃ k : Int, |(ph i : ℝ) - (Q : ℝ) / t * m i - Q * k| ≤ B

/-- Executions: inputs carry at most the noise `fresh`, plaintexts are scaled and rounded, key switches
add at most `ks`. -/
inductive Run (Q t : Nat) (fresh ks : ℝ) : Prog → (Nat → Int) → Prop
  | input {m ph} : Near Q t m ph fresh → Run Q t fresh ks (.input m) ph
  | plain {p ph} : Near Q t p ph (1 / 2) → Run Q t fresh ks (.plain p) ph
  | add {a b x y ph} : Run Q t fresh ks a x → Run Q t fresh ks b y →
      (∀ i, ph i ≡ x i + y i [ZMOD Q]) → Run Q t fresh ks (.add a b) ph
  | sub {a b x y ph} : Run Q t fresh ks a x → Run Q t fresh ks b y →
      (∀ i, ph i ≡ x i - y i [ZMOD Q]) → Run Q t fresh ks (.sub a b) ph
  | keySwitch {σ s a x ph} (e : Nat → Int) : Run Q t fresh ks a x → (∀ i, |(e i : ℝ)| ≤ ks) →
      (∀ i, ph i ≡ s i * x (σ i) + e i [ZMOD Q]) → Run Q t fresh ks (.keySwitch σ s a) ph

/-- Decryption: scale by `t / Q` and round. -/
noncomputable def decrypt (Q t : Nat) (ph : Nat → Int) (i : Nat) : Int := round ((t : ℝ) * ph i / Q)

end Heir.BfvNoise
