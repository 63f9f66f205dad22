import Verif.Quart.Model

/-! # What chunks denote -/

namespace Heir.Quart

/-- The number written in base 256 with the digits `l`, least significant first. Digits may be
above 255. -/
def val : List Chunk → Nat
  | [] => 0
  | c :: l => c.toNat + 256 * val l

/-- The chunks stand for `x`. -/
def Denotes {w : Nat} (l : List Chunk) (x : BitVec w) : Prop :=
  8 * l.length < w + 8 ∧ w ≤ 8 * l.length ∧ BitVec.ofNat w (val l) = x

/-- Chunks of fresh encryptions are at most 255, sums of such at most 257. -/
def Small (l : List Chunk) : Prop := ∀ c ∈ l, c.toNat ≤ 257

/-- The digits do not run over the width. -/
def Canonical (w : Nat) (l : List Chunk) : Prop := val l < 2 ^ w

/-- Expressions of additions. -/
inductive Sum (α : Type) where
  | leaf (a : α)
  | add (a b : Sum α)

/-- The sum of the leaves. -/
def Sum.total {w : Nat} : Sum (List Chunk × BitVec w) → BitVec w
  | .leaf a => a.2
  | .add a b => a.total + b.total

/-- The generated code for an expression. -/
def Sum.code {w : Nat} : Sum (List Chunk × BitVec w) → Option (List Chunk)
  | .leaf a => some a.1
  | .add a b => a.code.bind fun x => b.code.bind fun y => addI x y

def Sum.All {α : Type} (p : α → Prop) : Sum α → Prop
  | .leaf a => p a
  | .add a b => a.All p ∧ b.All p

end Heir.Quart
