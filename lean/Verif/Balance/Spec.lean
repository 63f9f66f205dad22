import Verif.Balance.Model

/-! # Execution of a block -/

namespace Heir.Balance

/-- Single assignment, and every operand is defined before it is used: by an earlier op or outside
(`D`). -/
def Valid : List Nat → Block → Prop
  | _, [] => True
  | D, (v, i) :: b => v ∉ D ∧ (∀ o ∈ i.operands, o ∈ D) ∧ Valid (v :: D) b

/-- Names from `n` on are free. -/
def Below (n : Nat) (D : List Nat) (b : Block) : Prop :=
  (∀ v ∈ D, v < n) ∧ ∀ p ∈ b, p.1 < n ∧ ∀ o ∈ p.2.operands, o < n

/-- Meaning of the ops: `other` ops are any functions, and `arith` any binary operations. -/
structure Sem (R : Type) where
  other : Nat → List R → R
  arith : Name → R → R → R

variable {R : Type}

def Inst.eval (S : Sem R) (e : Nat → R) : Inst → R
  | .other tag args => S.other tag (args.map e)
  | .arith op a c => S.arith op (e a) (e c)

/-- Execute the ops in order. -/
def exec (S : Sem R) : Block → (Nat → R) → Nat → R
  | [], e => e
  | (v, i) :: b, e => exec S b (Function.update e v (i.eval S e))

/-- The operation may be reordered. -/
def AC (g : R → R → R) : Prop :=
  (∀ x y z, g (g x y) z = g x (g y z)) ∧ ∀ x y, g x y = g y x

def Tree.depth : Tree → Nat
  | .leaf _ => 0
  | .node l r => max l.depth r.depth + 1

def Tree.leaves : Tree → List Nat
  | .leaf v => [v]
  | .node l r => l.leaves ++ r.leaves

/-- Nesting depth of one kind of op, for `muli` and `mulf` the multiplicative depth. -/
def depthSem (T : Name) : Sem Nat where
  other _ args := args.foldr max 0
  arith op x y := if op = T then max x y + 1 else max x y

end Heir.Balance
