import Verif.Rotate.Model

/-! # Meaning of `tensor_ext.rotate`

`TensorExtOps.td:22-56`: left rotation of the last axis; negative shifts rotate right. -/

namespace Heir.Rotate

variable {α : Type}

/-- Left rotation by `s` of every row of `n` elements, on flat row-major positions. -/
def rotated (n : Nat) (s : Int) (v : Nat → α) : Nat → α :=
  fun f => v (f / n * n + (((f % n : Nat) + s) % n : Int).toNat)

/-- Value of an expression at every flat position; a constant with too few elements has none. -/
def TExpr.value (sh : Shape) : TExpr α → Option (Nat → α)
  | .leaf v => some v
  | .splat x => some fun _ => x
  | .dense elts =>
    if h : elts.length = sh.size ∧ 0 < sh.size then
      some fun f => elts[f % sh.size]'(by rw [h.1]; exact Nat.mod_lt _ h.2)
    else none
  | .rotate t s => (t.value sh).map (rotated sh.last s.v.toInt)
  | .bin op a b => (a.value sh).bind fun x => (b.value sh).map fun y f => op (x f) (y f)

/-- Two tensors agree on every position of the shape. -/
def Agree (sh : Shape) (x y : Option (Nat → α)) : Prop :=
  ∃ u v, x = some u ∧ y = some v ∧ ∀ f < sh.size, u f = v f

/-- Value of `tensor.extract` (rank 1): reading outside the tensor is undefined. -/
def Extract.value (sh : Shape) (e : Extract α) : Option α :=
  (e.t.value sh).bind fun v =>
    if 0 ≤ e.index.toInt ∧ e.index.toInt < sh.size then some (v e.index.toInt.toNat) else none

/-- Every shift type of the expression can hold the last dimension `n` with `n ∣ 2^w`. -/
def TExpr.Fits (n : Nat) : TExpr α → Prop
  | .leaf _ => True
  | .splat _ => True
  | .dense _ => True
  | .rotate t s => t.Fits n ∧ n ∣ 2 ^ s.w ∧ n < 2 ^ s.w
  | .bin _ a b => a.Fits n ∧ b.Fits n

/-- Every constant has the number of elements of its type. -/
def TExpr.WF (sh : Shape) : TExpr α → Prop
  | .leaf _ => True
  | .splat _ => True
  | .dense elts => elts.length = sh.size
  | .rotate t _ => t.WF sh
  | .bin _ a b => a.WF sh ∧ b.WF sh

/-- Every dense constant repeats one element. -/
def TExpr.Uniform : TExpr α → Prop
  | .leaf _ => True
  | .splat _ => True
  | .dense elts => ∃ x, ∀ y ∈ elts, y = x
  | .rotate t _ => t.Uniform
  | .bin _ a b => a.Uniform ∧ b.Uniform

end Heir.Rotate
