import Verif.Rewrite.Model

/-! # What the rewritings must preserve -/

namespace Heir.Rewrite

/-- `arith.select`: a scalar condition picks a value, a shaped one picks each element. `none` if the
types do not fit. -/
def select {α : Type} : Sh (BitVec 1) → Sh α → Sh α → Option (Sh α)
  | .scalar c, .scalar t, .scalar f => some (.scalar (if c = 1#1 then t else f))
  | .scalar c, .shaped t, .shaped f =>
    if t.length = f.length then some (.shaped (if c = 1#1 then t else f)) else none
  | .shaped c, .shaped t, .shaped f =>
    if c.length = t.length ∧ t.length = f.length then
      some (.shaped (List.zipWith (fun (x : BitVec 1) (p : α × α) => if x = 1#1 then p.1 else p.2) c
        (t.zip f)))
    else none
  | _, _, _ => none

/-- The value of a comparison. -/
def Pred.holds (p : Pred) (a b : ℚ) : Bool :=
  match p with
  | .lt | .ult => decide (a < b)
  | .gt | .ugt => decide (a > b)
  | .other => false

/-- The value of a comparison of integers. -/
def Pred.holdsInt {w : Nat} (p : Pred) (a b : BitVec w) : Bool :=
  match p with
  | .lt => decide (a.toInt < b.toInt)
  | .gt => decide (b.toInt < a.toInt)
  | .ult => decide (a.toNat < b.toNat)
  | .ugt => decide (b.toNat < a.toNat)
  | .other => false

/-- The greater of two integers, unsigned for the unsigned comparisons. -/
def Rectifier.IsMax {w : Nat} (r : Rectifier w) (a c m : BitVec w) : Prop :=
  (m = a ∨ m = c) ∧
    match r with
    | .ugt | .uge => a.toNat ≤ m.toNat ∧ c.toNat ≤ m.toNat
    | .sgt | .sge => a.toInt ≤ m.toInt ∧ c.toInt ≤ m.toInt

/-- Softmax of the rows. -/
noncomputable def softmax {r n : Nat} (x : Fin r → Fin n → ℝ) (i : Fin r) (j : Fin n) : ℝ :=
  Real.exp (x i j) / ∑ k, Real.exp (x i k)

/-- The bounds that apply to an operation of the body: its own, otherwise those of the generic. -/
def bounds (g : Generic) (i : Inner) : Option ℚ × Option ℚ :=
  (i.lower.orElse fun _ => g.lower, i.upper.orElse fun _ => g.upper)

end Heir.Rewrite
