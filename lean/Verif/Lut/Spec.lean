import Verif.Lut.Model

/-! # What tables, gates and concealed integers mean -/

namespace Heir.Lut

/-- The number written by bits, most significant first. -/
def index : List Bool → Nat
  | [] => 0
  | b :: bs => b.toNat * 2 ^ bs.length + index bs

/-- The value of a comb program on bits: `comb.truth_table` has its inputs sorted from the most to
the least significant one, and bit `k` of the table is the output for the input number `k`
(`lib/Dialect/Comb/IR/Combinational.td:289-312`). -/
def Comb.value (env : Nat → Bool) : Comb → Bool
  | .secret i => env i
  | .clear b => b
  | .inv x => !x.value env
  | .gate g x y => g.eval (x.value env) (y.value env)
  | .table n xs t => t.testBit (index (List.ofFn fun i : Fin n => (xs i).value env))

/-- The value of a CGGI program on bits, `truth_table >> {c, b, a}`
(`lib/Dialect/CGGI/IR/CGGIPBSOps.td:36-54`). -/
def Cggi.value (env : Nat → Bool) : Cggi → Bool
  | .arg i => env i
  | .trivial b => b
  | .not x => !x.value env
  | .gate g x y => g.eval (x.value env) (y.value env)
  | .lut2 b a t => t.testBit (index [b.value env, a.value env])
  | .lut3 c b a t => t.testBit (index [c.value env, b.value env, a.value env])
  | .lut4 d c b a t => t.testBit (index [d.value env, c.value env, b.value env, a.value env])

/-- Message bits that hold the inputs of the tables and gates that are decomposed. -/
def Cggi.Fits (p : Nat) : Cggi → Prop
  | .arg _ => True
  | .trivial _ => True
  | .not x => x.Fits p
  | .gate g x y => x.Fits p ∧ y.Fits p ∧ (g = .and ∨ g = .or ∨ g = .xor → 2 ≤ p)
  | .lut2 b a _ => b.Fits p ∧ a.Fits p ∧ 2 ≤ p
  | .lut3 c b a _ => c.Fits p ∧ b.Fits p ∧ a.Fits p ∧ 3 ≤ p
  | .lut4 d c b a _ => d.Fits p ∧ c.Fits p ∧ b.Fits p ∧ a.Fits p

/-- Message bits that hold the inputs of all tables. -/
def Cggi.FitsTables (p : Nat) : Cggi → Prop
  | .arg _ => True
  | .trivial _ => True
  | .not x => x.FitsTables p
  | .gate _ x y => x.FitsTables p ∧ y.FitsTables p
  | .lut2 b a _ => b.FitsTables p ∧ a.FitsTables p ∧ 2 ≤ p
  | .lut3 c b a _ => c.FitsTables p ∧ b.FitsTables p ∧ a.FitsTables p ∧ 3 ≤ p
  | .lut4 d c b a _ =>
      d.FitsTables p ∧ c.FitsTables p ∧ b.FitsTables p ∧ a.FitsTables p ∧ 4 ≤ p

/-- A program has a table. -/
def Comb.HasTable : Comb → Prop
  | .secret _ => False
  | .clear _ => False
  | .inv x => x.HasTable
  | .gate _ x y => x.HasTable ∨ y.HasTable
  | .table _ _ _ => True

/-- All tables have three or four inputs and no bits beyond their outputs
(`TruthTableOp::verify`, `lib/Dialect/Comb/IR/CombOps.cpp:235-245`). -/
def Comb.Supported : Comb → Prop
  | .secret _ => True
  | .clear _ => True
  | .inv x => x.Supported
  | .gate _ x y => x.Supported ∧ y.Supported
  | .table n xs t => (∀ i, (xs i).Supported) ∧ (n = 3 ∨ n = 4) ∧ t < 2 ^ 2 ^ n

/-- The number written by bits, least significant first. -/
def lsbIndex : List Bool → Nat
  | [] => 0
  | b :: bs => b.toNat + 2 * lsbIndex bs

/-- The strides of a tensor in row-major order. -/
def rowStrides : List Nat → List Int
  | [] => []
  | _ :: ds => (ds.prod : Int) :: rowStrides ds

/-- An index of a tensor. -/
def InShape : List Int → List Nat → Prop
  | [], [] => True
  | i :: is, d :: ds => (0 ≤ i ∧ i < d) ∧ InShape is ds
  | _, _ => False

/-- The bits of a tensor of integers: those of each element in row-major order, from the least
significant one. -/
def tensorBits {w : Nat} (elems : List (BitVec w)) : List Bool :=
  (elems.map fun x => (List.range w).map fun i => x.getLsbD i).flatten

end Heir.Lut
