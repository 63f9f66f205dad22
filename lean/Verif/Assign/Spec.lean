import Verif.Assign.Model

/-!
# What packing and unpacking should compute
-/

namespace Heir.Assign

open Heir.Codegen (Node trace)

variable {β : Type}

/-- A tensor has as many elements as its shape says. -/
def Tensor.Full (t : Tensor β) : Prop := t.vals.length = numElements t.shape

/-- A constant stored as one value has one value. -/
def Src.Well : Src β → Prop
  | .tensor (.const true) t => t.Full ∧ ∀ a ∈ t.vals, ∀ b ∈ t.vals, a = b
  | .tensor _ t => t.Full
  | _ => True

/-- The slot of each point of `R` has the element of the point, and the other slots are zero. -/
def Packs [Zero β] (src : List Int → Option β) (R : Pt → Prop) (out : Tensor β) : Prop :=
  ∀ r, inB out.shape r = true →
    (∀ d, R (d, r) → out.get r = src d) ∧ ((∀ d, ¬ R (d, r)) → out.get r = some 0)

/-- No slot is to have two different elements. -/
def Unambiguous (src : List Int → Option β) (R : Pt → Prop) : Prop :=
  ∀ d d' r, R (d, r) → R (d', r) → src d = src d'

/-- Each element is that of one of its slots, and elements without slots are zero. -/
def Unpacks [Zero β] (ct : Tensor β) (R : Pt → Prop) (out : Tensor β) : Prop :=
  ∀ d, inB out.shape d = true →
    ((∃ r, R (d, r)) → ∃ r, R (d, r) ∧ out.get d = ct.get r) ∧ ((∀ r, ¬ R (d, r)) → out.get d = some 0)

/-- A syntax tree that visits the points of a relation, in any order, any number of times. -/
structure Visits (tree : Node) (R : Pt → Prop) : Prop where
  isLoop : tree.isLoop = true
  served : tree.Served []
  points : ∃ ts, trace tree (fun _ => none) = some ts ∧ ∀ is, is ∈ ts ↔ ∃ p, R p ∧ is = p.1 ++ p.2

/-- The answers of isl are right about the relation `R`, of `dom` and `rng` variables. -/
structure Isl.Right (isl : Isl) (R : Pt → Prop) (dom rng : Nat) (shape target : List Nat) : Prop where
  lengths : ∀ p, R p → p.1.length = dom ∧ p.2.length = rng
  points : ∀ p, p ∈ isl.points ↔ R p
  tree : Visits isl.tree R
  dense : isl.dense = true → ∀ r, inB target r = true → ∃ d, R (d, r)
  crt : isl.crt = true → ∃ c n, target = [c, n] ∧ ∀ p, R p ↔ ∃ ct slot : Nat, ct < c ∧ slot < n ∧
    p = (shape.map fun d => ((ct * n + slot : Nat) : Int) % d, [(ct : Int), (slot : Int)])
  sample : ∀ r, isl.sample = some r → ∃ d, R (d, r)
  found : isl.sample = none → ∀ p, ¬ R p

/-- The points of a relation whose domain is that of the shape. -/
def within (shape : List Nat) (L : Pt → Prop) (p : Pt) : Prop := L p ∧ inB shape p.1 = true

def Src.shape : Src β → List Nat
  | .scalar _ _ => []
  | .tensor _ t => t.shape
  | .empty s => s

/-- The points of a layout that are of elements of the input. -/
def Src.part (src : Src β) (L : Pt → Prop) : Pt → Prop :=
  match src with
  | .scalar _ _ => L
  | _ => within src.shape L

/-- One relation after the other. -/
def after (R S : Pt → Prop) (p : Pt) : Prop := ∃ m, R (p.1, m) ∧ S (m, p.2)

/-- Each slot has one element. -/
def Injective (L : Pt → Prop) : Prop := ∀ d d' r, L (d, r) → L (d', r) → d = d'

end Heir.Assign
