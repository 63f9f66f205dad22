import Verif.LayoutOpt.Model
import Mathlib.Algebra.BigOperators.Group.Finset.Basic
import Mathlib.Order.Interval.Finset.Nat
import Mathlib.Data.List.Dedup

/-!
# What the rotation counts and the rewrites of `--layout-optimization` should do
-/

namespace Heir.LayoutOpt

/-! ## Rotations of a DAG -/

/-- The nodes a node is computed from. -/
def children : Node → List Nat
  | .bin l r => [l, r]
  | .un x => [x]
  | .rot x => [x]
  | .bulk x _ => [x]
  | .extract x i => [x, i]
  | .insert s d i => [s, d, i]
  | .ite c t e => [c, t, e]
  | .yield xs => xs
  | .loop inits body _ _ _ => inits ++ [body]
  | _ => []

/-- The nodes whose data is in the value of a node; an index only selects. -/
def sources : Node → List Nat
  | .extract x _ => [x]
  | .insert s d _ => [s, d]
  | n => children n

/-- The DAG has no cycles: nodes are numbered after their children. -/
def Acyclic (D : Dag) : Prop := ∀ n, ∀ k ∈ children (D n), k < n

/-- `m` is needed for `n`. -/
inductive Reach (D : Dag) : Nat → Nat → Prop
  | refl (n : Nat) : Reach D n n
  | step {n k m : Nat} (h : k ∈ children (D n)) (hr : Reach D k m) : Reach D n m

/-- The value of the node is a ciphertext; `σ` says which variables hold ciphertexts. -/
inductive Secret (D : Dag) (σ : Nat → Bool) : Nat → Prop
  | leaf {n : Nat} (h : D n = .leaf true) : Secret D σ n
  | var {n : Nat} (h : D n = .var) (hs : σ n = true) : Secret D σ n
  | step {n k : Nat} (h : k ∈ sources (D n)) (hs : Secret D σ k) : Secret D σ n

/-- The rotations of ciphertexts one evaluation of a node performs. -/
noncomputable def rotations (D : Dag) (σ : Nat → Bool) (n : Nat) : Int :=
  open Classical in
  match D n with
  | .rot x => if Secret D σ x then 1 else 0
  | .bulk x k => if Secret D σ x then k else 0
  | _ => 0

/-- The nodes needed for `n`. -/
noncomputable def needed (D : Dag) (n : Nat) : Finset Nat :=
  open Classical in (Finset.range (n + 1)).filter (Reach D n)

/-- The nodes needed for some of `ns`. -/
noncomputable def neededAll (D : Dag) (ns : List Nat) : Finset Nat :=
  ns.toFinset.biUnion (needed D)

/-- The rotations performed when each node is evaluated once. -/
noncomputable def total (D : Dag) (σ : Nat → Bool) (s : Finset Nat) : Int :=
  ∑ m ∈ s, rotations D σ m

/-- How often the body of `for i = l to u step s` runs. -/
def trips (l u s : Int) : Nat := ((u - l + s - 1) / s).toNat

/-- The node is no loop. -/
def noLoop : Node → Bool
  | .loop .. => false
  | _ => true

/-- The operand of a rotation. -/
def rotated : Node → Option Nat
  | .rot x => some x
  | .bulk x _ => some x
  | _ => none

/-- No operand of a rotation is a ciphertext only because a variable is. -/
def VarsDoNotMatter (D : Dag) (σ : Nat → Bool) (s : Finset Nat) : Prop :=
  ∀ m ∈ s, ∀ x, rotated (D m) = some x → Secret D σ x → Secret D (fun _ => false) x

/-- The nodes of a shift network that needs no zeros: inputs, masks, sums, products, rotations. -/
def plain : Node → Bool
  | .leaf _ => true
  | .const => true
  | .bin _ _ => true
  | .rot _ => true
  | _ => false

/-- The number of rotations among some nodes, the inputs being ciphertexts. -/
def rots (D : Dag) (s : Finset Nat) : Int :=
  ∑ m ∈ s, if (rotated (D m)).isSome then 1 else 0

/-- No rotation is needed for both operands of a node. -/
def NoSharing (D : Dag) (n : Nat) : Prop :=
  ∀ m ∈ needed D n, ∀ l r, D m = .bin l r →
    ∀ x ∈ needed D l ∩ needed D r, (rotated (D x)).isSome = false

/-- No rotation is needed for two outputs. -/
def OutputsApart (D : Dag) : List Nat → Prop
  | [] => True
  | v :: vs => (∀ x ∈ needed D v ∩ neededAll D vs, (rotated (D x)).isSome = false) ∧
      OutputsApart D vs

/-- The network that shifts in `k` rounds: node `6 * j` is the state after `j` rounds, one part of
it is kept, the other one is rotated. -/
def network : Dag := fun n =>
  if n = 0 then .leaf true
  else
    match n % 6 with
    | 0 => .bin (n - 4) (n - 1)
    | 1 => .const
    | 2 => .bin (n - 2) (n - 1)
    | 3 => .const
    | 4 => .bin (n - 4) (n - 1)
    | _ => .rot (n - 1)

/-! ## Programs with layouts -/

variable {L F T : Type}

/-- Every value is read in the layout it has, values are defined once, and every operation takes
its operands in layouts its kernel accepts (`ok`).  `env`: the layouts of the values so far. -/
def Fits (ok : F → List L → L → Prop) : (Nat → Option L) → List (Instr L F) → Prop
  | _, [] => True
  | env, .assign r _ l :: is =>
    env r = none ∧ Fits ok (fun y => if y = r then some l else env y) is
  | env, .conv r x a b :: is =>
    env r = none ∧ env x = some a ∧ Fits ok (fun y => if y = r then some b else env y) is
  | env, .op r f xs l :: is =>
    env r = none ∧ (∃ ls, xs.map env = ls.map some ∧ ok f ls l) ∧
      Fits ok (fun y => if y = r then some l else env y) is

/-- The tensors the values stand for; conversions of layouts do not change them. -/
def run (plain : Nat → T) (ap : F → List T → T) : (Nat → T) → List (Instr L F) → Nat → T
  | ρ, [] => ρ
  | ρ, .assign r p _ :: is => run plain ap (fun y => if y = r then plain p else ρ y) is
  | ρ, .conv r x _ _ :: is => run plain ap (fun y => if y = r then ρ x else ρ y) is
  | ρ, .op r f xs _ :: is => run plain ap (fun y => if y = r then ap f (xs.map ρ) else ρ y) is

/-- The layouts after a program. -/
def layouts : (Nat → Option L) → List (Instr L F) → Nat → Option L
  | env, [] => env
  | env, .assign r _ l :: is => layouts (fun y => if y = r then some l else env y) is
  | env, .conv r _ _ b :: is => layouts (fun y => if y = r then some b else env y) is
  | env, .op r _ _ l :: is => layouts (fun y => if y = r then some l else env y) is

/-- The operation is a conversion. -/
def isConv : Instr L F → Bool
  | .conv .. => true
  | _ => false

/-! ## The cost of conversions -/

/-- The conversion that defines an operand. -/
def paid (cost : L → L → Int) (o : Operand L) : Int :=
  match o.before with
  | some b => cost b o.lay
  | none => 0

/-- The conversions of the operands and of the result of an operation: an operand that is not free
was converted if `before` is a layout, the result in layout `lay` is converted to each of `outs`. -/
def spentBefore [DecidableEq L] (cost : L → L → Int) (os : List (Operand L)) (lay : L)
    (outs : List L) : Int :=
  (os.dedup.map fun o =>
    if o.free then 0 else paid cost o).sum + (outs.map (cost lay)).sum

/-- The same when the operands are taken in the layouts `ins` and the result has layout `out`. -/
def spentAfter [DecidableEq L] (cost : L → L → Int) (os : List (Operand L))
    (ins : Operand L → L) (out : L) (outs : List L) : Int :=
  (os.dedup.map fun o =>
    if o.free then 0 else cost (o.before.getD o.lay) (ins o)).sum + (outs.map (cost out)).sum

end Heir.LayoutOpt
