import Verif.Mgmt.Model

/-! # What ciphertext management has to achieve -/

namespace Heir.Mgmt

variable {D : Type}

/-- The meaning of an operation: a management operation returns the message of its operand
(`lib/Dialect/Mgmt/IR/MgmtOps.td`), the others are arbitrary functions. -/
def evalOp (I : Kind → List D → D) (env : Nat → D) (op : Op) : D :=
  if op.kind.isMgmt then env (op.args.headD 0) else I op.kind (op.args.map env)

/-- Executes the operations in order. -/
def eval (I : Kind → List D → D) : List Op → (Nat → D) → Nat → D
  | [], env => env
  | op :: ops, env => eval I ops fun v => if v = op.res then evalOp I env op else env v

/-- What the program yields. -/
def Prog.result (I : Kind → List D → D) (p : Prog) (env : Nat → D) : List D :=
  p.yields.map (eval I p.ops env)

/-- Each value is defined once, before its uses; management operations have one operand, arithmetic ones
two. -/
def SSA (N : Nat) : (Nat → Prop) → List Op → Prop
  | _, [] => True
  | P, op :: ops =>
    (∀ a ∈ op.args, P a) ∧ ¬ P op.res ∧ op.res < N ∧
      (op.kind.isMgmt = true → op.args.length = 1) ∧
      (op.kind = .add ∨ op.kind = .sub ∨ op.kind = .mul → op.args.length = 2) ∧
      SSA N (fun v => P v ∨ v = op.res) ops

/-- A well-formed program. -/
structure Prog.WF (p : Prog) : Prop where
  nargs : p.nargs ≤ p.next
  ssa : SSA p.next (· < p.nargs) p.ops
  yields : ∀ y ∈ p.yields, y < p.nargs ∨ ∃ op ∈ p.ops, op.res = y

/-- The operations whose operands have to be at one level. -/
def Kind.needsSameLevel (k : Kind) : Prop := k = .add ∨ k = .sub ∨ k = .mul ∨ k = .insert

/-- Every secret operand is at the level of the result, unless the level is invalid. -/
def LevelsMatch (cfg : Cfg) (p : Prog) : Prop :=
  ∀ op ∈ p.ops, op.kind.needsSameLevel → (facts cfg p op.res).sec = true →
    (facts cfg p op.res).lvl ≠ .invalid →
    ∀ a ∈ op.args, (facts cfg p a).sec = true → (facts cfg p a).lvl = (facts cfg p op.res).lvl

/-- Only relinearizations see ciphertexts of a dimension other than two. -/
def Linear (cfg : Cfg) (p : Prog) : Prop :=
  (∀ op ∈ p.ops, op.kind ≠ .relinearize →
    ∀ a ∈ op.args, (facts cfg p a).sec = true → (facts cfg p a).dim = some 2) ∧
  ∀ y ∈ p.yields, (facts cfg p y).sec = true → (facts cfg p y).dim = some 2

/-- No operand of a product of ciphertexts is itself the result of a product of ciphertexts. -/
def ProductsApart (cfg : Cfg) (p : Prog) : Prop :=
  ∀ op ∈ p.ops, op.kind = .mul → (∀ a ∈ op.args, (facts cfg p a).sec = true) →
    ∀ op' ∈ p.ops, op'.kind = .mul → (∀ b ∈ op'.args, (facts cfg p b).sec = true) → op'.res ∉ op.args

/-- An insertion has at most two secret operands, the inserted value and the destination; the other operands
are indices. -/
def InsertsTwo (cfg : Cfg) (p : Prog) : Prop :=
  ∀ op ∈ p.ops, op.kind = .insert → (op.args.filter fun a => (facts cfg p a).sec).length ≤ 2

/-- `Reach p v k`: a path of operations from a secret argument to the value `v` with `k` multiplications or
scale adjustments after its last bootstrap. -/
inductive Reach (p : Prog) : Nat → Nat → Prop
  | arg (v : Nat) : v < p.nargs → p.secArg v = true → Reach p v 0
  | boot (op : Op) (a k : Nat) : op ∈ p.ops → a ∈ op.args → Reach p a k → op.kind = .bootstrap → Reach p op.res 0
  | up (op : Op) (a k : Nat) : op ∈ p.ops → a ∈ op.args → Reach p a k →
    (op.kind = .mul ∨ ∃ i, op.kind = .adjustScale i) → Reach p op.res (k + 1)
  | keep (op : Op) (a k : Nat) : op ∈ p.ops → a ∈ op.args → Reach p a k →
    op.kind ≠ .bootstrap → op.kind ≠ .mul → (∀ i, op.kind ≠ .adjustScale i) → Reach p op.res k

/-- `d` is the largest depth of a path to `v`. -/
def IsDepth (p : Prog) (v d : Nat) : Prop := Reach p v d ∧ ∀ k, Reach p v k → k ≤ d

/-- `Drops c p v k`: along some path of operations from a secret argument `k` moduli have been dropped from the
ciphertext `v`; a bootstrap leaves a ciphertext with `c` moduli dropped. -/
inductive Drops (c : Nat) (p : Prog) : Nat → Nat → Prop
  | arg (v : Nat) : v < p.nargs → p.secArg v = true → Drops c p v 0
  | boot (op : Op) (a k : Nat) : op ∈ p.ops → a ∈ op.args → Reach p a k → op.kind = .bootstrap → Drops c p op.res c
  | one (op : Op) (a k : Nat) : op ∈ p.ops → a ∈ op.args → Drops c p a k → op.kind = .modReduce →
    Drops c p op.res (k + 1)
  | many (op : Op) (a k d : Nat) : op ∈ p.ops → a ∈ op.args → Drops c p a k → op.kind = .levelReduce d →
    Drops c p op.res (k + d)
  | keep (op : Op) (a k : Nat) : op ∈ p.ops → a ∈ op.args → Drops c p a k → op.kind ≠ .bootstrap →
    op.kind ≠ .modReduce → (∀ d, op.kind ≠ .levelReduce d) → op.kind ≠ .levelReduceMin → Drops c p op.res k

/-- Operations that do not need operands at one level have at most one secret operand. -/
def OthersOne (p : Prog) : Prop :=
  ∀ op ∈ p.ops, ¬ op.kind.needsSameLevel → ∀ i j : Fin op.args.length,
    (∃ k, Reach p (op.args.get i) k) → (∃ k, Reach p (op.args.get j) k) → i = j

/-- `Comps p v d`: along some path of operations from a secret argument the ciphertext `v` has `d` components:
the product of ciphertexts with `d` and `e` components has `d + e - 1`. -/
inductive Comps (p : Prog) : Nat → Nat → Prop
  | arg (v : Nat) : v < p.nargs → p.secArg v = true → Comps p v 2
  | relin (op : Op) (a d : Nat) : op ∈ p.ops → a ∈ op.args → Comps p a d → op.kind = .relinearize → Comps p op.res 2
  | mul (op : Op) (a b d e : Nat) : op ∈ p.ops → op.kind = .mul → op.args = [a, b] → Comps p a d → Comps p b e →
    Comps p op.res (d + e - 1)
  | mulPlain (op : Op) (a b d : Nat) : op ∈ p.ops → op.kind = .mul → op.args = [a, b] → Comps p a d →
    (∀ k, ¬ Reach p b k) → Comps p op.res d
  | plainMul (op : Op) (a b d : Nat) : op ∈ p.ops → op.kind = .mul → op.args = [b, a] → Comps p a d →
    (∀ k, ¬ Reach p b k) → Comps p op.res d
  | keep (op : Op) (a d : Nat) : op ∈ p.ops → a ∈ op.args → Comps p a d → op.kind ≠ .relinearize →
    op.kind ≠ .mul → Comps p op.res d

end Heir.Mgmt
