import Verif.Mgmt.Spec
import Verif.Place.Model

/-! # What placed management has to achieve

Levels and scales (in bits) of ciphertexts as the schemes have them, independently of how a placement is found. -/

namespace Heir.Place
open Heir.Mgmt

/-- A ciphertext: the levels it has left and the bits of its scale. -/
structure Ct where
  level : Int
  scale : Int
  deriving DecidableEq, Repr

/-- What there can be: levels from zero to the waterline, scales that fit. -/
def Ct.Valid (o : Opts) (c : Ct) : Prop := 0 ≤ c.level ∧ c.level ≤ o.waterline ∧ 0 < c.scale ∧ c.scale ≤ o.scaleMax

/-- What an operation makes of the ciphertexts among its operands; plaintexts are `none`.  A rescaling needs a level and
drops `sf` bits, a scale adjustment only goes up, a bootstrap starts at the lower bound of the levels or above at scale
`sf` and ends at the waterline.  The ciphertexts a product is made of are at one level, their scales and those of the
plaintexts (`sw` each) add up.  The operands of any other operation are at one level and one scale. -/
def Step (o : Opts) (t : Nat → Option Ct) (op : Op) (x : Option Ct) : Prop :=
  match op.kind with
  | .levelReduce k => ∃ c, t (op.args.headD 0) = some c ∧ x = some ⟨c.level - k, c.scale⟩
  | .modReduce => ∃ c, t (op.args.headD 0) = some c ∧ x = some ⟨c.level - 1, c.scale - o.sf⟩
  | .adjustScale _ => ∃ c s, t (op.args.headD 0) = some c ∧ c.scale ≤ s ∧ x = some ⟨c.level, s⟩
  | .relinearize => ∃ c, t (op.args.headD 0) = some c ∧ x = some c
  | .bootstrap => ∃ c, t (op.args.headD 0) = some c ∧ o.lower ≤ c.level ∧ c.scale = o.sf ∧ x = some ⟨o.waterline, o.sf⟩
  | .levelReduceMin => ∃ c, t (op.args.headD 0) = some c ∧ x = some ⟨0, c.scale⟩
  | .mul =>
    (op.args.filterMap t = [] ∧ x = none) ∨
      ∃ l, op.args.filterMap t ≠ [] ∧ (∀ c ∈ op.args.filterMap t, c.level = l) ∧
        x = some ⟨l, if o.ckks then ((op.args.filterMap t).map (·.scale)).sum +
          o.sw * (op.args.length - (op.args.filterMap t).length : Int) else o.sw⟩
  | _ =>
    (op.args.filterMap t = [] ∧ x = none) ∨
      ∃ c, op.args.filterMap t ≠ [] ∧ (∀ c' ∈ op.args.filterMap t, c' = c) ∧ x = some c

/-- The operations run from the ciphertexts `t` to the ciphertexts `t'` and every ciphertext on the way is valid. -/
inductive Exec (o : Opts) : (Nat → Option Ct) → List Op → (Nat → Option Ct) → Prop
  | nil (t : Nat → Option Ct) : Exec o t [] t
  | cons (t t' : Nat → Option Ct) (op : Op) (ops : List Op) (x : Option Ct) :
    Step o t op x → (∀ c, x = some c → c.Valid o) → Exec o (upd t op.res x) ops t' → Exec o t (op :: ops) t'

/-- The arguments: the secret ones are ciphertexts at their annotated level and scale, or fresh at the waterline. -/
def start (o : Opts) (argAttr : Nat → Option Attr) (p : Prog) (v : Nat) : Option Ct :=
  if v < p.nargs ∧ p.secArg v = true then
    some ⟨((argAttr v).map (·.level)).getD o.waterline,
      if o.ckks then ((argAttr v).bind (·.scale)).getD o.sw else o.sw⟩
  else none

/-- The yielded values are as annotated. -/
def Pinned (o : Opts) (resAttr : Nat → Option Attr) (yields : List Nat) (t : Nat → Option Ct) : Prop :=
  ∀ i y c a, yields[i]? = some y → t y = some c → resAttr i = some a →
    c.level = a.level ∧ (o.ckks = true → ∀ s, a.scale = some s → c.scale = s)

/-- Every plaintext multiplied with a ciphertext is the result of `arith.constant`. -/
def PlainsConst (const : Nat → Bool) (p : Prog) : Prop :=
  ∀ op ∈ p.ops, op.kind = .mul → (facts ⟨0, 0⟩ p op.res).sec = true →
    ∀ a ∈ op.args, (facts ⟨0, 0⟩ p a).sec = false → const a = true

/-- How many operations of a kind there are. -/
def count (k : Kind) (ops : List Op) : Nat := ops.countP fun op => op.kind == k

end Heir.Place
