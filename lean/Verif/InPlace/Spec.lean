import Verif.InPlace.Model

/-!
# What in-place operations do to objects

Independent of the passes: what each value of a program is (`val`), which object
each value refers to when the backend runs the program (`locs`), what is in the
objects as it runs (`memStep`), and what operations read (`reads`, `held`).
-/

namespace Heir.InPlace

/-- The function with one value changed. -/
def upd {α : Type} (t : Nat → α) (r : Nat) (x : α) : Nat → α :=
  fun v => if v = r then x else t v

/-- An operation that writes a ciphertext (or a decrypted message). -/
def Kind.fn? : Kind → Option Nat
  | .conv f _ | .alloc f | .plain f => some f
  | .fetch _ | .hold _ _ => none

/-! ## Values: no objects -/

/-- The result of one operation as a value: the function of the operands, or the
value fetched. -/
def valStep {D : Type} (I : Nat → List D → D) (t : Nat → D) (op : Op) :
    Nat → D :=
  match op.kind with
  | .conv f _ | .alloc f | .plain f => upd t op.res (I f (op.args.map t))
  | .fetch _ => upd t op.res (t (op.args.headD 0))
  | .hold _ _ => t

/-- The value of every name, for every meaning `I` of the functions. -/
def val {D : Type} (I : Nat → List D → D) (env : Nat → D) (ops : List Op) :
    Nat → D :=
  ops.foldl (valStep I) env

/-! ## Objects -/

/-- The object a result refers to: its own, that of the storage an in-place
operation was given, or that of the value fetched.  Objects are called after the
value they were made for. -/
def locStep (t : Nat → Nat) (op : Op) : Nat → Nat :=
  match op.kind with
  | .conv _ _ => upd t op.res ((op.out.map t).getD op.res)
  | .fetch _ => upd t op.res (t (op.args.headD 0))
  | .alloc _ | .plain _ | .hold _ _ => t

/-- The object of every value. -/
def locs (ops : List Op) : Nat → Nat := ops.foldl locStep id

/-- The contents of the objects after an operation: an operation that writes
puts its result, computed from what is in its operands' objects now, into the
object of its result. -/
def memStep {D : Type} (I : Nat → List D → D) (L : Nat → Nat) (mem : Nat → D)
    (op : Op) : Nat → D :=
  match op.kind with
  | .conv f _ | .alloc f | .plain f =>
    upd mem (L op.res) (I f (op.args.map fun a => mem (L a)))
  | .fetch _ | .hold _ _ => mem

/-- The contents of the objects at the end. -/
def memAll {D : Type} (I : Nat → List D → D) (L : Nat → Nat) (env : Nat → D)
    (ops : List Op) : Nat → D :=
  ops.foldl (memStep I L) env

/-- What each operation finds in the objects of its operands when it runs. -/
def readsFrom {D : Type} (I : Nat → List D → D) (L : Nat → Nat) :
    (Nat → D) → List Op → List (List D)
  | _, [] => []
  | mem, op :: rest =>
    (op.args.map fun a => mem (L a)) :: readsFrom I L (memStep I L mem op) rest

/-- What each operation finds when the backend runs the program. -/
def reads {D : Type} (I : Nat → List D → D) (env : Nat → D) (p : Prog) :
    List (List D) :=
  readsFrom I (locs p.ops) env p.ops

/-- The operands of operations that keep references. -/
def heldArgs (ops : List Op) : List (List Nat) :=
  ops.filterMap fun o => match o.kind with
    | .hold _ _ => some o.args
    | _ => none

/-- What is found at the end behind the references that were kept: in returned
values, in tensors and in memory. -/
def held {D : Type} (I : Nat → List D → D) (env : Nat → D) (p : Prog) :
    List (List D) :=
  (heldArgs p.ops).map fun as =>
    as.map fun a => memAll I (locs p.ops) env p.ops (locs p.ops a)

/-- Every operation finds the values of its operands, and so does, at the end,
whoever holds a reference. -/
def Right {D : Type} (I : Nat → List D → D) (env : Nat → D) (p q : Prog) :
    Prop :=
  reads I env q = p.ops.map (fun o => o.args.map (val I env p.ops)) ∧
    held I env q =
      (heldArgs p.ops).map fun as => as.map (val I env p.ops)

/-! ## Levels of objects -/

/-- The level (moduli consumed) of the objects after an operation. Lattigo's
`Evaluator.Op(op0, op1, opOut)` computes at the smaller of the levels it finds,
so a result written into a given object has consumed at least what that object
had; a new object is at the level of the operation. -/
def lvlStep (l : Nat → Nat) (L : Nat → Nat) (lv : Nat → Nat) (op : Op) :
    Nat → Nat :=
  match op.kind with
  | .conv _ _ =>
    upd lv (L op.res) (max (l op.res) ((op.out.map fun s => lv (L s)).getD 0))
  | .alloc _ | .plain _ => upd lv (L op.res) (l op.res)
  | .fetch _ | .hold _ _ => lv

/-- The level of the object of each operation's result right after it. -/
def lvlsFrom (l : Nat → Nat) (L : Nat → Nat) :
    (Nat → Nat) → List Op → List Nat
  | _, [] => []
  | lv, op :: rest =>
    lvlStep l L lv op (L op.res) :: lvlsFrom l L (lvlStep l L lv op) rest

/-! ## Which programs -/

/-- Values are defined once and before they are used; only `conv` operations
have a storage; one value is fetched at a time. -/
def WellFormed (p : Prog) : Prop :=
  ∀ pre op post, p.ops = pre ++ op :: post →
    p.nargs ≤ op.res ∧ (∀ o ∈ pre, o.res ≠ op.res) ∧
      (∀ v ∈ op.uses, v < p.nargs ∨ ∃ o ∈ pre, o.res = v) ∧
      (op.out ≠ none → ∃ f b, op.kind = .conv f b) ∧
      (∀ c, op.kind = .fetch c → ∃ a, op.args = [a])

/-- A value known at a point. -/
def Known (n : Nat) (pre : List Op) (v : Nat) : Prop :=
  v < n ∨ ∃ o ∈ pre, o.res = v

/-- Some operation keeps a reference to the value. -/
def IsHeld (ops : List Op) (v : Nat) : Prop :=
  ∃ as ∈ heldArgs ops, v ∈ as

/-- In-place operations only overwrite what nobody looks at again: of the values
that refer to the object written and are known before, none is an operand of a
later operation and none is held. -/
def Clean (p : Prog) : Prop :=
  ∀ pre op post, p.ops = pre ++ op :: post → ∀ s, op.out = some s →
    ∀ v, Known p.nargs pre v → locs p.ops v = locs p.ops s →
      (∀ o ∈ post, v ∉ o.args) ∧ ¬ IsHeld p.ops v

/-- The in-place operations of the program write into objects that have not
consumed more levels. -/
def LevelClean (l : Nat → Nat) (p : Prog) : Prop :=
  ∀ pre op post, p.ops = pre ++ op :: post → ∀ s, op.out = some s →
    ∀ v, Known p.nargs pre v → locs p.ops v = locs p.ops s → l v ≤ l op.res

/-- No operation is in place. -/
def NoInPlace (p : Prog) : Prop := ∀ o ∈ p.ops, o.out = none

/-- An operation known to keep references keeps one to the value. -/
def KeptSeen (ops : List Op) (v : Nat) : Prop :=
  ∃ o ∈ ops, (∃ c, o.kind = .hold c true) ∧ v ∈ o.args

/-- Only arguments, and what is kept elsewhere in a way that is seen, are kept
in ways that are not. -/
def HoldsSeen (p : Prog) : Prop :=
  ∀ v, IsHeld p.ops v → KeptSeen p.ops v ∨ locs p.ops v < p.nargs

/-- What is fetched was kept in a way that is seen, or is an argument. -/
def FetchSeen (p : Prog) : Prop :=
  ∀ o ∈ p.ops, ∀ c, o.kind = .fetch c → ∀ a ∈ o.args,
    locs p.ops a < p.nargs ∨ KeptSeen p.ops a

/-- What is loaded from memory was there at the start, is loaded once, and is
held nowhere else. -/
def SoleLoads (p : Prog) : Prop :=
  ∀ o ∈ p.ops, ∀ c, o.kind = .fetch (some c) → ∃ a, a < p.nargs ∧ o.args = [a] ∧
    (∀ o' ∈ p.ops, a ∈ o'.args → o'.res = o.res) ∧ ¬ IsHeld p.ops a ∧
    ¬ IsHeld p.ops o.res ∧ ∀ v, locs p.ops v = a → v = a ∨ v = o.res

/-- What is loaded has not consumed more levels than the results of the
operations on it. -/
def LoadsAbove (l : Nat → Nat) (p : Prog) : Prop :=
  ∀ o ∈ p.ops, ∀ c, o.kind = .fetch (some c) → ∀ op ∈ p.ops, o.res ∈ op.args →
    l o.res ≤ l op.res ∧ ∀ a ∈ o.args, l a ≤ l op.res

/-- References are kept only at the end: the block has no evaluator operation
behind an operation that keeps one. -/
def HoldsLast (p : Prog) : Prop :=
  ∀ pre op post, p.ops = pre ++ op :: post → (∃ c b, op.kind = .hold c b) →
    ∀ o ∈ post, ∀ f b, o.kind ≠ .conv f b

/-- Nothing is fetched. -/
def NoFetch (p : Prog) : Prop := ∀ o ∈ p.ops, ∀ c, o.kind ≠ .fetch c

end Heir.InPlace
