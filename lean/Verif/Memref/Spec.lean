import Verif.Memref.Model

/-!
# Execution on a memory

A memref is a buffer with an offset and strides.  What operations that are not modelled compute,
and what they write to the buffers of their operands, is arbitrary.
-/

namespace Heir.Memref

open Heir.Lut (flattenIndex)

structure Desc where
  buf : Nat
  offset : Int
  strides : List Int

/-- The meaning of the memrefs, of scalars used as indices and of the other operations. -/
structure World (V : Type) where
  desc : Nat → Desc
  toInt : V → Int
  sem : Nat → List V → List (Int → V) → List V × List (Int → V)

structure State (V : Type) where
  env : Nat → V
  mem : Nat → Int → V

variable {V : Type}

def State.set (s : State V) (r : Nat) (v : V) : State V :=
  ⟨fun x => if x = r then v else s.env x, s.mem⟩

def setL (s : State V) : List Nat → List V → State V
  | r :: rs, v :: vs => setL (s.set r v) rs vs
  | _, _ => s

def State.write (s : State V) (b : Nat) (k : Int) (v : V) : State V :=
  ⟨s.env, fun c j => if c = b ∧ j = k then v else s.mem c j⟩

def State.fill (s : State V) (b : Nat) (f : Int → V) : State V :=
  ⟨s.env, fun c j => if c = b then f j else s.mem c j⟩

def fillL (s : State V) : List Nat → List (Int → V) → State V
  | b :: bs, f :: fs => fillL (s.fill b f) bs fs
  | _, _ => s

def idxVal (W : World V) (s : State V) : Idx → Int
  | .inl i => i
  | .inr x => W.toInt (s.env x)

/-- The address of an access. -/
def addr (W : World V) (s : State V) (m : Nat) (idx : List Idx) : Option Int :=
  flattenIndex (W.desc m).offset (idx.map (idxVal W s)) (W.desc m).strides

def step (W : World V) (s : State V) : Op → Option (State V)
  | .alloc _ => some s
  | .view _ _ => some s
  | .global _ => some s
  | .store v m idx => (addr W s m idx).map fun k => s.write (W.desc m).buf k (s.env v)
  | .load r m idx => (addr W s m idx).map fun k => s.set r (s.mem (W.desc m).buf k)
  | .other f rs _ args mems =>
    let bufs := mems.map fun m => (W.desc m).buf
    let out := W.sem f (args.map s.env) (bufs.map s.mem)
    some (setL (fillL s bufs out.2) rs out.1)

def run (W : World V) : List Op → State V → Option (State V)
  | [], s => some s
  | o :: os, s => (step W s o).bind (run W os)

/-! ## Valid programs -/

def idxUses : List Idx → List Nat := List.filterMap fun
  | .inl _ => none
  | .inr x => some x

def Op.uses : Op → List Nat
  | .store v _ idx => v :: idxUses idx
  | .load _ _ idx => idxUses idx
  | .other _ _ _ args _ => args
  | _ => []

def Op.defs : Op → List Nat
  | .load r _ _ => [r]
  | .other _ rs _ _ _ => rs
  | _ => []

def Op.muses : Op → List Nat
  | .view _ s => [s]
  | .store _ m _ => [m]
  | .load _ m _ => [m]
  | .other _ _ _ _ mems => mems
  | _ => []

def Op.mdefs : Op → List Nat
  | .alloc m => [m]
  | .view m _ => [m]
  | .global m => [m]
  | .other _ _ ms _ _ => ms
  | _ => []

/-- Single static assignment, from the visible scalars and memrefs. -/
def wf : List Nat → List Nat → List Op → Prop
  | _, _, [] => True
  | sc, mc, o :: os =>
    (∀ x ∈ o.uses, x ∈ sc) ∧ (∀ x ∈ o.defs, x ∉ sc) ∧ (∀ x ∈ o.muses, x ∈ mc) ∧
    (∀ x ∈ o.mdefs, x ∉ mc) ∧ wf (o.defs ++ sc) (o.mdefs ++ mc) os

def scope (sc : List Nat) (os : List Op) : List Nat := os.foldl (fun sc o => o.defs ++ sc) sc

def mscope (mc : List Nat) (os : List Op) : List Nat := os.foldl (fun mc o => o.mdefs ++ mc) mc

def Prog.wf (p : Prog) : Prop :=
  Memref.wf p.args p.margs p.body ∧ (∀ x ∈ p.rets, x ∈ scope p.args p.body) ∧
    ∀ x ∈ p.mrets, x ∈ mscope p.margs p.body

/-- Memory is laid out as MLIR demands: a view has the buffer of its source; arguments and
allocations have buffers of their own. -/
structure Laid (W : World V) (p : Prog) : Prop where
  view : ∀ m s, .view m s ∈ p.body → (W.desc m).buf = (W.desc s).buf
  apart : ∀ s t, (s ∈ p.margs ∨ .alloc s ∈ p.body) → (t ∈ p.margs ∨ .alloc t ∈ p.body) →
    (W.desc s).buf = (W.desc t).buf → s = t

/-- The type of the memref states its layout. -/
def Static (T : Types) (W : World V) (m : Nat) : Prop :=
  T.lay m = ⟨(W.desc m).strides.map some, some (W.desc m).offset⟩

/-- All accessed memrefs have static types; arguments have one with innermost stride 1. -/
structure AllStatic (T : Types) (W : World V) (p : Prog) : Prop where
  store : ∀ v m idx, .store v m idx ∈ p.body → Static T W m
  load : ∀ r m idx, .load r m idx ∈ p.body → Static T W m
  arg : ∀ m ∈ p.margs, Static T W m ∧ ∃ l, (W.desc m).strides = l ++ [1]

/-- Only `affine.store` writes to buffers that `affine.load` reads. -/
def Quiet (W : World V) (p : Prog) : Prop :=
  ∀ f rs ms args mems, .other f rs ms args mems ∈ p.body →
    (∀ vs fs, (W.sem f vs fs).2 = fs) ∨
    ∀ m ∈ mems, ∀ r l idx, .load r l idx ∈ p.body → (W.desc m).buf ≠ (W.desc l).buf

/-- A program the forwarding is meant for; the pass has recorded all its stores. -/
structure Good (T : Types) (W : World V) (p : Prog) : Prop where
  wf : p.wf
  laid : Laid W p
  static : AllStatic T W p
  quiet : Quiet W p
  stores : storeMap T p.body.reverse = .ok ()

/-- Forwarding of any loads, in any order. -/
inductive Forwards (T : Types) : Prog → Prog → Prop
  | refl (p : Prog) : Forwards T p p
  | step {p q r : Prog} {i : Nat} : forward T p i = .ok q → Forwards T q r → Forwards T p r

/-- The buffer of `a` is not that of another memref, views of `a` and views of these apart. -/
structure Own (W : World V) (p : Prog) (a : Nat) : Prop where
  arg : ∀ m ∈ p.margs, (W.desc m).buf ≠ (W.desc a).buf
  op : ∀ o ∈ p.body, ∀ m ∈ o.mdefs, (∀ s, o ≠ .view m s) → m ≠ a →
    (W.desc m).buf ≠ (W.desc a).buf
  view : ∀ m s, .view m s ∈ p.body → (W.desc m).buf = (W.desc s).buf

/-- What a caller sees: the returned scalars and the memory, up to the buffers `hidden`. -/
def SameResult (W : World V) (p q : Prog) (hidden : Nat → Prop) : Prop :=
  ∀ s s1, run W p.body s = some s1 → ∃ s2, run W q.body s = some s2 ∧
    q.rets.map s2.env = p.rets.map s1.env ∧ ∀ b, ¬ hidden b → s2.mem b = s1.mem b

end Heir.Memref
