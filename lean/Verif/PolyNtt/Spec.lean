import Verif.PolyNtt.Model

/-!
# Specification for C146–C147

What the two programs compute.  The types of polynomials are abstracted: `C` are polynomials (and
tensors of them) as arrays of coefficients, `E` as arrays of evaluations, `P` all other values.
-/

namespace Heir.PolyNtt

variable {P C E : Type}

/-- What the operations compute. -/
structure Sem (P C E : Type) where
  ntt : C → E
  intt : E → C
  plain : Nat → List P → P
  coeffC : Nat → List (P ⊕ C) → C
  coeffP : Nat → List (P ⊕ C) → P
  mulC : C → C → C
  mulE : E → E → E
  eithC : Nat → List (P ⊕ C) → C
  eithE : Nat → List (P ⊕ E) → E
  /-- the polynomial a constant denotes: its attribute in coefficient form -/
  const : Nat → C
  /-- the attribute of a constant in evaluation form: the same numbers -/
  constE : Nat → E

/-- A value of the source, in which all polynomials are in coefficient form. -/
abbrev V (P C : Type) := P ⊕ C

def asP : V P C → Option P
  | .inl a => some a
  | .inr _ => none

def asC : V P C → Option C
  | .inl _ => none
  | .inr c => some c

/-- One operation of the source on its operands. -/
def srcIns (m : Sem P C E) (ins : Ins) (xs : List (V P C)) : Option (V P C) :=
  match ins.cls with
  | .plain => (xs.mapM asP).map fun ps => .inl (m.plain ins.fn ps)
  | .coeff => some (if ins.poly then .inr (m.coeffC ins.fn xs) else .inl (m.coeffP ins.fn xs))
  | .eval => (xs.mapM asC).bind fun cs => match cs with
      | [a, b] => some (.inr (m.mulC a b))
      | _ => none
  | .either => some (.inr (m.eithC ins.fn xs))
  | .const => some (.inr (m.const ins.fn))
  | .unknown => none

/-- The operations of the source, from the values so far. -/
def srcBody (m : Sem P C E) : List Ins → List (V P C) → Option (List (V P C))
  | [], vs => some vs
  | ins :: rest, vs =>
    (ins.ops.mapM fun x => vs[x]?).bind fun xs =>
      (srcIns m ins xs).bind fun v => srcBody m rest (vs ++ [v])

/-- The source: the returned values. -/
def Prog.run (m : Sem P C E) (p : Prog) (args : List (V P C)) : Option (List (V P C)) :=
  (srcBody m p.body args).bind fun vs => p.rets.mapM fun x => vs[x]?

/-- A value of the rewritten function. -/
inductive W (P C E : Type)
  | p (a : P)
  | c (a : C)
  | e (a : E)

def W.toC : W P C E → Option (P ⊕ C)
  | .p a => some (.inl a)
  | .c a => some (.inr a)
  | .e _ => none

def W.toE : W P C E → Option (P ⊕ E)
  | .p a => some (.inl a)
  | .e a => some (.inr a)
  | .c _ => none

def W.onlyP : W P C E → Option P
  | .p a => some a
  | _ => none

def W.onlyE : W P C E → Option E
  | .e a => some a
  | _ => none

/-- Operands by number, each seen as the operation demands. -/
def fetch {β : Type} (ws : List (W P C E)) (f : W P C E → Option β) (ops : List Nat) :
    Option (List β) :=
  ops.mapM fun x => (ws[x]?).bind f

/-- One operation of the rewritten function; `none` if an operand has the wrong form. -/
def tgtIns (m : Sem P C E) (ws : List (W P C E)) : TIns → Option (W P C E)
  | .plain fn ops => (fetch ws W.onlyP ops).map fun xs => .p (m.plain fn xs)
  | .coeff fn poly ops => (fetch ws W.toC ops).map fun xs =>
      if poly then .c (m.coeffC fn xs) else .p (m.coeffP fn xs)
  | .mul ops => (fetch ws W.onlyE ops).bind fun xs => match xs with
      | [a, b] => some (.e (m.mulE a b))
      | _ => none
  | .eithC fn ops => (fetch ws W.toC ops).map fun xs => .c (m.eithC fn xs)
  | .eithE fn ops => (fetch ws W.toE ops).map fun xs => .e (m.eithE fn xs)
  | .constC fn => some (.c (m.const fn))
  | .constE fn => some (.e (m.constE fn))
  | .ntt _ x => (ws[x]?).bind fun w => match w with
      | .c a => some (.e (m.ntt a))
      | _ => none
  | .intt _ x => (ws[x]?).bind fun w => match w with
      | .e a => some (.c (m.intt a))
      | _ => none

/-- The operations of the rewritten function. -/
def tgtBody (m : Sem P C E) : List TIns → List (W P C E) → Option (List (W P C E))
  | [], ws => some ws
  | t :: rest, ws => (tgtIns m ws t).bind fun w => tgtBody m rest (ws ++ [w])

/-- The rewritten function. -/
def TProg.run (m : Sem P C E) (t : TProg) (args : List (W P C E)) : Option (List (W P C E)) :=
  (tgtBody m t.body args).bind fun ws => t.rets.mapM fun x => ws[x]?

/-- A value of the source in a form. -/
def inForm (m : Sem P C E) (f : Form) : V P C → W P C E
  | .inl a => .p a
  | .inr c => match f with
    | .coeff => .c c
    | .eval => .e (m.ntt c)

/-- The transform is inverted by the inverse transform and turns products into products. -/
structure Sem.Right (m : Sem P C E) : Prop where
  left : ∀ c, m.intt (m.ntt c) = c
  mul : ∀ a b, m.ntt (m.mulC a b) = m.mulE (m.ntt a) (m.ntt b)

/-- Operands with polynomials in evaluation form. -/
def evals (m : Sem P C E) (xs : List (P ⊕ C)) : List (P ⊕ E) := xs.map (Sum.map id m.ntt)

/-- The operation can be done on evaluations. -/
def Sem.Commutes (m : Sem P C E) (fn : Nat) : Prop :=
  ∀ xs, m.ntt (m.eithC fn xs) = m.eithE fn (evals m xs)

/-! ### well-formed functions -/

/-- The types of one operation. -/
def insWf (ty : List Bool) (i : Nat) (ins : Ins) : Bool :=
  (ins.ops.all fun x => decide (x < i)) &&
  match ins.cls with
  | .plain => !ins.poly && ins.ops.all fun x => !isPoly ty x
  | .coeff => true
  | .eval => ins.poly && ins.ops.length == 2 && ins.ops.all (isPoly ty)
  | .either => ins.poly
  | .const => ins.poly && ins.ops.isEmpty
  | .unknown => false

def bodyWf (ty : List Bool) : Nat → List Ins → Bool
  | _, [] => true
  | i, ins :: rest => insWf ty i ins && bodyWf ty (i + 1) rest

/-- Operands precede their uses and have the types that the operations demand. -/
def Prog.Wf (p : Prog) : Bool :=
  bodyWf p.types p.args.length p.body && p.rets.all fun x => decide (x < p.types.length)

/-- No dead code: the polynomial result of every operation is an operand or is returned. -/
def Prog.Live (p : Prog) : Prop :=
  ∀ j, p.args.length ≤ j → isPoly p.types j = true →
    j ∈ p.rets ∨ ∃ (k : Nat) (ins : Ins), p.body[k]? = some ins ∧ j ∈ ins.ops

/-- Arguments have their types. -/
def typed (ty : List Bool) (vs : List (V P C)) : Prop :=
  vs.length = ty.length ∧ ∀ i (h : i < vs.length), (asC vs[i]).isSome = ty.getD i false

/-! ### the number of transforms -/

/-- The weight of a transform. -/
def TIns.weight : TIns → Nat
  | .ntt w _ => w
  | .intt w _ => w
  | _ => 0

/-- The number of transforms, tensors and residue systems counted with their elements. -/
def transforms (ts : List TIns) : Nat := (ts.map TIns.weight).sum

/-- A way to place transforms, told without the solver: the form each value is first made in
and the forms in which it is available. -/
structure Placement where
  made : Nat → Form
  has : Nat → Form → Bool

/-- What an operation demands of a placement. -/
def placedIns (ty : List Bool) (q : Placement) (i : Nat) (ins : Ins) : Prop :=
  match ins.cls with
  | .plain => True
  | .coeff => (ins.poly = true → q.made i = .coeff) ∧
      ∀ x ∈ ins.ops, isPoly ty x = true → q.has x .coeff = true
  | .eval => q.made i = .eval ∧ ∀ x ∈ ins.ops, isPoly ty x = true → q.has x .eval = true
  | .either => ∀ x ∈ ins.ops, isPoly ty x = true → q.has x (q.made i) = true
  | .const => True
  | .unknown => False

/-- Every operation finds its operands in the form it works in. -/
def Placement.Valid (p : Prog) (q : Placement) : Prop :=
  (∀ i, q.has i (q.made i) = true) ∧
  ∀ (j : Nat) (ins : Ins), p.body[j]? = some ins → placedIns p.types q (p.args.length + j) ins

/-- Is a value a constant of the function? -/
def constAt (p : Prog) (i : Nat) : Bool :=
  decide (p.args.length ≤ i) &&
    decide ((p.body[i - p.args.length]?).map Ins.cls = some Cls.const)

/-- The transforms a placement needs: one for each value that is available in both forms.
Constants can be written in both. -/
def Placement.transforms (p : Prog) (q : Placement) : Nat :=
  ((List.range p.types.length).map fun i =>
    if isPoly p.types i && !constAt p i && q.has i .coeff && q.has i .eval
    then weight p i else 0).sum

/-- How many constants a placement writes, those in both forms counted twice. -/
def Placement.consts (p : Prog) (q : Placement) : Nat :=
  ((List.range p.types.length).map fun i =>
    if constAt p i then (q.has i .coeff).toNat + (q.has i .eval).toNat else 0).sum

end Heir.PolyNtt
