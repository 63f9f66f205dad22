import Mathlib.Logic.Relation

/-! # What a program needs of its crypto context -/

namespace Heir.Config

/-- Operations of the `openfhe` dialect. -/
inductive Kind
  | mul | mulNoRelin | mulPlain | square | squareInPlace | relin | relinInPlace
  | chebyshev | bootstrap | rot (shift : Int) | other
deriving DecidableEq, Repr

/-- What a crypto context offers: keys, features and the preparation of bootstrapping. -/
inductive Resource
  | mulKey | rotKey (shift : Int) | bootKey | bootSetup | advancedShe | fhe
deriving DecidableEq, Repr

/-- What an operation of OpenFHE needs: products, squares and series are relinearized. -/
def needs : Kind → List Resource
  | .mul | .relin | .relinInPlace | .square | .squareInPlace => [.mulKey]
  | .mulNoRelin | .mulPlain | .other => []
  | .chebyshev => [.mulKey, .advancedShe]
  | .bootstrap => [.mulKey, .fhe, .bootSetup, .bootKey]
  | .rot s => [.rotKey s]

/-- A function: its operations and the functions it calls. -/
structure Func where
  ops : List Kind
  calls : List Nat
deriving Repr

/-- A module: its functions by number. -/
abbrev Module := List Func

/-- The functions that one calls. -/
def Module.calls (m : Module) (f : Nat) : List Nat := (m[f]?.map Func.calls).getD []

/-- The operations of a function. -/
def Module.ops (m : Module) (f : Nat) : List Kind := (m[f]?.map Func.ops).getD []

/-- A function that can be executed when another one is. -/
def Reaches (calls : Nat → List Nat) : Nat → Nat → Prop := Relation.ReflTransGen fun f g => g ∈ calls f

/-- The levels that an operation uses up; `c`: those of a series. -/
def consumes (c : Nat) : Kind → Nat
  | .mul | .mulNoRelin | .mulPlain | .square | .squareInPlace => 1
  | .chebyshev => c
  | _ => 0

/-- The levels that are used up along the operations from an input to a value; bootstrapping starts
again. -/
def trueDepth (c : Nat) (path : List Kind) : Nat :=
  path.foldl (fun d k => if k = .bootstrap then 0 else d + consumes c k) 0

/-! ### Noise -/

/-- Operations on ciphertexts, with the numbers of their operands. -/
inductive Op
  | input
  | plain
  | add (a b : Nat)
  | mul (a b : Nat)
  | switch (a : Nat)
  | modReduce (a : Nat)
  | other (as : List Nat)
deriving DecidableEq, Repr

/-- The noise of a value; plaintexts have none. -/
def noise (ns : List (Option Nat)) (a : Nat) : Option Nat := (ns[a]?).getD none

/-- The largest noise of the result of an operation.  `V`: of a fresh ciphertext and of a product, `K`:
what a key switch adds, `R`: of a reduced ciphertext. -/
def limit (V K R : Nat) (ns : List (Option Nat)) : Op → Option Nat
  | .input => some V
  | .plain => none
  | .add a b =>
    match noise ns a, noise ns b with
    | none, none => none
    | x, y => some (x.getD 0 + y.getD 0)
  | .mul a b => if noise ns a = none ∧ noise ns b = none then none else some V
  | .switch a => (noise ns a).map (· + K)
  | .modReduce _ => some R
  | .other as => (as.filterMap (noise ns)).max?

/-- One noise is below another. -/
def Below : Option Nat → Option Nat → Prop
  | none, none => True
  | some x, some y => x ≤ y
  | _, _ => False

/-- The noises that the values of a program can have. -/
def Runs (V K R : Nat) (prog : List Op) (ns : List (Option Nat)) : Prop :=
  ns.length = prog.length ∧
  ∀ i op, prog[i]? = some op → Below (noise ns i) (limit V K R (ns.take i) op)

end Heir.Config
