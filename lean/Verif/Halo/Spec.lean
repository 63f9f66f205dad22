import Verif.Halo.Model

/-!
# Specification for C148–C151
-/

namespace Heir.Halo

variable {V : Type}

/-! ### what a program computes, without levels -/

/-- Run a body for each value of the induction variable. -/
def iterV (f : Int → List V → Option (List V)) : List Int → List V → Option (List V)
  | [], st => some st
  | i :: is, st => (f i st).bind fun st => iterV f is st

/-- One operation: management operations do not change the value. -/
def evalOpV (m : Sem V) (env : List V) : Op → Option V
  | .pure fn xs => (xs.mapM fun x => env[x]?).map (m.fn fn)
  | .reduce _ x => env[x]?
  | .reduceMin x => env[x]?
  | .bootstrap x => env[x]?

/-- The program on values without levels. -/
def evalV (m : Sem V) : Prog → List V → Option (List V)
  | .ret ys, env => ys.mapM fun y => env[y]?
  | .op o rest, env => (evalOpV m env o).bind fun v => evalV m rest (env ++ [v])
  | .loop b _ inits body rest, env =>
    (inits.mapM fun x => env[x]?).bind fun st =>
    (iterV (fun i st => evalV m body (env ++ m.iv i :: st)) b.ivs st).bind fun st =>
    evalV m rest (env ++ st)
  | .ite c t e rest, env =>
    (env[c]?).bind fun v =>
    (if m.cond v then evalV m t env else evalV m e env).bind fun st => evalV m rest (env ++ st)

/-! ### results of the analysis -/

/-- The order of the lattice. -/
def LS.le (a b : LS) : Prop := a.join b = b

/-- Pointwise. -/
def leAll : List LS → List LS → Prop := List.Forall₂ LS.le

/-- The state is valid and within the budget. -/
def LS.good (B : Nat) : LS → Prop
  | .invalid => False
  | .int n => n ≤ B
  | _ => True

/-- States of flagged arguments after the bootstrap. -/
def boots (L0 : Nat) : List Bool → List LS → List LS
  | f :: fs, s :: ss => (if f then s.bootstrap L0 else s) :: boots L0 fs ss
  | _, _ => []

/-- States of flagged values after the reduction. -/
def mins : List Bool → List LS → List LS
  | f :: fs, s :: ss => (if f then s.reduceMin else s) :: mins fs ss
  | _, _ => []

/-- The states assigned to a program are a solution of the analysis without invalid states, from
states of the values so far to states of the results.  Iteration arguments get states above
those of the initial and of the yielded values, as the solver leaves them at a fixed point. -/
def Ok (L0 B : Nat) : Prog → List LS → List LS → Prop
  | .ret ys, env, out => (ys.mapM fun y => env[y]?) = some out
  | .op o rest, env, out =>
    ∃ s, absOp L0 B env o = some s ∧ s ≠ .invalid ∧ Ok L0 B rest (env ++ [s]) out
  | .loop _ flags inits body rest, env, out =>
    ∃ ini sts outs, (inits.mapM fun x => env[x]?) = some ini ∧ flags.length = ini.length ∧
      leAll (mins flags ini) sts ∧ (∀ s ∈ sts, s.good B) ∧
      (∀ s ∈ boots L0 flags sts, s.good B) ∧
      Ok L0 B body (env ++ .uninit :: boots L0 flags sts) outs ∧ leAll (mins flags outs) sts ∧
      outs.length = flags.length ∧ Ok L0 B rest (env ++ sts) out
  | .ite c t e rest, env, out =>
    ∃ a b, c < env.length ∧ Ok L0 B t env a ∧ Ok L0 B e env b ∧ a.length = b.length ∧
      Ok L0 B rest (env ++ List.zipWith LS.join a b) out

/-- A level is as the analysis says: `int v` means that at most `v` levels are used up. -/
def Rel (top : Nat) : LS → Option Nat → Prop
  | .invalid, _ => False
  | _, none => True
  | .uninit, some _ => False
  | .int v, some l => top ≤ l + v
  | .max, some _ => True

/-- Environments as the analysis says. -/
def RelAll (top : Nat) (ss : List LS) (vs : List (CV V)) : Prop :=
  List.Forall₂ (fun s v => Rel top s v.2) ss vs

/-- The level that `annotateLevel` (`LevelAnalysis.cpp:275-315`) writes down for a state. -/
def annotated (top : Nat) : LS → Option Nat
  | .uninit => none
  | .int v => some (top - v)
  | .max => some 0
  | .invalid => none

/-- No loops and no conditionals. -/
def Prog.Straight : Prog → Prop
  | .ret _ => True
  | .op _ rest => rest.Straight
  | _ => False

/-- A level is exactly what the analysis says. -/
def Exact (top : Nat) : LS → Option Nat → Prop
  | .uninit, none => True
  | .int v, some l => l + v = top
  | .max, some l => l = 0
  | _, _ => False

/-- Environments of exact levels. -/
def ExactAll (top : Nat) (ss : List LS) (vs : List (CV V)) : Prop :=
  List.Forall₂ (fun s v => Exact top s v.2) ss vs

/-- Reductions by at least one level. -/
def Op.Pos : Op → Prop
  | .reduce k _ => 0 < k
  | _ => True

/-- All reductions of a program are by at least one level. -/
def Prog.Pos : Prog → Prop
  | .ret _ => True
  | .op o rest => o.Pos ∧ rest.Pos
  | .loop _ _ _ body rest => body.Pos ∧ rest.Pos
  | .ite _ t e rest => t.Pos ∧ e.Pos ∧ rest.Pos

/-- States of the arguments after the bootstrap: secret ones at `L0`. -/
def starts (L0 : Nat) (flags : List Bool) : List LS :=
  flags.map fun f => if f then .int L0 else .uninit

/-- States of the arguments between iterations. -/
def between (flags : List Bool) : List LS := flags.map fun f => if f then .max else .uninit

/-- The levels at the ends of the body of the secret arguments. -/
def secretEnds : List Bool → List LS → List LS
  | true :: fs, s :: ss => s :: secretEnds fs ss
  | false :: fs, _ :: ss => secretEnds fs ss
  | _, _ => []

end Heir.Halo
