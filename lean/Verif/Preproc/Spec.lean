import Verif.Preproc.Model

/-!
# What the split functions are to compute
-/

namespace Heir.Preproc

variable {V : Type}

/-- Meaning of a function body that stores and loads nothing: the values of the
names afterwards. -/
def eval (I : Interp V) : Code → (Nat → V) → Nat → V
  | .done, e => e
  | .op _ res f args rest, e => eval I rest (setAll e res (I.fn f (args.map e)))
  | .enc _ _ res f _ shape args rest, e => eval I rest (setAll e [res] [I.enc f (isOne shape) (args.map e)])
  | .ite _ res c t ty el ey rest, e =>
    eval I rest (if I.truth (e c) then setAll (eval I t e) res (ty.map (eval I t e))
      else setAll (eval I el e) res (ey.map (eval I el e)))
  | .loop _ res iv l inits iters body ys rest, e =>
    let e1 := l.ivals.foldl (fun e k =>
      setAll (eval I body (setAll e [iv] [I.ofInt k])) iters
        (ys.map (eval I body (setAll e [iv] [I.ofInt k])))) (setAll e iters (inits.map e))
    eval I rest (setAll e1 res (iters.map e1))
  | .store _ _ _ _ _ rest, e => eval I rest e
  | .load _ _ _ _ _ rest, e => eval I rest e

/-- Indices survive being made into values, and a tensor of one plaintext is
its element packed again. -/
structure Interp.Lawful (I : Interp V) : Prop where
  int : ∀ k, I.toInt (I.ofInt k) = k
  pack : ∀ f xs, I.pack (I.unpack (I.enc f true xs)) = I.enc f true xs

/-- A program before the pass: no stores and loads. -/
def Source : Code → Prop
  | .done => True
  | .op _ _ _ _ rest => Source rest
  | .enc _ _ _ _ _ _ _ rest => Source rest
  | .ite _ _ _ t _ e _ rest => Source t ∧ Source e ∧ Source rest
  | .loop _ _ _ _ _ _ body _ rest => Source body ∧ Source rest
  | .store _ _ _ _ _ _ => False
  | .load _ _ _ _ _ _ => False

/-- Names that the operations define. -/
def defs : Code → List Nat
  | .done => []
  | .op _ res _ _ rest => res ++ defs rest
  | .enc _ _ res _ _ _ _ rest => res :: defs rest
  | .ite _ res _ t _ e _ rest => defs t ++ defs e ++ res ++ defs rest
  | .loop _ res iv _ _ iters body _ rest => iv :: iters ++ defs body ++ res ++ defs rest
  | .store _ _ _ _ _ rest => defs rest
  | .load _ _ res _ _ rest => res :: defs rest

/-- Types fit: values that go from one list to the other are both ciphertexts
or both not.  No operation makes a cleartext or a plaintext of a ciphertext,
and conditions are not ciphertexts. -/
def Typed (ct : Nat → Bool) : Code → Prop
  | .done => True
  | .op _ res _ args rest => ((∃ r ∈ res, ct r = false) → ∀ a ∈ args, ct a = false) ∧ Typed ct rest
  | .enc _ _ res _ _ _ args rest => ct res = false ∧ (∀ a ∈ args, ct a = false) ∧ Typed ct rest
  | .ite _ res c t ty e ey rest =>
    ct c = false ∧ List.Forall₂ (fun a b => ct a = ct b) res ty ∧ List.Forall₂ (fun a b => ct a = ct b) res ey ∧
      Typed ct t ∧ Typed ct e ∧ Typed ct rest
  | .loop _ res iv _ inits iters body ys rest =>
    ct iv = false ∧ List.Forall₂ (fun a b => ct a = ct b) iters inits ∧
      List.Forall₂ (fun a b => ct a = ct b) iters ys ∧ List.Forall₂ (fun a b => ct a = ct b) res iters ∧
      Typed ct body ∧ Typed ct rest
  | .store _ _ _ _ _ rest => Typed ct rest
  | .load _ _ _ _ _ rest => Typed ct rest

/-- Each name is defined once. -/
def Ssa (f : Func) : Prop := (f.args ++ defs f.code).Nodup

/-- Where encoders are: site, element type and the loops around them. -/
def encs (ls : List Loop) : Code → List (Nat × Nat × List Loop)
  | .done => []
  | .op _ _ _ _ rest => encs ls rest
  | .enc _ site _ _ ty _ _ rest => (site, ty, ls) :: encs ls rest
  | .ite _ _ _ t _ e _ rest => encs ls t ++ encs ls e ++ encs ls rest
  | .loop _ _ _ l _ _ body _ rest => encs (ls ++ [l]) body ++ encs ls rest
  | .store _ _ _ _ _ rest => encs ls rest
  | .load _ _ _ _ _ rest => encs ls rest

/-- The values of induction variables that a nest of loops goes through. -/
def InNest : List Loop → List Int → Prop := List.Forall₂ fun l i => i ∈ l.ivals

/-- Stores and loads of a site in one iteration. -/
def IsRef (c : Code) (r : Ref) : Prop := (r.site, r.ty, r.loops) ∈ encs [] c ∧ InNest r.loops r.idx

/-- What a module becomes: a function that is not split returns what it did,
and the two functions made from one do together, with the places that `key`
gives, all accesses being to places that exist and were stored to. -/
def Returns {K : Type} [DecidableEq K] (I : Interp V) (key : Ref → Option K) (f : Func) :
    Func × Option Split → Prop
  | (g, none) => ∀ vals, g.rets.map (eval I g.code vals) = f.rets.map (eval I f.code vals)
  | (g, some s) => ∀ vals dummy, runSplit I key g s vals dummy = (f.rets.map (eval I f.code vals), true)

/-- Programs to which the claims apply. -/
def Good (ct : Nat → Bool) (f : Func) : Prop := Source f.code ∧ Typed ct f.code ∧ Ssa f

/-- Operations needed to encode: the encoders, what is around a needed
operation and what defines an operand of one. -/
inductive Needed (c : Code) : Nat → Prop
  | enc {r : Row} (hr : r ∈ rows none c) (h : r.isEnc = true) : Needed c r.id
  | around {r : Row} (hr : r ∈ rows none c) (h : Needed c r.id) {q : Nat} (hq : r.parent = some q) : Needed c q
  | operand {r d : Row} (hr : r ∈ rows none c) (h : Needed c r.id) {v : Nat} (hv : v ∈ r.uses)
      (hd : d ∈ rows none c) (hvd : v ∈ d.defs) : Needed c d.id

/-- Encoders of the functions of a module that may be split. -/
def encoders (m : List Func) : List (Nat × Nat × List Loop) :=
  (m.filter (!·.helper)).flatMap fun f => encs [] f.code

/-- Iterations of a nest. -/
def iterations (ls : List Loop) : Nat := (ls.map Loop.trip).prod

/-- Plaintexts of a type that are stored in all. -/
def plaintexts (m : List Func) (t : Nat) : Nat :=
  (((encoders m).filter (·.2.1 = t)).map fun x => iterations x.2.2).sum

end Heir.Preproc
