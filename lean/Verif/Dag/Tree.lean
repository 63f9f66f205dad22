import Verif.Dag.Caching

/-!
# Expression trees

The kernels of `lib/Kernel/KernelImplementation.h` build DAGs by nesting factory calls; the tree
of such calls is an `Expr`.  `Represents D n e` says that node `n` of a heap unfolds to `e`
(sharing is a property of the heap); `Represents.den_eq` and `C30_evalKernel_tree` carry values of trees to
the caching evaluator.  Only the arities used by the kernels are present.
-/

namespace Heir.Dag

variable {V O : Type}

inductive Expr (O : Type) where
  | op0 (o : O)
  | op1 (o : O) (a : Expr O)
  | op2 (o : O) (a b : Expr O)
  | op3 (o : O) (a b c : Expr O)
  | var (x : Nat)
  | ifElse (c t e : Expr O)
  /-- induction variable, iteration argument, initial value, body, bounds and step -/
  | loop1 (iv a : Nat) (init body : Expr O) (lower upper step : Int)
  | loop2 (iv a b : Nat) (init1 init2 body : Expr O) (lower upper step : Int)
  | yield1 (a : Expr O)
  | yield2 (a b : Expr O)
  | resultAt (e : Expr O) (i : Nat)

/-- `isYield` on trees. -/
def Expr.isYield : Expr O → Bool
  | .yield1 _ => true
  | .yield2 _ _ => true
  | _ => false

/-- The structural semantics on trees. -/
def Expr.eval (S : Sem V O) : Env V → Expr O → Option (List V)
  | _, .op0 o => (S.pure o []).map fun v => [v]
  | env, .op1 o a => ((a.eval S env).bind List.head?).bind fun x =>
      (S.pure o [x]).map fun v => [v]
  | env, .op2 o a b => ((a.eval S env).bind List.head?).bind fun x =>
      ((b.eval S env).bind List.head?).bind fun y => (S.pure o [x, y]).map fun v => [v]
  | env, .op3 o a b c => ((a.eval S env).bind List.head?).bind fun x =>
      ((b.eval S env).bind List.head?).bind fun y =>
        ((c.eval S env).bind List.head?).bind fun z => (S.pure o [x, y, z]).map fun v => [v]
  | env, .var x => (env x).map fun v => [v]
  | env, .ifElse c t e => ((c.eval S env).bind List.head?).bind fun v =>
      (S.truth v).bind fun b => if b then t.eval S env else e.eval S env
  | env, .loop1 iv a init body lower upper step =>
      ((init.eval S env).bind only).bind fun x =>
        (tripList lower upper step).bind fun is =>
          denLoop (fun i vals => if [a].length = vals.length ∧ body.isYield = true then
            (body.eval S (setVars (setVar env iv (S.ofInt i)) [a] vals)).bind fun r =>
              if r.length = vals.length then some r else none
            else none) is [x]
  | env, .loop2 iv a b init1 init2 body lower upper step =>
      ((init1.eval S env).bind only).bind fun x => ((init2.eval S env).bind only).bind fun y =>
        (tripList lower upper step).bind fun is =>
          denLoop (fun i vals => if [a, b].length = vals.length ∧ body.isYield = true then
            (body.eval S (setVars (setVar env iv (S.ofInt i)) [a, b] vals)).bind fun r =>
              if r.length = vals.length then some r else none
            else none) is [x, y]
  | env, .yield1 a => ((a.eval S env).bind only).bind fun x => some [x]
  | env, .yield2 a b => ((a.eval S env).bind only).bind fun x =>
      ((b.eval S env).bind only).bind fun y => some [x, y]
  | env, .resultAt e i => (e.eval S env).bind fun r => (r[i]?).map fun v => [v]

/-- Node `n` unfolds to the tree. -/
def Represents (D : Heap O) : Nat → Expr O → Prop
  | n, .op0 o => D n = .pure o []
  | n, .op1 o a => ∃ c, D n = .pure o [c] ∧ Represents D c a
  | n, .op2 o a b => ∃ c d, D n = .pure o [c, d] ∧ Represents D c a ∧ Represents D d b
  | n, .op3 o a b c => ∃ i j k, D n = .pure o [i, j, k] ∧ Represents D i a ∧ Represents D j b ∧
      Represents D k c
  | n, .var x => n = x ∧ D n = .var
  | n, .ifElse c t e => ∃ i j k, D n = .ifElse i j k ∧ Represents D i c ∧ Represents D j t ∧
      Represents D k e
  | n, .loop1 iv a init body lower upper step => ∃ i b,
      D n = .loop ⟨iv, [i], [a], b, lower, upper, step⟩ ∧ Represents D i init ∧ Represents D b body
  | n, .loop2 iv a b init1 init2 body lower upper step => ∃ i j k,
      D n = .loop ⟨iv, [i, j], [a, b], k, lower, upper, step⟩ ∧ Represents D i init1 ∧
      Represents D j init2 ∧ Represents D k body
  | n, .yield1 a => ∃ c, D n = .yield [c] ∧ Represents D c a
  | n, .yield2 a b => ∃ c d, D n = .yield [c, d] ∧ Represents D c a ∧ Represents D d b
  | n, .resultAt e i => ∃ c, D n = .resultAt c i ∧ Represents D c e

theorem Represents.isYield_eq {D : Heap O} {n : Nat} {e : Expr O} (h : Represents D n e) :
    isYield (D n) = e.isYield := by
  cases e <;> simp only [Represents] at h
  case op0 => rw [h]; rfl
  case op1 => obtain ⟨_, h, _⟩ := h; rw [h]; rfl
  case op2 => obtain ⟨_, _, h, _⟩ := h; rw [h]; rfl
  case op3 => obtain ⟨_, _, _, h, _⟩ := h; rw [h]; rfl
  case var => rw [h.2]; rfl
  case ifElse => obtain ⟨_, _, _, h, _⟩ := h; rw [h]; rfl
  case loop1 => obtain ⟨_, _, h, _⟩ := h; rw [h]; rfl
  case loop2 => obtain ⟨_, _, _, h, _⟩ := h; rw [h]; rfl
  case yield1 => obtain ⟨_, h, _⟩ := h; rw [h]; rfl
  case yield2 => obtain ⟨_, _, h, _⟩ := h; rw [h]; rfl
  case resultAt => obtain ⟨_, h, _⟩ := h; rw [h]; rfl

/-- The value of a node is the value of the tree it unfolds to. -/
theorem Represents.den_eq (S : Sem V O) {D : Heap O} (hD : Ordered D) (e : Expr O) :
    ∀ (n : Nat) (env : Env V), Represents D n e → den S D env n = e.eval S env := by
  have ch : ∀ {n c : Nat} (env : Env V), c ∈ clearChildren (D n) →
      denK S D n env c = den S D env c := fun env h => denK_eq_den S hD env (hD _ _ h)
  induction e with
  | op0 o =>
    intro n env h
    simp only [Represents] at h
    rw [den, denK, h]; rfl
  | op1 o a iha =>
    rintro n env ⟨c, h, ha⟩
    rw [den, denK, h]
    simp only [allSome, Expr.eval]
    rw [ch env (by simp [h, clearChildren]), iha c env ha]
    cases (a.eval S env).bind List.head? <;> rfl
  | op2 o a b iha ihb =>
    rintro n env ⟨c, d, h, ha, hb⟩
    rw [den, denK, h]
    simp only [allSome, Expr.eval]
    rw [ch env (by simp [h, clearChildren]), iha c env ha, ch env (by simp [h, clearChildren]),
      ihb d env hb]
    cases (a.eval S env).bind List.head? <;> cases (b.eval S env).bind List.head? <;> rfl
  | op3 o a b c iha ihb ihc =>
    rintro n env ⟨i, j, k, h, ha, hb, hc⟩
    rw [den, denK, h]
    simp only [allSome, Expr.eval]
    rw [ch env (by simp [h, clearChildren]), iha i env ha, ch env (by simp [h, clearChildren]),
      ihb j env hb, ch env (by simp [h, clearChildren]), ihc k env hc]
    cases (a.eval S env).bind List.head? <;> cases (b.eval S env).bind List.head? <;>
      cases (c.eval S env).bind List.head? <;> rfl
  | var x =>
    rintro n env ⟨rfl, h⟩
    rw [den, denK, h]; rfl
  | ifElse c t e ihc iht ihe =>
    rintro n env ⟨i, j, k, h, hc, ht, he⟩
    rw [den, denK, h]
    simp only [Expr.eval]
    rw [ch env (by simp [h, clearChildren]), ihc i env hc]
    congr 1; funext v; congr 1; funext b
    cases b
    · simpa using (ch env (by simp [h, clearChildren])).trans (ihe k env he)
    · simpa using (ch env (by simp [h, clearChildren])).trans (iht j env ht)
  | loop1 iv a init body lower upper step ihi ihb =>
    rintro n env ⟨i, b, h, hi, hb⟩
    rw [den, denK, h]
    simp only [allSome, Expr.eval]
    rw [ch env (by simp [h, clearChildren]), ihi i env hi]
    cases (init.eval S env).bind only with
    | none => rfl
    | some x =>
      simp only [Option.bind_some, hb.isYield_eq]
      congr 1; funext is
      apply denLoop_congr
      intro i vals
      rw [ch _ (by simp [h, clearChildren]), ihb b _ hb]
  | loop2 iv a b init1 init2 body lower upper step ihi ihj ihb =>
    rintro n env ⟨i, j, k, h, hi, hj, hb⟩
    rw [den, denK, h]
    simp only [allSome, Expr.eval]
    rw [ch env (by simp [h, clearChildren]), ihi i env hi, ch env (by simp [h, clearChildren]),
      ihj j env hj]
    cases (init1.eval S env).bind only with
    | none => rfl
    | some x =>
      cases (init2.eval S env).bind only with
      | none => rfl
      | some y =>
        simp only [Option.bind_some, hb.isYield_eq]
        congr 1; funext is
        apply denLoop_congr
        intro i vals
        rw [ch _ (by simp [h, clearChildren]), ihb k _ hb]
  | yield1 a iha =>
    rintro n env ⟨c, h, ha⟩
    rw [den, denK, h]
    simp only [allSome, Expr.eval]
    rw [ch env (by simp [h, clearChildren]), iha c env ha]
    rfl
  | yield2 a b iha ihb =>
    rintro n env ⟨c, d, h, ha, hb⟩
    rw [den, denK, h]
    simp only [allSome, Expr.eval]
    rw [ch env (by simp [h, clearChildren]), iha c env ha, ch env (by simp [h, clearChildren]),
      ihb d env hb]
    cases (a.eval S env).bind only <;> cases (b.eval S env).bind only <;> rfl
  | resultAt e i ih =>
    rintro n env ⟨c, h, hc⟩
    rw [den, denK, h]
    simp only [Expr.eval]
    rw [ch env (by simp [h, clearChildren]), ih c env hc]

end Heir.Dag
