import Verif.Kernel.Model
import Mathlib.Algebra.BigOperators.Group.Finset.Basic
import Mathlib.Algebra.BigOperators.Intervals
import Mathlib.Algebra.BigOperators.Pi
import Mathlib.Algebra.BigOperators.Ring.Finset
import Mathlib.Data.ZMod.Basic
import Mathlib.Tactic.Ring
import Mathlib.Tactic.Linarith

/-! # Lemmas for the kernels -/

namespace Heir.Kernel

open Heir.Dag Finset

variable {R : Type} {N : Nat}

/-! ## Rotations -/

theorem rot_rot (a b : Int) (v : Slots R N) : rot a (rot b v) = rot (a + b) v := by
  funext i; simp only [rot]; congr 1; push_cast; ring

theorem rot_zero (v : Slots R N) : rot 0 v = v := by funext i; simp [rot]

variable [CommRing R]

theorem rot_mul (a : Int) (v w : Slots R N) : rot a (v * w) = rot a v * rot a w := rfl
theorem rot_add (a : Int) (v w : Slots R N) : rot a (v + w) = rot a v + rot a w := rfl

theorem rot_sum {ι : Type} (s : Finset ι) (a : Int) (f : ι → Slots R N) :
    rot a (∑ i ∈ s, f i) = ∑ i ∈ s, rot a (f i) := by
  funext j; simp [rot, Finset.sum_apply]

/-! ## Evaluation of nodes -/

variable [DecidableEq R]

/-- `e` evaluates to the single value `x` with rotation keys `ok`. -/
def Ev (ok : Int → Bool) (env : Env (Val R N)) (e : KExpr R N) (x : Val R N) : Prop :=
  e.eval (kSem ok) env = some [x]

/-- `e` evaluates to the slots `v`, as a ciphertext or a plaintext. -/
def EvV (ok : Int → Bool) (env : Env (Val R N)) (e : KExpr R N) (v : Slots R N) : Prop :=
  ∃ s, Ev ok env e (.vec s v)

variable {ok : Int → Bool} {env : Env (Val R N)} {a b c : KExpr R N}

theorem ev_op1 {o : KOp R N} {x r : Val R N} (ha : Ev ok env a x) (h : kPure ok o [x] = some r) :
    Ev ok env (.op1 o a) r := by
  unfold Ev at *
  simp only [Expr.eval, ha, Option.bind_some, List.head?_cons]
  simp [kSem, h]

theorem ev_op2 {o : KOp R N} {x y r : Val R N} (ha : Ev ok env a x) (hb : Ev ok env b y)
    (h : kPure ok o [x, y] = some r) : Ev ok env (.op2 o a b) r := by
  unfold Ev at *
  simp only [Expr.eval, ha, hb, Option.bind_some, List.head?_cons]
  simp [kSem, h]

theorem ev_op3 {o : KOp R N} {x y z r : Val R N} (ha : Ev ok env a x) (hb : Ev ok env b y)
    (hc : Ev ok env c z) (h : kPure ok o [x, y, z] = some r) : Ev ok env (.op3 o a b c) r := by
  unfold Ev at *
  simp only [Expr.eval, ha, hb, hc, Option.bind_some, List.head?_cons]
  simp [kSem, h]

theorem ev_leafV (v : Slots R N) : Ev ok env (leafV v) (.vec true v) := rfl
theorem ev_leafM (m : List (Slots R N)) : Ev ok env (leafM m) (.mat false m) := rfl
theorem ev_cst (k : Int) : Ev ok env (cst k) (.idx k) := rfl
theorem ev_splat (x : R) : EvV ok env (.op0 (.splat x)) (fun _ => x) := ⟨false, rfl⟩

theorem ev_add {x y : Slots R N} (ha : EvV ok env a x) (hb : EvV ok env b y) :
    EvV ok env (addE a b) (x + y) :=
  ⟨_, ev_op2 ha.choose_spec hb.choose_spec rfl⟩

theorem ev_mul {x y : Slots R N} (ha : EvV ok env a x) (hb : EvV ok env b y) :
    EvV ok env (mulE a b) (x * y) :=
  ⟨_, ev_op2 ha.choose_spec hb.choose_spec rfl⟩

theorem ev_addI {x y : Int} (ha : Ev ok env a (.idx x)) (hb : Ev ok env b (.idx y)) :
    Ev ok env (addE a b) (.idx (x + y)) := ev_op2 ha hb rfl

theorem ev_mulI {x y : Int} (ha : Ev ok env a (.idx x)) (hb : Ev ok env b (.idx y)) :
    Ev ok env (mulE a b) (.idx (x * y)) := ev_op2 ha hb rfl

/-- Rotation of a plaintext needs no key. -/
theorem ev_rotP {x : Slots R N} {k : Int} {s : Bool} (ha : Ev ok env a (.vec s x))
    (hb : Ev ok env b (.idx k)) (h : s = true → ok k = true) :
    EvV ok env (rotD a b) (rot k x) := by
  refine ⟨s, ev_op2 ha hb ?_⟩
  cases s
  · rfl
  · simp [kPure, h rfl]

theorem ev_rotD {x : Slots R N} {k : Int} (ha : EvV ok env a x) (hb : Ev ok env b (.idx k))
    (h : ok k = true) : EvV ok env (rotD a b) (rot k x) :=
  ev_rotP ha.choose_spec hb fun _ => h

theorem ev_rot {x : Slots R N} (ha : EvV ok env a x) {k : Int} (h : ok k = true) :
    EvV ok env (rotE a k) (rot k x) := ev_rotD ha (ev_cst k) h

theorem ev_extractD {m : List (Slots R N)} {k : Int} {x : Slots R N} {s : Bool}
    (ha : Ev ok env a (.mat s m)) (hb : Ev ok env b (.idx k)) (h0 : 0 ≤ k)
    (h : m[k.toNat]? = some x) : Ev ok env (extractD a b) (.vec s x) := by
  refine ev_op2 ha hb ?_
  simp [kPure, not_lt.2 h0, h]

theorem ev_extract {m : List (Slots R N)} {k : Nat} {x : Slots R N} {s : Bool}
    (ha : Ev ok env a (.mat s m)) (h : m[k]? = some x) : Ev ok env (extractE a k) (.vec s x) :=
  ev_extractD ha (ev_cst k) (by omega) (by simpa using h)

theorem ev_var {x : Nat} {v : Val R N} (h : env x = some v) : Ev ok env (.var x) v := by
  simp [Ev, Expr.eval, h]

theorem ev_resultAt {e : KExpr R N} {rs : List (Val R N)} {i : Nat} {v : Val R N}
    (h : e.eval (kSem ok) env = some rs) (hi : rs[i]? = some v) : Ev ok env (.resultAt e i) v := by
  simp [Ev, Expr.eval, h, hi]

/-! ## Loops -/

theorem tripList_range (k : Nat) (hk : k < 2 ^ 31) :
    tripList 0 k 1 = some ((List.range k).map fun (j : Nat) => (j : Int)) := by
  unfold tripList
  by_cases h : k = 0
  · subst h; rfl
  · rw [if_neg (by omega), if_neg (by omega)]
    have e : ((k : Int) - 0 + 1 - 1) / 1 = k := by simp
    rw [e]
    simp only [Int.toNat_natCast]
    rw [if_neg (by omega)]
    simp

/-- A loop whose iterations keep an invariant. -/
theorem denLoop_range {V : Type} (f : Int → List V → Option (List V))
    (I : Nat → List V → Prop) (k : Nat)
    (h : ∀ i, i < k → ∀ xs, I i xs → ∃ ys, f i xs = some ys ∧ I (i + 1) ys) (xs : List V)
    (h0 : I 0 xs) :
    ∃ ys, denLoop f ((List.range k).map fun (j : Nat) => (j : Int)) xs = some ys ∧ I k ys := by
  have key : ∀ (n i : Nat) (xs : List V), i + n = k → I i xs →
      ∃ ys, denLoop f ((List.range' i n).map fun (j : Nat) => (j : Int)) xs = some ys ∧ I k ys := by
    intro n
    induction n with
    | zero => intro i xs hi hx; simp only [Nat.add_zero] at hi; subst hi; exact ⟨xs, rfl, hx⟩
    | succ n ih =>
      intro i xs hi hx
      obtain ⟨ys, hy, hI⟩ := h i (by omega) xs hx
      rw [List.range'_succ, List.map_cons, denLoop, hy]
      exact ih (i + 1) ys (by omega) hI
  have := key k 0 xs (by omega) h0
  rwa [← List.range_eq_range'] at this

theorem eval_loop1 {iv x : Nat} {init body : KExpr R N} {k : Nat} (hk : k < 2 ^ 31)
    (I : Nat → Val R N → Prop) (hi : ∃ z, Ev ok env init z ∧ I 0 z) (hy : body.isYield = true)
    (hb : ∀ i, i < k → ∀ z, I i z →
      ∃ z', Ev ok (setVar (setVar env iv (.idx i)) x z) body z' ∧ I (i + 1) z') :
    ∃ z, Ev ok env (.resultAt (.loop1 iv x init body 0 k 1) 0) z ∧ I k z := by
  obtain ⟨z0, hz, h0⟩ := hi
  obtain ⟨ys, hys, z, hzz, hI⟩ := denLoop_range (V := Val R N)
    (fun i vals => if [x].length = vals.length ∧ body.isYield = true then
            (body.eval (kSem ok) (setVars (setVar env iv ((kSem (R := R) (N := N) ok).ofInt i)) [x] vals)).bind fun r =>
              if r.length = vals.length then some r else none
            else none) (fun i xs => ∃ z, xs = [z] ∧ I i z) k (by
    rintro i hik _ ⟨z, rfl, hI⟩
    obtain ⟨z', hz', hI'⟩ := hb i hik z hI
    unfold Ev at hz'
    refine ⟨[z'], ?_, z', rfl, hI'⟩
    rw [if_pos ⟨rfl, hy⟩]
    simp only [setVars]
    rw [show (kSem (R := R) (N := N) ok).ofInt (i : Int) = .idx i from rfl, hz']
    rfl) [z0] ⟨z0, rfl, h0⟩
  subst hzz
  refine ⟨z, ev_resultAt (rs := [z]) ?_ rfl, hI⟩
  rw [Expr.eval, show Expr.eval (kSem ok) env init = _ from hz, tripList_range k hk]
  exact hys

theorem eval_loop2 {iv x y : Nat} {init1 init2 body : KExpr R N} {k : Nat} (hk : k < 2 ^ 31)
    (I : Nat → Val R N → Val R N → Prop)
    (hi : ∃ z w, Ev ok env init1 z ∧ Ev ok env init2 w ∧ I 0 z w) (hy : body.isYield = true)
    (hb : ∀ i, i < k → ∀ z w, I i z w → ∃ z' w', body.eval (kSem ok)
      (setVar (setVar (setVar env iv (.idx i)) x z) y w) = some [z', w'] ∧ I (i + 1) z' w') :
    ∃ z w, Ev ok env (.resultAt (.loop2 iv x y init1 init2 body 0 k 1) 0) z ∧ I k z w := by
  obtain ⟨z0, w0, hz, hw, h0⟩ := hi
  obtain ⟨ys, hys, z, w, hzz, hI⟩ := denLoop_range (V := Val R N)
    (fun i vals => if [x, y].length = vals.length ∧ body.isYield = true then
            (body.eval (kSem ok) (setVars (setVar env iv ((kSem (R := R) (N := N) ok).ofInt i)) [x, y] vals)).bind fun r =>
              if r.length = vals.length then some r else none
            else none) (fun i xs => ∃ z w, xs = [z, w] ∧ I i z w) k (by
    rintro i hik _ ⟨z, w, rfl, hI⟩
    obtain ⟨z', w', hz', hI'⟩ := hb i hik z w hI
    refine ⟨[z', w'], ?_, z', w', rfl, hI'⟩
    rw [if_pos ⟨rfl, hy⟩]
    simp only [setVars]
    rw [show (kSem (R := R) (N := N) ok).ofInt (i : Int) = .idx i from rfl, hz']
    rfl) [z0, w0] ⟨z0, w0, rfl, h0⟩
  subst hzz
  refine ⟨z, w, ev_resultAt (rs := [z, w]) ?_ rfl, hI⟩
  rw [Expr.eval, show Expr.eval (kSem ok) env init1 = _ from hz,
    show Expr.eval (kSem ok) env init2 = _ from hw, tripList_range k hk]
  exact hys

/-- `eval_loop2` for a goal about slots. -/
theorem evV_loop2 {iv x y : Nat} {init1 init2 body : KExpr R N} {k : Nat} {v : Slots R N}
    (hk : k < 2 ^ 31) (I : Nat → Val R N → Val R N → Prop)
    (hi : ∃ z w, Ev ok env init1 z ∧ Ev ok env init2 w ∧ I 0 z w) (hy : body.isYield = true)
    (hb : ∀ i, i < k → ∀ z w, I i z w → ∃ z' w', body.eval (kSem ok)
      (setVar (setVar (setVar env iv (.idx i)) x z) y w) = some [z', w'] ∧ I (i + 1) z' w')
    (hv : ∀ z w, I k z w → ∃ s, z = .vec s v) :
    EvV ok env (.resultAt (.loop2 iv x y init1 init2 body 0 k 1) 0) v := by
  obtain ⟨z, w, hz, hI⟩ := eval_loop2 hk I hi hy hb
  obtain ⟨s, rfl⟩ := hv z w hI
  exact ⟨s, hz⟩

theorem ev_yield1 {v : Val R N} (h : Ev ok env a v) : Ev ok env (.yield1 a) v := by
  unfold Ev at *; simp [Expr.eval, h, only]

theorem eval_yield2 {v w : Val R N} (h : Ev ok env a v) (h' : Ev ok env b w) :
    (Expr.yield2 a b).eval (kSem ok) env = some [v, w] := by
  unfold Ev at *; simp [Expr.eval, h, h', only]

/-! ## Naive diagonal product -/

theorem matvecLoop_ok {v : Slots R N} {m : List (Slots R N)} {D : Nat → Slots R N} (n : Nat)
    (hD : ∀ i, i ≤ n → m[i]? = some (D i)) (hok : ∀ i : Nat, i ≤ n → ok i = true) :
    EvV ok env (matvecLoop (leafV v) (leafM m) n) (∑ i ∈ range (n + 1), D i * rot i v) := by
  induction n with
  | zero =>
    have := ev_mul (ev_rot (env := env) (k := 0) ⟨_, ev_leafV v⟩ (hok 0 (by omega)))
      ⟨_, ev_extract (ev_leafM m) (hD 0 (by omega))⟩
    simpa [matvecLoop, mul_comm] using this
  | succ n ih =>
    rw [sum_range_succ, mul_comm (D (n + 1))]
    exact ev_add (ih (fun i hi => hD i (by omega)) fun i hi => hok i (by omega))
      (ev_mul (ev_rot ⟨_, ev_leafV v⟩ (hok (n + 1) (by omega)))
        ⟨_, ev_extract (ev_leafM m) (hD (n + 1) (by omega))⟩)

end Heir.Kernel
