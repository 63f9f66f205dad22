import Verif.Kernel.Lemmas

/-! # Rotation accumulation and baby-step giant-step -/

namespace Heir.Kernel

open Heir.Dag Finset

/-! ## Accumulation -/

/-- The accumulation on values. -/
def fold {M : Type} (op : M → M → M) (r : Int → M → M) (period : Int) (shift : Nat) (v : M) : M :=
  if 0 < shift then fold op r period (shift / 2) (op v (r (shift * period) v)) else v
termination_by shift

@[to_additive fold_add_pow]
theorem fold_mul_pow {M : Type} [CommMonoid M] (r : Int → M → M) (hz : ∀ x, r 0 x = x)
    (hm : ∀ a x y, r a (x * y) = r a x * r a y) (hr : ∀ a b x, r a (r b x) = r (a + b) x)
    (period : Int) (k : Nat) (v : M) :
    fold (· * ·) r period (2 ^ k / 2) v = ∏ i ∈ range (2 ^ k), r (i * period) v := by
  induction k generalizing v with
  | zero => rw [fold]; simp [hz]
  | succ k ih =>
    have e : 2 ^ (k + 1) / 2 = 2 ^ k := by rw [pow_succ]; omega
    rw [e, fold, if_pos (by positivity), ih, pow_succ 2 k, Nat.mul_two, prod_range_add,
      ← prod_mul_distrib]
    refine prod_congr rfl fun i _ => ?_
    rw [hm, hr]
    congr 2
    push_cast; ring

theorem fold_const {R : Type} [CommRing R] {N : Nat} (period : Int) (shift : Nat) (c : R) :
    fold (· + ·) rot period shift (fun _ => c : Slots R N) =
      fun _ => c * 2 ^ Nat.log 2 (2 * shift) := by
  induction shift using Nat.strong_induction_on generalizing c with
  | _ s ih =>
    rw [fold]
    split
    · rename_i h
      have e : ((fun _ => c : Slots R N) + rot (s * period) fun _ => c) = fun _ => c * 2 := by
        funext i; simp only [Pi.add_apply, rot]; ring
      rw [e, ih (s / 2) (by omega)]
      funext i
      have : Nat.log 2 (2 * s) = Nat.log 2 s + 1 := by
        rw [Nat.mul_comm, Nat.log_mul_base (by omega) (by omega)]
      rw [this]
      by_cases h2 : s / 2 = 0
      · have : s = 1 := by omega
        subst this; simp
      · have : Nat.log 2 (2 * (s / 2)) = Nat.log 2 s := by
          rw [Nat.mul_comm, Nat.log_div_mul_self]
        rw [this, pow_succ]; ring
    · rename_i h
      have : s = 0 := by omega
      subst this; simp

variable {R : Type} {N : Nat} [CommRing R] [DecidableEq R] {ok : Int → Bool}
  {env : Env (Val R N)}

theorem accumLoop_ok (red : KExpr R N → KExpr R N → KExpr R N)
    (op : Slots R N → Slots R N → Slots R N)
    (hop : ∀ {a b : KExpr R N} {x y : Slots R N}, EvV ok env a x → EvV ok env b y →
      EvV ok env (red a b) (op x y)) (period : Int) (shift : Nat)
    (hok : ∀ k, 0 < shift / 2 ^ k → ok ((shift / 2 ^ k : Nat) * period) = true) {e : KExpr R N}
    {v : Slots R N} (he : EvV ok env e v) :
    EvV ok env (accumLoop red period shift e) (fold op rot period shift v) := by
  induction shift using Nat.strong_induction_on generalizing e v with
  | _ s ih =>
    rw [accumLoop, fold]
    split
    · rename_i h
      refine ih _ (by omega) (fun k hk => ?_) (hop he (ev_rot he (by simpa using hok 0 (by simpa using h))))
      rw [Nat.div_div_eq_div_mul, ← pow_succ'] at hk ⊢
      exact hok (k + 1) hk
    · exact he

/-- State of the rolled loop after `k` iterations. -/
def rolledState (op : Slots R N → Slots R N → Slots R N) (period : Int) (shift : Nat)
    (v : Slots R N) : Nat → Slots R N × Nat
  | 0 => (v, shift)
  | k + 1 =>
    let s := rolledState op period shift v k
    (op s.1 (rot (s.2 * period) s.1), s.2 / 2)

omit [CommRing R] [DecidableEq R] in
theorem rolledState_shift (op : Slots R N → Slots R N → Slots R N) (period : Int) (shift : Nat)
    (v : Slots R N) (k : Nat) : (rolledState op period shift v k).2 = shift / 2 ^ k := by
  induction k with
  | zero => simp [rolledState]
  | succ k ih => simp [rolledState, ih, Nat.div_div_eq_div_mul, pow_succ]

omit [CommRing R] [DecidableEq R] in
theorem rolledState_fold (op : Slots R N → Slots R N → Slots R N) (period : Int) (shift : Nat)
    (v : Slots R N) (k : Nat) (hk : k ≤ Nat.log 2 (2 * shift)) :
    fold op rot period (rolledState op period shift v k).2 (rolledState op period shift v k).1 =
      fold op rot period shift v := by
  induction k with
  | zero => rfl
  | succ k ih =>
    rw [← ih (by omega), eq_comm, fold, if_pos]
    · rfl
    · rw [rolledState_shift]
      have hs : shift ≠ 0 := by rintro rfl; simp at hk
      have : Nat.log 2 (2 * shift) = Nat.log 2 shift + 1 := by
        rw [Nat.mul_comm, Nat.log_mul_base (by omega) hs]
      exact Nat.div_pos (Nat.pow_le_of_le_log hs (by omega)) (by positivity)

omit [CommRing R] [DecidableEq R] in
theorem rolledState_eq (op : Slots R N → Slots R N → Slots R N) (period : Int) (steps : Nat)
    (v : Slots R N) (hs : 2 ≤ steps) :
    (rolledState op period (steps / 2) v (Nat.log 2 steps)).1 =
      fold op rot period (steps / 2) v := by
  have hl : Nat.log 2 (2 * (steps / 2)) = Nat.log 2 steps := by
    rw [Nat.mul_comm, Nat.log_div_mul_self]
  rw [← rolledState_fold op period (steps / 2) v (Nat.log 2 steps) (by rw [hl]), eq_comm,
    rolledState_shift, fold, if_neg]
  rw [Nat.div_div_eq_div_mul, Nat.div_eq_of_lt]
  · omega
  · rw [← pow_succ']; exact Nat.lt_pow_succ_log_self (by omega) _

theorem accumRolled_ok (red : KExpr R N → KExpr R N → KExpr R N)
    (op : Slots R N → Slots R N → Slots R N)
    (hop : ∀ {env : Env (Val R N)} {a b : KExpr R N} {x y : Slots R N}, EvV ok env a x →
      EvV ok env b y → EvV ok env (red a b) (op x y)) (period : Int) (steps : Nat)
    (hsteps : steps < 2 ^ 63)
    (hok : ∀ k, 0 < steps / 2 / 2 ^ k → ok ((steps / 2 / 2 ^ k : Nat) * period) = true)
    {e : KExpr R N} {v : Slots R N} (he : EvV ok env e v) :
    EvV ok env (accumRolled red period steps e) (fold op rot period (steps / 2) v) := by
  have hlog : Nat.log 2 steps < 2 ^ 31 := by
    have : Nat.log 2 steps < 63 := by
      by_cases h : steps = 0
      · subst h; simp
      · exact Nat.log_lt_of_lt_pow h hsteps
    omega
  unfold accumRolled
  split
  · rename_i h
    rw [fold, if_neg]
    · exact he
    · have : steps < 2 := by
        by_contra h2
        have := Nat.log_pos (b := 2) (by omega) (show 2 ≤ steps by omega)
        omega
      omega
  · rename_i h
    have hs : 2 ≤ steps := by
      by_contra h2
      exact h (by rw [Nat.log_of_lt (by omega)])
    obtain ⟨s0, hs0⟩ := he
    obtain ⟨z, w, hz, ⟨t, rfl⟩, _⟩ := eval_loop2 (ok := ok) (env := env) (iv := 0) (x := 1) (y := 2)
      (init1 := e) (init2 := cst (steps / 2 : Nat))
      (body := .yield2 (red (.var 1) (rotD (.var 1) (mulE (.var 2) (cst period))))
        (.op1 (.floorDiv 2) (.var 2))) hlog
      (fun k z w => (∃ t, z = .vec t (rolledState op period (steps / 2) v k).1) ∧
        w = .idx (rolledState op period (steps / 2) v k).2)
      ⟨_, _, hs0, ev_cst _, ⟨s0, rfl⟩, rfl⟩ rfl (by
        rintro i hi _ _ ⟨⟨t, rfl⟩, rfl⟩
        have hpos : 0 < steps / 2 / 2 ^ i := by
          rw [Nat.div_div_eq_div_mul, ← pow_succ']
          exact Nat.div_pos (Nat.pow_le_of_le_log (by omega) (by omega)) (by positivity)
        have hk := hok i hpos
        rw [← rolledState_shift op period (steps / 2) v i] at hk
        have h1 : ∀ {ee : Env (Val R N)} {x : Slots R N} {s : Int}, ok (s * period) = true →
            ee 1 = some (.vec t x) → ee 2 = some (.idx s) → ∃ t',
            (Expr.yield2 (red (.var 1) (rotD (.var 1) (mulE (.var 2)
              (cst period)))) (.op1 (.floorDiv 2) (.var 2))).eval (kSem ok) ee =
              some [.vec t' (op x (rot (s * period) x)), .idx (s.tdiv 2)] := by
          intro ee x s hk hx hsv
          obtain ⟨t', ht⟩ := hop (env := ee) ⟨_, ev_var hx⟩
            (ev_rotD ⟨_, ev_var hx⟩ (ev_mulI (ev_var hsv) (ev_cst period)) hk)
          exact ⟨t', eval_yield2 ht (ev_op1 (ev_var hsv) (by simp [kPure]))⟩
        obtain ⟨t', ht⟩ := h1 (ee := setVar (setVar (setVar env 0 (.idx (i : Int))) 1
          (.vec t (rolledState op period (steps / 2) v i).1)) 2
          (.idx (rolledState op period (steps / 2) v i).2)) hk rfl rfl
        exact ⟨_, _, ht, ⟨t', rfl⟩, rfl⟩)
    rw [rolledState_eq op period steps v hs] at hz
    exact ⟨t, hz⟩

/-! ## Baby-step giant-step -/

/-- Reindexing by giant and baby steps. -/
theorem sum_split {M : Type} [AddCommMonoid M] (f : Nat → M) (g b : Nat) :
    ∑ j ∈ range g, ∑ i ∈ range b, f (j * b + i) = ∑ c ∈ range (g * b), f c := by
  induction g with
  | zero => simp
  | succ g ih => rw [sum_range_succ, ih, Nat.succ_mul, sum_range_add]

section
variable (b steps : Nat) (period : Int) (skip : Nat → Bool) (P : Nat → Slots R N)
  (rotIdx : Nat → Nat → Int) (v : Slots R N)

/-- The contribution of giant step `j` and baby step `i`. -/
def term (j i : Nat) : Slots R N :=
  if steps ≤ j * b + i then 0 else if skip (j * b + i) then 0
  else rot (rotIdx j i) (P (j * b + i)) * rot (period * i) v

end

section
variable {b steps : Nat} {period : Int} {skip : Nat → Bool} {P : Nat → Slots R N}
  {rotIdx : Nat → Nat → Int} {v : Slots R N} {extr : Nat → KExpr R N} {ve : KExpr R N} {sp : Bool}

theorem innerSum_ok (hP : ∀ c, c < steps → Ev ok env (extr c) (.vec sp (P c)))
    (hv : EvV ok env ve v) (hR : sp = true → ∀ j i, i < b → j * b + i < steps → ok (rotIdx j i) = true)
    (hB : ∀ i : Nat, 1 ≤ i → i < b → ok (period * i) = true)
    (j i : Nat) (hi : i ≤ b) : ∀ S, S = ∑ i' ∈ range i, term b steps period skip P rotIdx v j i' →
    match innerSum b steps period skip extr rotIdx ve j i with
    | none => S = 0
    | some e => EvV ok env e S := by
  induction i with
  | zero => intro S hS; simpa [innerSum] using hS
  | succ i ih =>
    intro S hS
    rw [sum_range_succ] at hS
    have ih := ih (by omega) _ rfl
    unfold innerSum
    unfold term at hS
    by_cases h1 : steps ≤ j * b + i
    · simp only [if_pos h1] at hS ⊢
      rw [add_zero] at hS
      subst hS; exact ih
    · simp only [if_neg h1] at hS ⊢
      rw [Nat.add_comm i (j * b)]
      by_cases h2 : skip (j * b + i) = true
      · simp only [if_pos h2] at hS ⊢
        rw [add_zero] at hS
        subst hS; exact ih
      · simp only [if_neg h2] at hS ⊢
        have hm : EvV ok env (mulE (rotE (extr (j * b + i)) (rotIdx j i))
            (if i = 0 then ve else rotE ve (period * i)))
            (rot (rotIdx j i) (P (j * b + i)) * rot (period * i) v) := by
          refine ev_mul (ev_rotP (hP _ (by omega)) (ev_cst _) fun h => hR h j i (by omega) (by omega)) ?_
          split
          · rename_i h0; subst h0; simpa [rot_zero] using hv
          · exact ev_rot hv (hB i (by omega) (by omega))
        cases hacc : innerSum b steps period skip extr rotIdx ve j i with
        | none =>
          rw [hacc] at ih
          simp only at ih ⊢
          unfold term at ih
          rw [ih, zero_add] at hS
          subst hS; exact hm
        | some s =>
          rw [hacc] at ih
          simp only at ih ⊢
          subst hS; exact ev_add ih hm

theorem outerSum_ok (hP : ∀ c, c < steps → Ev ok env (extr c) (.vec sp (P c)))
    (hv : EvV ok env ve v) (hR : sp = true → ∀ j i, i < b → j * b + i < steps → ok (rotIdx j i) = true)
    (hB : ∀ i : Nat, 1 ≤ i → i < b → ok (period * i) = true)
    (j : Nat) (hG : ∀ j' : Nat, j' < j → ok (period * j' * b) = true) : ∀ S, S = ∑ j' ∈ range j, rot (period * j' * b)
      (∑ i ∈ range b, term b steps period skip P rotIdx v j' i) →
    match outerSum b steps period skip extr rotIdx ve j with
    | none => S = 0
    | some e => EvV ok env e S := by
  induction j with
  | zero => intro S hS; simpa [outerSum] using hS
  | succ j ih =>
    intro S hS
    rw [sum_range_succ] at hS
    have ih := ih (fun j' h => hG j' (by omega)) _ rfl
    have hin := innerSum_ok (skip := skip) hP hv hR hB j b le_rfl _ rfl
    unfold outerSum
    cases hi : innerSum b steps period skip extr rotIdx ve j b with
    | none =>
      rw [hi] at hin
      simp only at hin
      rw [hin] at hS
      have h0 : rot (period * j * b) (0 : Slots R N) = 0 := rfl
      rw [h0, add_zero] at hS
      cases ho : outerSum b steps period skip extr rotIdx ve j with
      | none => rw [ho] at ih; subst hS; exact ih
      | some acc => rw [ho] at ih; subst hS; exact ih
    | some s =>
      rw [hi] at hin
      simp only at hin
      cases ho : outerSum b steps period skip extr rotIdx ve j with
      | none =>
        rw [ho] at ih
        simp only at ih
        rw [ih, zero_add] at hS
        subst hS; exact ev_rot hin (hG j (by omega))
      | some acc =>
        rw [ho] at ih
        subst hS; exact ev_add ih (ev_rot hin (hG j (by omega)))

theorem bsgsWith_ok (hP : ∀ c, c < steps → Ev ok env (extr c) (.vec sp (P c)))
    (hv : EvV ok env ve v) (hR : sp = true → ∀ j i, i < b → j * b + i < steps → ok (rotIdx j i) = true)
    (hB : ∀ i : Nat, 1 ≤ i → i < b → ok (period * i) = true)
    (hG : ∀ j : Nat, j < (steps + b - 1) / b → ok (period * j * b) = true) :
    EvV ok env (bsgsWith b steps period skip extr rotIdx ve)
      (∑ j ∈ range ((steps + b - 1) / b), rot (period * j * b)
        (∑ i ∈ range b, term b steps period skip P rotIdx v j i)) := by
  have := outerSum_ok (skip := skip) hP hv hR hB ((steps + b - 1) / b) hG _ rfl
  unfold bsgsWith
  cases h : outerSum b steps period skip extr rotIdx ve ((steps + b - 1) / b) with
  | none =>
    rw [h] at this
    simp only at this ⊢
    rw [this]; exact ev_splat 0
  | some e => rw [h] at this; exact this

end

omit [DecidableEq R] in
/-- The value of the kernel as one sum, for any rotation of the first factor that depends on the
giant and baby step. -/
theorem bsgs_sum {b steps : Nat} (hb : 1 ≤ b) (period : Int) (skip : Nat → Bool)
    (P : Nat → Slots R N) (rotIdx : Nat → Nat → Int) (v : Slots R N)
    (Q : Nat → Slots R N)
    (hQ : ∀ c, c < steps → skip c = false →
      rot (period * (c / b : Nat) * b) (rot (rotIdx (c / b) (c % b)) (P c)) = Q c)
    (hskip : ∀ c, c < steps → skip c = true → Q c * rot (c * period) v = 0) :
    (∑ j ∈ range ((steps + b - 1) / b), rot (period * j * b)
        (∑ i ∈ range b, term b steps period skip P rotIdx v j i)) =
      ∑ c ∈ range steps, Q c * rot (c * period) v := by
  have hle : steps ≤ (steps + b - 1) / b * b := by
    have := Nat.div_add_mod (steps + b - 1) b
    have := Nat.mod_lt (steps + b - 1) hb
    rw [Nat.mul_comm]; omega
  have h1 : ∀ (j i : Nat), i < b → rot (period * j * b) (term b steps period skip P rotIdx v j i) =
      (fun c => if c < steps then Q c * rot (c * period) v else 0) (j * b + i) := by
    intro j i hi
    have hd : (j * b + i) / b = j := by
      rw [Nat.mul_comm, Nat.mul_add_div hb, Nat.div_eq_of_lt hi, Nat.add_zero]
    have hm : (j * b + i) % b = i := by
      rw [Nat.mul_comm, Nat.mul_add_mod, Nat.mod_eq_of_lt hi]
    unfold term
    by_cases h : steps ≤ j * b + i
    · simp only [if_pos h, if_neg (not_lt.2 h)]; rfl
    · simp only [if_neg h, if_pos (not_le.1 h)]
      cases hs : skip (j * b + i) with
      | true => simp only [if_true]; rw [hskip _ (not_le.1 h) hs]; rfl
      | false =>
        have := hQ (j * b + i) (not_le.1 h) hs
        rw [hd, hm] at this
        simp only [Bool.false_eq_true, if_false]
        rw [rot_mul, this, rot_rot]
        congr 2; push_cast; ring
  rw [sum_congr rfl fun j _ => (rot_sum _ _ _).trans (sum_congr rfl fun i hi => h1 j i (mem_range.1 hi)),
    sum_split (fun c => if c < steps then Q c * rot (c * period) v else 0)]
  obtain ⟨d, hd⟩ := Nat.exists_eq_add_of_le hle
  rw [hd, sum_range_add]
  rw [sum_eq_zero (s := range d) fun i _ => if_neg (by omega), add_zero]
  exact sum_congr rfl fun c hc => if_pos (mem_range.1 hc)

end Heir.Kernel
