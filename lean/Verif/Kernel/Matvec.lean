import Verif.Kernel.Rolled
import Verif.Layout.Lemmas

/-! # Matrix-vector and matrix products: lemmas -/

namespace Heir.Kernel

open Heir.Dag Heir.Layout Finset

variable {R : Type} {N : Nat} [CommRing R] [DecidableEq R] {ok : Int → Bool}

theorem ceilSqrt_pos {n : Nat} (h : 1 ≤ n) : 1 ≤ ceilSqrt n := by
  unfold ceilSqrt
  split
  · rename_i e
    by_contra hc
    have : n.sqrt = 0 := by omega
    rw [this] at e; omega
  · omega

theorem ceilSqrt_le {n : Nat} (h : 1 ≤ n) : ceilSqrt n ≤ n := by
  unfold ceilSqrt
  split
  · exact Nat.sqrt_le_self n
  · rename_i e
    have h1 := Nat.sqrt_le_self n
    by_contra hc
    have : n.sqrt = n := by omega
    have h2 := Nat.sqrt_le n
    rw [this] at h2 e
    apply e
    nlinarith

/-- Number of giant steps. -/
def giantSteps (steps : Nat) : Nat := (steps + ceilSqrt steps - 1) / ceilSqrt steps

theorem giantSteps_le {steps : Nat} (hs : 1 ≤ steps) : giantSteps steps ≤ steps := by
  unfold giantSteps
  have hb := ceilSqrt_pos hs
  apply Nat.le_of_lt_succ
  rw [Nat.div_lt_iff_lt_mul hb]
  have := Nat.mul_le_mul_left steps hb
  rw [Nat.succ_mul]
  omega

theorem rotateAndReduce_ok {m : List (Slots R N)} {v : Slots R N} {period : Int} {steps : Nat}
    {skip : Nat → Bool} {D : Nat → Slots R N} (hs : 1 ≤ steps)
    (hD : ∀ c, c < steps → m[c]? = some (D c))
    (hskip : ∀ c, c < steps → skip c = true → D c = 0)
    (hB : ∀ i : Nat, i < ceilSqrt steps → ok (period * i) = true)
    (hG : ∀ j : Nat, j < giantSteps steps → ok (period * j * ceilSqrt steps) = true) :
    ∃ e, rotateAndReduce m v period steps skip = some e ∧ ∀ env,
      EvV ok env e (∑ c ∈ range steps, D c * rot (c * period) v) := by
  unfold rotateAndReduce bsgs
  rw [if_neg (by omega)]
  refine ⟨_, rfl, fun env => ?_⟩
  have h1 := bsgsWith_ok (env := env) (b := ceilSqrt steps) (steps := steps) (period := period)
    (skip := skip) (P := D) (rotIdx := defaultRot (ceilSqrt steps) period) (v := v)
    (extr := fun c => extractE (leafM m) c) (ve := leafV v)
    (fun c hc => ev_extract (ev_leafM m) (hD c hc)) ⟨_, ev_leafV v⟩ (fun h => by simp at h)
    (fun i _ hi => hB i hi) hG
  rw [bsgs_sum (ceilSqrt_pos hs) period skip D _ v D] at h1
  · exact h1
  · intro c _ _
    rw [rot_rot]
    have : period * ((c / ceilSqrt steps : Nat) : Int) * (ceilSqrt steps : Int) +
        defaultRot (ceilSqrt steps) period (c / ceilSqrt steps) (c % ceilSqrt steps) = 0 := by
      unfold defaultRot; ring
    rw [this, rot_zero]
  · intro c hc h
    rw [hskip c hc h, zero_mul]

theorem rotateAndReduceRolled_ok {m : List (Slots R N)} {v : Slots R N} {period : Int} {steps : Nat}
    {zeros : List (Int × Bool)} {D : Nat → Slots R N} (hs : 1 ≤ steps) (hs' : steps < 2 ^ 31)
    (hD : ∀ c, c < steps → m[c]? = some (D c))
    (hskip : ∀ c, c < steps → ((c : Int), true) ∈ zeros → D c = 0)
    (hB : ∀ i : Nat, i < ceilSqrt steps → ok (period * i) = true)
    (hG : ∀ j : Nat, j < giantSteps steps → ok (period * j * ceilSqrt steps) = true) :
    ∃ e, rotateAndReduceRolled m v period steps zeros = some e ∧ ∀ env,
      EvV ok env e (∑ c ∈ range steps, D c * rot (c * period) v) := by
  unfold rotateAndReduceRolled
  rw [if_neg (by omega)]
  refine ⟨_, rfl, fun env => ?_⟩
  have hb := ceilSqrt_pos hs
  have hb' := ceilSqrt_le hs
  have hg := giantSteps_le hs
  unfold giantSteps at hg
  have h1 := bsgsRolled_ok (env := env) (b := ceilSqrt steps) (steps := steps) (period := period)
    (by omega) (by omega) (tableOk steps zeros) hD (fun env => ev_leafM (env := env) m)
    (fun env => ⟨_, ev_leafV (env := env) v⟩) hB hG
  rw [bsgs_sum hb period _ D _ v D] at h1
  · exact h1
  · intro c _ _
    rw [rot_rot]
    have : period * ((c / ceilSqrt steps : Nat) : Int) * (ceilSqrt steps : Int) +
        defaultRot (ceilSqrt steps) period (c / ceilSqrt steps) (c % ceilSqrt steps) = 0 := by
      unfold defaultRot; ring
    rw [this, rot_zero]
  · intro c hc h
    by_cases hz : ((c : Int), true) ∈ zeros
    · rw [hskip c hc hz, zero_mul]
    · rw [if_neg hz] at h
      have h1 : (1 : R) = 0 := by
        have := (Bool.and_eq_true_iff.1 h).1
        simpa using this
      funext i
      have : ∀ x : R, x = 0 := fun x => by rw [← mul_one x, h1, mul_zero]
      exact (this _).trans (this _).symm

/-! ## Partial sums -/

/-- One partial sum and halving of the shift. -/
def shiftStep (s : Slots R N × Nat) : Slots R N × Nat := (s.1 + rot (s.2 : Int) s.1, s.2 / 2)

theorem shiftLoop_ok {env : Env (Val R N)} (k : Nat) :
    ∀ {e : KExpr R N} {v : Slots R N} (shift : Nat), EvV ok env e v →
    (∀ i, i < k → ok ((shift / 2 ^ i : Nat) : Int) = true) →
    EvV ok env (shiftLoop e shift k) (shiftStep^[k] (v, shift)).1 := by
  induction k with
  | zero => intro e v shift h _; exact h
  | succ k ih =>
    intro e v shift h hok
    refine ih (shift / 2) (ev_add h (ev_rot h (by simpa using hok 0 (by omega)))) fun i hi => ?_
    rw [Nat.div_div_eq_div_mul, ← pow_succ']
    exact hok (i + 1) (by omega)

omit [DecidableEq R] in
theorem shiftStep_shift (k : Nat) (s : Slots R N × Nat) : (shiftStep^[k] s).2 = s.2 / 2 ^ k := by
  induction k with
  | zero => simp
  | succ k ih =>
    rw [Function.iterate_succ_apply']
    simp only [shiftStep]
    rw [ih, Nat.div_div_eq_div_mul, pow_succ]

theorem shiftRolled_ok {env : Env (Val R N)} {e : KExpr R N} {v : Slots R N} (shift k : Nat)
    (hk : k < 2 ^ 31) (h : EvV ok env e v)
    (hok : ∀ i, i < k → ok ((shift / 2 ^ i : Nat) : Int) = true) :
    EvV ok env (shiftRolled e shift k) (shiftStep^[k] (v, shift)).1 := by
  obtain ⟨s0, h0⟩ := h
  refine evV_loop2 hk (fun i z w => (∃ s, z = .vec s (shiftStep^[i] (v, shift)).1) ∧
    w = .idx (shiftStep^[i] (v, shift)).2) ⟨_, _, h0, ev_cst _, ⟨s0, rfl⟩, rfl⟩ rfl ?_
    (fun z w h => h.1)
  rintro i hi _ _ ⟨⟨s, rfl⟩, rfl⟩
  simp only [Function.iterate_succ_apply']
  have hk := hok i hi
  have e := shiftStep_shift i (v, shift)
  simp only at e
  rw [← e] at hk
  obtain ⟨t, ht⟩ := ev_add (ok := ok) (env := setVar (setVar (setVar env 7 (.idx (i : Int))) 8
    (.vec s (shiftStep^[i] (v, shift)).1)) 9 (.idx (shiftStep^[i] (v, shift)).2))
    ⟨_, ev_var (x := 8) rfl⟩ (ev_rotD ⟨_, ev_var (x := 8) rfl⟩ (ev_var (x := 9) rfl) hk)
  exact ⟨_, _, eval_yield2 ht (ev_op1 (ev_var rfl) (by simp [kPure, shiftStep])), ⟨t, rfl⟩, rfl⟩

omit [DecidableEq R] in
theorem shiftStep_pow (m k : Nat) (v : Slots R N) :
    (shiftStep^[k] (v, 2 ^ (m + k) / 2)).1 = ∑ i ∈ range (2 ^ k), rot ((i * 2 ^ m : Nat) : Int) v := by
  induction k generalizing v with
  | zero => simp [rot_zero]
  | succ k ih =>
    rw [Function.iterate_succ_apply]
    have e : 2 ^ (m + (k + 1)) / 2 = 2 ^ (m + k) := by rw [← Nat.add_assoc, pow_succ]; omega
    rw [e]
    show (shiftStep^[k] (v + rot _ v, 2 ^ (m + k) / 2)).1 = _
    rw [ih, pow_succ 2 k, Nat.mul_two, sum_range_add, ← sum_add_distrib]
    refine sum_congr rfl fun i _ => ?_
    rw [rot_add, rot_rot]
    congr 2
    push_cast; ring

theorem squatSum_ok {env : Env (Val R N)} (unroll : Bool) (r c : Nat) (hc : c < 2 ^ 31)
    {e : KExpr R N} {v : Slots R N} (h : EvV ok env e v)
    (hok : ∀ i, i < c - r → ok ((2 ^ c / 2 / 2 ^ i : Nat) : Int) = true) :
    EvV ok env (squatSum unroll (2 ^ r) (2 ^ c) e)
      (∑ i ∈ range (2 ^ (c - r)), rot ((i * 2 ^ r : Nat) : Int) v) := by
  unfold squatSum
  rw [Nat.log_pow (by omega), Nat.log_pow (by omega)]
  by_cases he : 2 ^ r = 2 ^ c
  · rw [if_pos he]
    have : r = c := Nat.pow_right_injective le_rfl he
    subst this
    simpa [rot_zero] using h
  · rw [if_neg he]
    by_cases hrc : r ≤ c
    · have := shiftStep_pow r (c - r) v
      rw [Nat.add_sub_cancel' hrc] at this
      rw [← this]
      cases unroll
      · exact shiftRolled_ok _ _ (by omega) h hok
      · exact shiftLoop_ok _ _ h hok
    · have h0 : c - r = 0 := by omega
      rw [h0]
      have hv : (∑ i ∈ range (2 ^ 0), rot ((i * 2 ^ r : Nat) : Int) v) = v := by simp [rot_zero]
      rw [hv]
      cases unroll
      · exact shiftRolled_ok (v := v) _ 0 (by omega) h (by simp)
      · exact h

/-! ## The diagonal layout -/

omit [CommRing R] [DecidableEq R] in
/-- Values at natural positions. -/
theorem rot_nat (a : Nat) (v : Slots R N) (s : Nat) : rot (a : Int) v (s : ZMod N) = v ((s + a : Nat) : ZMod N) := by
  simp [rot]

omit [DecidableEq R] in
/-- The sum computed by the Halevi-Shoup kernel, `P = 2 ^ r` padded rows and `Q = 2 ^ c` padded
columns dividing the slot count. -/
theorem squat_sum {r c : Nat} (hr : 2 ^ r ∣ N) (hc : 2 ^ c ∣ N) (AA : Nat → Nat → R) (X : Nat → R)
    (D : Nat → Slots R N) (v : Slots R N)
    (hv : ∀ t : Nat, v (t : ZMod N) = X (t % 2 ^ c))
    (hD : ∀ d, d < 2 ^ min r c → ∀ t : Nat, t < N → D d (t : ZMod N) = AA (t % 2 ^ r) ((d + t) % 2 ^ c))
    (hN : 0 < N) (s : Nat) :
    (∑ i ∈ range (2 ^ (c - r)), rot ((i * 2 ^ r : Nat) : Int)
      (∑ d ∈ range (2 ^ min r c), D d * rot (d : Int) v)) (s : ZMod N) =
      ∑ j ∈ range (2 ^ c), AA (s % 2 ^ r) j * X j := by
  have hmodN : ∀ t : Nat, ((t % N : Nat) : ZMod N) = t := fun t => by simp
  have hD' : ∀ d, d < 2 ^ min r c → ∀ t : Nat, D d (t : ZMod N) = AA (t % 2 ^ r) ((d + t) % 2 ^ c) := by
    intro d hd t
    rw [← hmodN t, hD d hd _ (Nat.mod_lt _ hN), Nat.mod_mod_of_dvd _ hr]
    congr 1
    rw [Nat.add_mod, Nat.mod_mod_of_dvd _ hc, ← Nat.add_mod]
  rw [Finset.sum_apply]
  have step : ∀ i ∈ range (2 ^ (c - r)), rot ((i * 2 ^ r : Nat) : Int)
      (∑ d ∈ range (2 ^ min r c), D d * rot (d : Int) v) (s : ZMod N) =
      ∑ d ∈ range (2 ^ min r c), (fun k => (fun j => AA (s % 2 ^ r) j * X j) ((s + k * 1) % 2 ^ c))
        (i * 2 ^ min r c + d) := by
    intro i hi
    rw [rot_nat, Finset.sum_apply]
    refine sum_congr rfl fun d hd => ?_
    rw [Pi.mul_apply, rot_nat, hv, hD' d (mem_range.1 hd), Nat.add_mul_mod_self_right]
    have e : i * 2 ^ r = i * 2 ^ min r c := by
      by_cases h : r ≤ c
      · rw [min_eq_left h]
      · have : c - r = 0 := by omega
        rw [this] at hi
        have : i = 0 := by simpa using hi
        subst this; simp
    rw [e]
    simp only [mul_one]
    rw [show d + (s + i * 2 ^ min r c) = s + (i * 2 ^ min r c + d) by omega,
      show s + i * 2 ^ min r c + d = s + (i * 2 ^ min r c + d) by omega]
  rw [sum_congr rfl step, sum_split
    (fun k => (fun j => AA (s % 2 ^ r) j * X j) ((s + k * 1) % 2 ^ c))]
  have e : 2 ^ (c - r) * 2 ^ min r c = 2 ^ c := by rw [← pow_add]; congr 1; omega
  rw [e, sum_steps s Nat.one_le_two_pow (Nat.coprime_one_right _) fun j => AA (s % 2 ^ r) j * X j]

end Heir.Kernel
