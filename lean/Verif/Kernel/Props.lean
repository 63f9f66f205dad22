import Verif.Kernel.Spec
import Verif.Kernel.Cyclic
import Verif.Kernel.Pow2
import Verif.Layout.Spec
import Mathlib.Data.Int.ModEq
import Mathlib.Tactic.IntervalCases

/-! # Properties of the kernels -/

namespace Heir.Kernel

open Heir.Dag Heir.Layout Heir.NumTheory Finset

variable {R : Type} {N : Nat} [CommRing R] [DecidableEq R]

/-! ## C31: accumulation -/

/-- C31 (sum): exact when the number of steps is a power of two; other step counts are wrong,
see below. -/
theorem C31_accum_add_partial (k : Nat) (period : Int) (v : Slots R N) :
    Computes anyKey (accum addE period (2 ^ k) (leafV v))
      (fun t => ∑ i ∈ range (2 ^ k), v (t + ((i * period : Int) : ZMod N))) := by
  intro env
  have := accumLoop_ok (ok := anyKey) (env := env) addE (· + ·) (fun ha hb => ev_add ha hb) period
    (2 ^ k / 2) (fun _ _ => rfl) ⟨_, ev_leafV v⟩
  rw [fold_add_pow rot rot_zero rot_add rot_rot] at this
  obtain ⟨s, hs⟩ := this
  refine ⟨s, hs.trans ?_⟩
  congr 3
  funext t
  simp [Finset.sum_apply, rot]

/-- C31 (product). -/
theorem C31_accum_mul_partial (k : Nat) (period : Int) (v : Slots R N) :
    Computes anyKey (accum mulE period (2 ^ k) (leafV v))
      (fun t => ∏ i ∈ range (2 ^ k), v (t + ((i * period : Int) : ZMod N))) := by
  intro env
  have := accumLoop_ok (ok := anyKey) (env := env) mulE (· * ·) (fun ha hb => ev_mul ha hb) period
    (2 ^ k / 2) (fun _ _ => rfl) ⟨_, ev_leafV v⟩
  rw [fold_mul_pow rot rot_zero rot_mul rot_rot] at this
  obtain ⟨s, hs⟩ := this
  refine ⟨s, hs.trans ?_⟩
  congr 3
  funext t
  simp [Finset.prod_apply, rot]

/-- C31: the rolled loop and the unrolled one agree for every number of steps. -/
theorem C31_rolled (period : Int) (steps : Nat) (hs : steps < 2 ^ 63) (v : Slots R N) :
    (∃ w, Computes anyKey (accum addE period steps (leafV v)) w ∧
      Computes anyKey (accumRolled addE period steps (leafV v)) w) ∧
    (∃ w, Computes anyKey (accum mulE period steps (leafV v)) w ∧
      Computes anyKey (accumRolled mulE period steps (leafV v)) w) := by
  refine ⟨⟨fold (· + ·) rot period (steps / 2) v, fun env => ?_, fun env => ?_⟩,
    ⟨fold (· * ·) rot period (steps / 2) v, fun env => ?_, fun env => ?_⟩⟩
  · exact accumLoop_ok addE (· + ·) (fun ha hb => ev_add ha hb) period _ (fun _ _ => rfl)
      ⟨_, ev_leafV v⟩
  · exact accumRolled_ok addE (· + ·) (fun ha hb => ev_add ha hb) period _ hs (fun _ _ => rfl)
      ⟨_, ev_leafV v⟩
  · exact accumLoop_ok mulE (· * ·) (fun ha hb => ev_mul ha hb) period _ (fun _ _ => rfl)
      ⟨_, ev_leafV v⟩
  · exact accumRolled_ok mulE (· * ·) (fun ha hb => ev_mul ha hb) period _ hs (fun _ _ => rfl)
      ⟨_, ev_leafV v⟩

/-- C31 fails for every number of steps that is not a power of two: on the all-ones vector no slot
of the result is the sum. -/
theorem C31_accum_violated (period : Int) (steps : Nat) (hs : ∀ k, steps ≠ 2 ^ k) :
    ∃ w : Slots ℤ N, Computes anyKey (accum addE period steps (leafV fun _ => 1)) w ∧
      ∀ t, w t ≠ ∑ _i ∈ range steps, 1 := by
  refine ⟨_, fun env => accumLoop_ok addE (· + ·) (fun ha hb => ev_add ha hb) period _
    (fun _ _ => rfl) ⟨_, ev_leafV _⟩, fun t => ?_⟩
  rw [fold_const]
  simp only [one_mul, sum_const, card_range, nsmul_eq_mul, mul_one]
  intro h
  exact hs _ (by exact_mod_cast h.symm)

example : ∀ k, (6 : Nat) ≠ 2 ^ k := by
  intro k h
  obtain h1 | h1 : k ≤ 2 ∨ 3 ≤ k := by omega
  · interval_cases k <;> omega
  · have := Nat.pow_le_pow_right (n := 2) (by omega) h1
    omega

/-! ## C32: baby-step giant-step -/

omit [DecidableEq R] in
theorem diagSum_eq (D : Nat → Slots R N) (v : Slots R N) (period : Int) (steps : Nat) :
    ∑ c ∈ range steps, D c * rot (c * period) v = diagSum D v period steps := by
  funext t
  simp [diagSum, Finset.sum_apply, rot]

/-- C32: the unrolled kernel, when every declared diagonal is zero. -/
theorem C32_bsgs (m : List (Slots R N)) (v : Slots R N) (period : Int) (steps : Nat)
    (skip : Nat → Bool) (D : Nat → Slots R N) (hs : 1 ≤ steps)
    (hD : ∀ c, c < steps → m[c]? = some (D c))
    (hskip : ∀ c, c < steps → skip c = true → D c = 0) :
    ∃ e, rotateAndReduce m v period steps skip = some e ∧
      Computes anyKey e (diagSum D v period steps) := by
  obtain ⟨e, h1, h2⟩ := rotateAndReduce_ok (ok := anyKey) (v := v) (period := period) hs hD hskip
    (fun _ _ => rfl) (fun _ _ => rfl)
  rw [diagSum_eq] at h2
  exact ⟨e, h1, h2⟩

/-- C32: the rolled kernel. -/
theorem C32_bsgsRolled (m : List (Slots R N)) (v : Slots R N) (period : Int) (steps : Nat)
    (zeros : List (Int × Bool)) (D : Nat → Slots R N) (hs : 1 ≤ steps) (hs' : steps < 2 ^ 31)
    (hD : ∀ c, c < steps → m[c]? = some (D c))
    (hskip : ∀ c, c < steps → ((c : Int), true) ∈ zeros → D c = 0) :
    ∃ e, rotateAndReduceRolled m v period steps zeros = some e ∧
      Computes anyKey e (diagSum D v period steps) := by
  obtain ⟨e, h1, h2⟩ := rotateAndReduceRolled_ok (ok := anyKey) (v := v) (period := period) hs hs' hD
    hskip (fun _ _ => rfl) (fun _ _ => rfl)
  rw [diagSum_eq] at h2
  exact ⟨e, h1, h2⟩

/-- C32: any split into baby and giant steps. -/
theorem C32_any_split (b : Nat) (hb : 1 ≤ b) (m : List (Slots R N)) (v : Slots R N) (period : Int)
    (steps : Nat) (D : Nat → Slots R N) (hD : ∀ c, c < steps → m[c]? = some (D c)) :
    Computes anyKey (bsgsWith b steps period (fun _ => false) (fun c => extractE (leafM m) c)
      (defaultRot b period) (leafV v)) (diagSum D v period steps) := by
  intro env
  have h1 := bsgsWith_ok (ok := anyKey) (env := env) (b := b) (steps := steps) (period := period)
    (skip := fun _ => false) (P := D) (rotIdx := defaultRot b period) (v := v)
    (extr := fun c => extractE (leafM m) c) (ve := leafV v)
    (fun c hc => ev_extract (ev_leafM m) (hD c hc)) ⟨_, ev_leafV v⟩ (fun h => by simp at h)
    (fun _ _ _ => rfl) (fun _ _ => rfl)
  rw [bsgs_sum hb period _ D _ v D] at h1
  · rw [diagSum_eq] at h1; exact h1
  · intro c _ _
    rw [rot_rot]
    have : period * ((c / b : Nat) : Int) * (b : Int) + defaultRot b period (c / b) (c % b) = 0 := by
      unfold defaultRot; ring
    rw [this, rot_zero]
  · intro c hc h; simp at h

/-- C32: the naive kernel is the diagonal sum with period one. -/
theorem C32_naive (m : List (Slots R N)) (v : Slots R N) (D : Nat → Slots R N) (hm : m ≠ [])
    (hD : ∀ c, c < m.length → m[c]? = some (D c)) :
    ∃ e, matvec m v = some e ∧ Computes anyKey e (diagSum D v 1 m.length) := by
  have hl : 0 < m.length := List.length_pos_of_ne_nil hm
  unfold matvec
  rw [if_pos hl]
  refine ⟨_, rfl, fun env => ?_⟩
  have := matvecLoop_ok (ok := anyKey) (env := env) (v := v) (D := D) (m.length - 1)
    (fun i hi => hD i (by omega)) (fun _ _ => rfl)
  rw [Nat.sub_add_cancel hl] at this
  rw [← diagSum_eq]
  simp only [mul_one]
  exact this

omit [DecidableEq R] in
/-- C32 needs a step: without one the kernel divides by zero. -/
theorem C32_no_steps (m : List (Slots R N)) (v : Slots R N) (period : Int) (skip : Nat → Bool)
    (zeros : List (Int × Bool)) :
    rotateAndReduce m v period 0 skip = none ∧ rotateAndReduceRolled m v period 0 zeros = none :=
  ⟨rfl, rfl⟩

/-- The two variants read the map of zero diagonals differently: an entry mapped to `false` is
skipped by the unrolled kernel (`contains`) and kept by the rolled one. -/
theorem C32_false_entries_differ :
    ∃ (m : List (Slots ℤ 2)) (v : Slots ℤ 2) (e e' : KExpr ℤ 2) (w w' : Slots ℤ 2),
      rotateAndReduce m v 1 1 (fun c => c == 0) = some e ∧
      rotateAndReduceRolled m v 1 1 [(0, false)] = some e' ∧
      Computes anyKey e w ∧ Computes anyKey e' w' ∧ w ≠ w' := by
  refine ⟨[fun _ => 1], fun _ => 1, .op0 (.splat 0), _, fun _ => 0, diagSum (fun _ _ => 1) (fun _ => 1) 1 1,
    rfl, rfl, fun env => ⟨false, rfl⟩, ?_, ?_⟩
  · obtain ⟨e, h1, h2⟩ := C32_bsgsRolled (R := ℤ) (N := 2) [fun _ => 1] (fun _ => 1) 1 1 [(0, false)]
      (fun _ _ => 1) (by omega) (by omega) (by intro c hc; interval_cases c; rfl)
      (by intro c _ h; simp at h)
    have h3 := Option.some.inj h1
    rw [← h3] at h2
    exact h2
  · intro h
    have := congrFun h 0
    simp [diagSum] at this

example : ∃ e, rotateAndReduce (N := 4) [fun _ => (2 : ℤ), fun _ => 0, fun _ => 3] (fun t => t.val)
      1 3 (fun c => c == 1) = some e ∧
    Computes anyKey e (diagSum (fun c _ => if c = 0 then 2 else if c = 1 then 0 else 3)
      (fun t => t.val) 1 3) :=
  C32_bsgs _ _ 1 3 _ _ (by omega) (by intro c hc; interval_cases c <;> rfl)
    (by intro c _ h; simp only [beq_iff_eq] at h; subst h; rfl)

/-! ## C36: rotation keys -/

theorem mem_accumIndices (period : Int) (shift k : Nat) (h : 0 < shift / 2 ^ k) :
    ((shift / 2 ^ k : Nat) : Int) * period ∈ accumIndices period shift := by
  induction k generalizing shift with
  | zero =>
    rw [pow_zero, Nat.div_one] at h ⊢
    rw [accumIndices, if_pos h]; exact List.mem_cons_self
  | succ k ih =>
    have h0 : 0 < shift := by
      rcases Nat.eq_zero_or_pos shift with h0 | h0
      · subst h0; simp at h
      · exact h0
    rw [pow_succ', ← Nat.div_div_eq_div_mul] at h ⊢
    rw [accumIndices, if_pos h0]
    exact List.mem_cons_of_mem _ (ih _ h)

/-- C36: without plaintexts, the kernel (rolled or not, with sums or products) succeeds and returns
the same value when only the declared keys exist. -/
theorem C36_accum (period : Int) (steps : Nat) (hs : steps < 2 ^ 63) (v : Slots R N) :
    ∃ keys, rotationIndices period steps false = some keys ∧
      (∃ w, Computes (onlyKeys keys) (accum addE period steps (leafV v)) w ∧
        Computes (onlyKeys keys) (accumRolled addE period steps (leafV v)) w ∧
        Computes anyKey (accum addE period steps (leafV v)) w) ∧
      (∃ w, Computes (onlyKeys keys) (accum mulE period steps (leafV v)) w ∧
        Computes (onlyKeys keys) (accumRolled mulE period steps (leafV v)) w ∧
        Computes anyKey (accum mulE period steps (leafV v)) w) := by
  have hk : ∀ k, 0 < steps / 2 / 2 ^ k →
      onlyKeys (accumIndices period (steps / 2)) ((steps / 2 / 2 ^ k : Nat) * period) = true := by
    intro k h
    simp only [onlyKeys, Bool.or_eq_true, List.contains_eq_mem, decide_eq_true_eq]
    exact Or.inr (mem_accumIndices period (steps / 2) k h)
  refine ⟨accumIndices period (steps / 2), rfl,
    ⟨fold (· + ·) rot period (steps / 2) v, fun env => ?_, fun env => ?_, fun env => ?_⟩,
    ⟨fold (· * ·) rot period (steps / 2) v, fun env => ?_, fun env => ?_, fun env => ?_⟩⟩
  · exact accumLoop_ok addE (· + ·) (fun ha hb => ev_add ha hb) period _ hk ⟨_, ev_leafV v⟩
  · exact accumRolled_ok addE (· + ·) (fun ha hb => ev_add ha hb) period _ hs hk ⟨_, ev_leafV v⟩
  · exact accumLoop_ok addE (· + ·) (fun ha hb => ev_add ha hb) period _ (fun _ _ => rfl)
      ⟨_, ev_leafV v⟩
  · exact accumLoop_ok mulE (· * ·) (fun ha hb => ev_mul ha hb) period _ hk ⟨_, ev_leafV v⟩
  · exact accumRolled_ok mulE (· * ·) (fun ha hb => ev_mul ha hb) period _ hs hk ⟨_, ev_leafV v⟩
  · exact accumLoop_ok mulE (· * ·) (fun ha hb => ev_mul ha hb) period _ (fun _ _ => rfl)
      ⟨_, ev_leafV v⟩

theorem baby_key (period : Int) (steps : Nat) (keys : List Int) (hs : 1 ≤ steps)
    (hk : rotationIndices period steps true = some keys) :
    (∀ i : Nat, i < ceilSqrt steps → onlyKeys keys (period * i) = true) ∧
    (∀ j : Nat, j < giantSteps steps → onlyKeys keys (period * j * ceilSqrt steps) = true) := by
  simp only [rotationIndices, if_true, if_neg (show ¬ steps = 0 by omega), Option.some.injEq] at hk
  subst hk
  constructor
  · intro i hi
    rcases Nat.eq_zero_or_pos i with h | h
    · subst h; simp [onlyKeys]
    · simp only [onlyKeys, Bool.or_eq_true, List.contains_eq_mem, decide_eq_true_eq, List.mem_append,
        List.mem_map, List.mem_range']
      exact Or.inr (Or.inl ⟨i, ⟨i - 1, by omega, by omega⟩, rfl⟩)
  · intro j hj
    rcases Nat.eq_zero_or_pos j with h | h
    · subst h; simp [onlyKeys]
    · simp only [onlyKeys, Bool.or_eq_true, List.contains_eq_mem, decide_eq_true_eq, List.mem_append,
        List.mem_map, List.mem_range']
      unfold giantSteps at hj
      exact Or.inr (Or.inr ⟨j, ⟨j - 1, by omega, by omega⟩, rfl⟩)

/-- C36: with plaintexts, both variants succeed and return the diagonal sum when only the declared
keys exist. -/
theorem C36_bsgs (m : List (Slots R N)) (v : Slots R N) (period : Int) (steps : Nat)
    (zeros : List (Int × Bool)) (D : Nat → Slots R N) (hs : 1 ≤ steps) (hs' : steps < 2 ^ 31)
    (hD : ∀ c, c < steps → m[c]? = some (D c))
    (hskip : ∀ c b, c < steps → ((c : Int), b) ∈ zeros → D c = 0) :
    ∃ keys e e', rotationIndices period steps true = some keys ∧
      rotateAndReduce m v period steps (fun c => (zeros.map Prod.fst).contains (c : Int)) = some e ∧
      rotateAndReduceRolled m v period steps zeros = some e' ∧
      Computes (onlyKeys keys) e (diagSum D v period steps) ∧
      Computes (onlyKeys keys) e' (diagSum D v period steps) := by
  obtain ⟨keys, hk⟩ : ∃ keys, rotationIndices period steps true = some keys := by
    simp only [rotationIndices, if_true, if_neg (show ¬ steps = 0 by omega)]
    exact ⟨_, rfl⟩
  obtain ⟨hB, hG⟩ := baby_key period steps keys hs hk
  obtain ⟨e, h1, h2⟩ := rotateAndReduce_ok (ok := onlyKeys keys) (v := v) (period := period)
    (skip := fun c => (zeros.map Prod.fst).contains (c : Int)) hs hD (by
      intro c hc h
      simp only [List.contains_eq_mem, decide_eq_true_eq, List.mem_map] at h
      obtain ⟨⟨z, b⟩, hz, e⟩ := h
      simp only at e
      subst e
      exact hskip c b hc hz) hB hG
  obtain ⟨e', h1', h2'⟩ := rotateAndReduceRolled_ok (ok := onlyKeys keys) (v := v) (period := period)
    (zeros := zeros) hs hs' hD (fun c hc h => hskip c true hc h) hB hG
  rw [diagSum_eq] at h2 h2'
  exact ⟨keys, e, e', hk, h1, h1', h2, h2'⟩

example : rotationIndices 2 5 true = some [2, 4, 6] := by
  have h : Nat.sqrt 5 = 2 := (Nat.eq_sqrt.2 (by omega)).symm
  simp [rotationIndices, ceilSqrt, h, List.range']
example : rotationIndices 3 8 false = some [12, 6, 3] := by
  simp [rotationIndices, accumIndices]

theorem normalizeRotation_eq {slots : Int} (h : 0 < slots) (r : Int) :
    normalizeRotation r slots = r % slots := by
  unfold normalizeRotation
  have h1 := Int.tmod_lt_of_pos r h
  have h2 : -slots < r.tmod slots := by
    have := Int.lt_tmod_of_pos r h
    omega
  rw [Int.tmod_eq_emod_of_nonneg (by omega), Int.add_emod_right, Int.tmod_eq_emod]
  split
  · simp
  · rw [Int.sub_emod]
    have : ((slots.natAbs : Int)) % slots = 0 := by
      rw [Int.natAbs_of_nonneg h.le, Int.emod_self]
    rw [this]; simp

theorem bestRatio_pos (diags : List Int) (slots : Int) (maxRatio : Int) (hm : 0 < maxRatio)
    (fuel : Nat) (n1 : Int) (h1 : 1 ≤ n1) : 1 ≤ bestRatioLoop diags slots maxRatio fuel n1 := by
  induction fuel generalizing n1 with
  | zero => simp [bestRatioLoop]
  | succ fuel ih =>
    unfold bestRatioLoop
    split
    · simp only
      split
      · rename_i hpos
        split
        · exact h1
        · split
          · rename_i hgt
            obtain h | h : n1 = 1 ∨ 2 ≤ n1 := by omega
            · exfalso
              subst h
              have hall : ∀ x ∈ (diags.map fun d => (splitRotation 1 slots d).2), x = 0 := by
                intro x hx
                obtain ⟨d, _, rfl⟩ := List.mem_map.1 hx
                simp [splitRotation, Int.tmod_one]
              have hle : ((diags.map fun d => (splitRotation 1 slots d).2).dedup).length ≤ 1 := by
                have hn := List.nodup_dedup (diags.map fun d => (splitRotation 1 slots d).2)
                have hs : ((diags.map fun d => (splitRotation 1 slots d).2).dedup) ⊆ [0] := by
                  intro x hx
                  rw [List.mem_dedup] at hx
                  simp [hall x hx]
                exact (List.subperm_of_subset hn hs).length_le
              have := Int.mul_pos hm hpos
              omega
            · rw [Int.tdiv_eq_ediv_of_nonneg (by omega)]; omega
          · exact ih _ (by omega)
      · exact ih _ (by omega)
    · exact le_rfl

/-- C36: the keys of a linear transform.  For every list of diagonals and every ratio there is one
positive split for which every diagonal is, modulo the slot count, the sum of a giant step (a
multiple of the split) and a baby step (below the split), each zero or declared. -/
theorem C36_lintrans (diags : List Int) (slots : Int) (hs : 0 < slots) (logBSGS : Int) :
    ∃ n1 : Int, 1 ≤ n1 ∧ ∀ d ∈ diags, ∃ giant baby : Int,
      giant + baby ≡ d [ZMOD slots] ∧ n1 ∣ giant ∧ 0 ≤ baby ∧ baby < n1 ∧
      0 ≤ giant ∧ giant + baby < slots ∧
      (giant = 0 ∨ giant ∈ lintransIndices diags slots logBSGS) ∧
      (baby = 0 ∨ baby ∈ lintransIndices diags slots logBSGS) := by
  set n1 : Int := if logBSGS < 0 then slots else findBestBSGSRatio diags slots logBSGS.toNat
    with hn
  have h1 : 1 ≤ n1 := by
    rw [hn]
    split
    · omega
    · exact bestRatio_pos _ _ _ (by positivity) _ _ le_rfl
  refine ⟨n1, h1, fun d hd => ?_⟩
  have hr0 := Int.emod_nonneg d (show slots ≠ 0 by omega)
  have hr1 := Int.emod_lt_of_pos d hs
  have hdm := Int.mul_ediv_add_emod (d % slots) n1
  have hb0 := Int.emod_nonneg (d % slots) (show n1 ≠ 0 by omega)
  have hb1 := Int.emod_lt_of_pos (d % slots) (show 0 < n1 by omega)
  have hq0 := Int.ediv_nonneg hr0 (show 0 ≤ n1 by omega)
  have hg0 : 0 ≤ d % slots / n1 * n1 := Int.mul_nonneg hq0 (by omega)
  have hg1 : d % slots / n1 * n1 + d % slots % n1 = d % slots := by rw [Int.mul_comm]; exact hdm
  have e : splitRotation n1 slots d = (d % slots / n1 * n1, d % slots % n1) := by
    unfold splitRotation
    rw [normalizeRotation_eq hs]
    simp only [normalizeRotation_eq hs]
    rw [Int.tdiv_eq_ediv_of_nonneg hr0, Int.tmod_eq_emod_of_nonneg hr0,
      Int.emod_eq_of_lt hg0 (by omega)]
  refine ⟨d % slots / n1 * n1, d % slots % n1, ?_, ⟨_, Int.mul_comm _ _⟩, hb0, hb1, hg0, by omega, ?_, ?_⟩
  · rw [hg1]; exact Int.mod_modEq _ _
  · by_cases h : d % slots / n1 * n1 = 0
    · exact Or.inl h
    · right
      unfold lintransIndices
      simp only [List.mem_flatMap]
      refine ⟨d, hd, ?_⟩
      rw [← hn, e]
      simp only [h, ne_eq, not_false_eq_true, if_true]
      simp
  · by_cases h : d % slots % n1 = 0
    · exact Or.inl h
    · right
      unfold lintransIndices
      simp only [List.mem_flatMap]
      refine ⟨d, hd, ?_⟩
      rw [← hn, e]
      simp only [h, ne_eq, not_false_eq_true, if_true]
      simp

example : lintransIndices [0, 3, -1] 8 (-1) = [3, 7] := by decide

end Heir.Kernel
