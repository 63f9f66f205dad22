import Verif.Halo.Lemmas2

/-!
# Lemmas for C148–C151: exactness, unrolling, peeling
-/

namespace Heir.Halo

variable {V : Type}

/-! ### iteration spaces -/

theorem trips_tail (b : Bounds) (hs : 0 < b.step) (c : Nat) :
    ({ b with lb := b.lb + c * b.step } : Bounds).trips = b.trips - c := by
  simp only [Bounds.trips]
  have : b.ub - (b.lb + c * b.step) + b.step - 1
      = (b.ub - b.lb + b.step - 1) + (-(c : Int)) * b.step := by
    rw [Int.neg_mul]; omega
  rw [this, Int.add_mul_ediv_right _ _ (by omega)]
  omega

theorem range_mul (q k : Nat) :
    List.range (q * k) = (List.range q).flatMap fun t => (List.range k).map fun j => t * k + j := by
  induction q with
  | zero => simp
  | succ q ih =>
    rw [Nat.succ_mul, List.range_add, ih, List.range_succ, List.flatMap_append]
    simp

theorem unroll_iv (b : Bounds) (hs : 0 < b.step) (k : Nat) (hk : 0 < k) :
    (unroll b k).map Seg.iv = b.ivs := by
  have hn : b.trips = b.trips / k * k + b.trips % k := by
    rw [Nat.mul_comm]; exact (Nat.div_add_mod _ _).symm
  have hrest : ({ b with lb := b.lb + (b.trips / k : Nat) * k * b.step } : Bounds).trips
      = b.trips % k := by
    have := trips_tail b hs (b.trips / k * k)
    push_cast at this
    push_cast
    rw [this]; omega
  have hmain : b.ivs = ((List.range (b.trips / k)).flatMap fun t : Nat =>
        (List.range k).map fun j : Nat => b.lb + t * (k * b.step) + j * b.step) ++
      (List.range (b.trips % k)).map
        fun t : Nat => b.lb + (b.trips / k : Nat) * k * b.step + t * b.step := by
    rw [Bounds.ivs]
    conv_lhs => rw [hn, List.range_add, List.map_append, range_mul, List.map_flatMap]
    congr 1
    · congr 1
      funext t
      rw [List.map_map]
      refine List.map_congr_left fun j _ => ?_
      simp only [Function.comp]
      push_cast
      rw [Int.add_mul, Int.mul_assoc]; omega
    · rw [List.map_map]
      refine List.map_congr_left fun j _ => ?_
      simp only [Function.comp]
      push_cast
      rw [Int.add_mul]; omega
  rw [unroll, List.map_append, List.map_flatMap, hmain]
  congr 1
  · congr 1
    funext t
    rw [chunk, List.map_map]
    rfl
  · split
    · next h1 => simp [h1]
    · rw [segs_iv, Bounds.ivs, hrest]

/-- All values of the induction variable of the two loops. -/
theorem peel_iv {b b1 b2 : Bounds} (hs : 0 < b.step) (h : peel b = some (b1, b2)) :
    b1.ivs = [b.lb] ∧ b1.ivs ++ b2.ivs = b.ivs := by
  have hpos : 0 < b.ub - b.lb := by
    by_contra hc
    have hf : fewIterations b = true := by
      rw [fewIterations, if_pos (show b.ub - b.lb ≤ 0 by omega)]
    simp [peel, hf] at h
  simp only [peel] at h
  split at h
  · cases h
  · simp only [Option.some.injEq, Prod.mk.injEq] at h
    obtain ⟨rfl, rfl⟩ := h
    have ht : 1 ≤ b.trips := by
      have : 1 ≤ (b.ub - b.lb + b.step - 1) / b.step := by
        rw [Int.le_ediv_iff_mul_le hs]; omega
      simp only [Bounds.trips]; omega
    have h1 : ({ b with ub := b.lb + b.step } : Bounds).ivs = [b.lb] := by
      have : ({ b with ub := b.lb + b.step } : Bounds).trips = 1 := by
        simp only [Bounds.trips]
        have : (b.lb + b.step - b.lb + b.step - 1) / b.step = 1 := by
          rw [show b.lb + b.step - b.lb + b.step - 1 = (b.step - 1) + 1 * b.step by omega,
            Int.add_mul_ediv_right _ _ (by omega), Int.ediv_eq_zero_of_lt (by omega) (by omega)]
          rfl
        rw [this]; rfl
      simp [Bounds.ivs, this]
    refine ⟨h1, ?_⟩
    have h2 := trips_tail b hs 1
    rw [show ((1 : Nat) : Int) * b.step = b.step by omega] at h2
    rw [h1, Bounds.ivs, h2, Bounds.ivs]
    obtain ⟨n, hn⟩ : ∃ n, b.trips = 1 + n := ⟨b.trips - 1, by omega⟩
    rw [hn, List.range_add, List.map_append, List.map_map]
    have : 1 + n - 1 = n := by omega
    rw [this]
    congr 1
    · simp
    · refine List.map_congr_left fun j _ => ?_
      simp only [Function.comp]
      push_cast
      rw [Int.add_mul]; omega

theorem flt_small {n : Nat} (h : n ≤ 2 ^ 24) : flt n = n := by
  rw [flt]
  by_cases hn : n < 2 ^ 24
  · rw [if_pos hn]
  · have : n = 2 ^ 24 := by omega
    subst this
    decide +kernel

theorem peel_iff {b : Bounds} (hs : 0 < b.step) (h1 : b.step ≤ 2 ^ 24)
    (h2 : b.ub - b.lb ≤ 2 ^ 24) : (peel b).isSome = true ↔ 2 ≤ b.trips := by
  have ht : 2 ≤ b.trips ↔ b.step < b.ub - b.lb := by
    have : 2 ≤ (b.ub - b.lb + b.step - 1) / b.step ↔ b.step < b.ub - b.lb := by
      rw [Int.le_ediv_iff_mul_le hs]; omega
    rw [← this]
    simp only [Bounds.trips]; omega
  rw [ht]
  simp only [peel, fewIterations]
  by_cases hp : b.ub - b.lb ≤ 0
  · simp only [hp, if_true]
    constructor
    · intro h; simp at h
    · intro h; omega
  · simp only [hp, if_false]
    rw [flt_small (by omega), flt_small (by omega)]
    by_cases hq : (b.ub - b.lb).toNat ≤ b.step.toNat
    · simp only [hq, decide_true, if_true]
      constructor
      · intro h; simp at h
      · intro h; omega
    · simp only [hq, decide_false, Bool.false_eq_true, if_false, Option.isSome_some, true_iff]
      omega

theorem iterV_append (f : Int → List V → Option (List V)) (a b : List Int) (st : List V) :
    iterV f (a ++ b) st = (iterV f a st).bind (iterV f b) := by
  induction a generalizing st with
  | nil => rfl
  | cons i a ih =>
    simp only [List.cons_append, iterV]
    cases f i st with
    | none => rfl
    | some s => exact ih s

/-! ### larger budgets -/

theorem good_mono {B B' : Nat} (h : B ≤ B') {s : LS} (hs : s.good B) : s.good B' := by
  cases s <;> simp only [LS.good] at *
  omega

theorem absOp_budget {L0 B B' : Nat} (hB : B ≤ B') {env : List LS} (o : Op) {s : LS}
    (h : absOp L0 B env o = some s) (hs : s ≠ .invalid) : absOp L0 B' env o = some s := by
  cases o with
  | pure fn xs =>
    simp only [absOp, Option.map_eq_some_iff] at h
    obtain ⟨a, h1, rfl⟩ := h
    simp only [absOp, h1, Option.map_some]
    rw [(clip_valid hs).1, clip_good (good_mono hB (clip_valid hs).2)]
  | reduce k x =>
    simp only [absOp, Option.map_eq_some_iff] at h
    obtain ⟨a, h1, rfl⟩ := h
    simp only [absOp, h1, Option.map_some]
    rw [(clip_valid hs).1, clip_good (good_mono hB (clip_valid hs).2)]
  | reduceMin x =>
    simp only [absOp, Option.map_eq_some_iff] at h
    obtain ⟨a, h1, rfl⟩ := h
    simp only [absOp, h1, Option.map_some]
    rw [(clip_valid hs).1, clip_good (good_mono hB (clip_valid hs).2)]
  | bootstrap x =>
    simp only [absOp, Option.map_eq_some_iff] at h
    obtain ⟨a, h1, rfl⟩ := h
    simp only [absOp, h1, Option.map_some]
    rw [(clip_valid hs).1, clip_good (good_mono hB (clip_valid hs).2)]

theorem Ok.budget {L0 B B' : Nat} (hB : B ≤ B') (p : Prog) {env out : List LS}
    (h : Ok L0 B p env out) : Ok L0 B' p env out := by
  induction p generalizing env out with
  | ret ys => exact h
  | op o rest ih =>
    obtain ⟨s, h1, h2, h3⟩ := h
    exact ⟨s, absOp_budget hB o h1 h2, h2, ih h3⟩
  | loop b flags inits body rest ihb ihr =>
    obtain ⟨ini, sts, outs, h1, h2, h3, h4, h5, h6, h7, h7', h8⟩ := h
    exact ⟨ini, sts, outs, h1, h2, h3, fun s hs => good_mono hB (h4 s hs),
      fun s hs => good_mono hB (h5 s hs), ihb h6, h7, h7', ihr h8⟩
  | ite c t e rest iht ihe ihr =>
    obtain ⟨a, b, hc, h1, h2, h3, h4⟩ := h
    exact ⟨a, b, hc, iht h1, ihe h2, h3, ihr h4⟩

/-! ### copies of a body -/

theorem boots_between (L0 : Nat) (flags : List Bool) :
    boots L0 flags (between flags) = starts L0 flags := by
  induction flags with
  | nil => rfl
  | cons f fs ih =>
    simp only [between, starts, List.map_cons, boots] at *
    rw [ih]
    cases f <;> rfl

theorem mins_starts (L0 k : Nat) (flags : List Bool) :
    mins flags ((starts L0 flags).map (LS.shift k)) = between flags := by
  induction flags with
  | nil => rfl
  | cons f fs ih =>
    simp only [between, starts, List.map_cons, mins] at *
    rw [ih]
    cases f <;> rfl

theorem starts_between (L0 k : Nat) (flags : List Bool) :
    leAll ((starts L0 flags).map (LS.shift k)) (between flags) := by
  induction flags with
  | nil => exact .nil
  | cons f fs ih =>
    refine .cons ?_ ih
    cases f <;> rfl

theorem between_good (B : Nat) (flags : List Bool) : ∀ s ∈ between flags, s.good B := by
  intro s hs
  obtain ⟨f, -, rfl⟩ := List.mem_map.1 hs
  cases f <;> trivial

theorem starts_good {L0 B : Nat} (h : L0 ≤ B) (flags : List Bool) :
    ∀ s ∈ starts L0 flags, s.good B := by
  intro s hs
  obtain ⟨f, -, rfl⟩ := List.mem_map.1 hs
  cases f
  · trivial
  · exact h

theorem shift_all_good {B k : Nat} {a : List LS} (h : ∀ s ∈ a, s.good B) :
    ∀ s ∈ a.map (LS.shift k), s.good (B + k) := by
  intro s hs
  obtain ⟨t, ht, rfl⟩ := List.mem_map.1 hs
  exact shift_good (h t ht)

theorem le_shift_all (k : Nat) (a : List LS) : leAll a (a.map (LS.shift k)) := by
  induction a with
  | nil => exact .nil
  | cons s a ih => exact .cons (LS.le_shift k s) ih

theorem shift_shift_all (a b : Nat) (l : List LS) :
    (l.map (LS.shift a)).map (LS.shift b) = l.map (LS.shift (a + b)) := by
  rw [List.map_map]
  refine List.map_congr_left fun s _ => ?_
  exact LS.shift_shift a b s

theorem bootAll_off {L0 top : Nat} {flags : List Bool} {vs : List (CV V)}
    (h : flags.length = vs.length) : bootAll L0 top (off flags) vs = some vs := by
  induction flags generalizing vs with
  | nil => obtain rfl := List.length_eq_zero_iff.1 h.symm; rfl
  | cons f fs ih =>
    cases vs with
    | nil => simp at h
    | cons v vs =>
      have := ih (vs := vs) (by simpa using h)
      simp only [off, List.map_cons, bootAll, Bool.false_eq_true, if_false, Option.bind_some]
      rw [off] at this
      rw [this]; rfl

theorem minAll_off {flags : List Bool} {vs : List (CV V)}
    (h : flags.length = vs.length) : minAll (off flags) vs = some vs := by
  induction flags generalizing vs with
  | nil => obtain rfl := List.length_eq_zero_iff.1 h.symm; rfl
  | cons f fs ih =>
    cases vs with
    | nil => simp at h
    | cons v vs =>
      have := ih (vs := vs) (by simpa using h)
      simp only [off, List.map_cons, minAll, Bool.false_eq_true, if_false]
      rw [off] at this
      rw [this]; rfl

theorem starts_length (L0 k : Nat) (flags : List Bool) :
    ((starts L0 flags).map (LS.shift k)).length = flags.length := by simp [starts]

/-- What is needed of one copy of the body that starts `j * D` levels below a bootstrap. -/
def Copies (L0 top D k : Nat) (flags : List Bool)
    (f : Int → List (CV V) → Option (List (CV V))) : Prop :=
  ∀ j < k, ∀ i vs, RelAll top ((starts L0 flags).map (LS.shift (j * D))) vs →
    ∃ vs', f i vs = some vs' ∧ RelAll top ((starts L0 flags).map (LS.shift ((j + 1) * D))) vs'

theorem copies_of_ok {m : Sem V} {L0 B0 D top k : Nat} {flags : List Bool} {body : Prog}
    {env outs : List LS} {cenv : List (CV V)} (hL : L0 ≤ B0) (henv : ∀ s ∈ env, s.good B0)
    (hrel : RelAll top env cenv) (hok : Ok L0 B0 body (env ++ .uninit :: starts L0 flags) outs)
    (houts : leAll outs ((starts L0 flags).map (LS.shift D)))
    (hfit : B0 + (k - 1) * D ≤ top) :
    Copies L0 top D k flags
      (fun i st => eval m L0 top body (cenv ++ (m.iv i, none) :: st)) := by
  intro j hj i vs hvs
  have hjD : j * D ≤ (k - 1) * D := Nat.mul_le_mul_right _ (by omega)
  have hg : ∀ s ∈ env ++ .uninit :: (starts L0 flags).map (LS.shift (j * D)),
      s.good (B0 + j * D) :=
    good_append (fun s hs => good_mono (Nat.le_add_right _ _) (henv s hs)) (by
      intro s hs
      rcases List.mem_cons.1 hs with rfl | hs
      · trivial
      · exact shift_all_good (starts_good hL flags) s hs)
  obtain ⟨out', h1, h2⟩ := Ok.shift (j * D) body
    (env' := env ++ .uninit :: (starts L0 flags).map (LS.shift (j * D))) hok
    (by
      rw [List.map_append, List.map_cons]
      exact append_rel (le_shift_all _ _) (.cons (LS.le_refl _) (leAll_refl _))) hg
  have h3 := h1.budget (show B0 + j * D ≤ top by omega)
  obtain ⟨res, h4, h5⟩ := sound (m := m) body h3
    (fun s hs => good_mono (by omega) (hg s hs))
    (append_rel hrel (List.Forall₂.cons (b := ((m.iv i, none) : CV V))
      (show Rel top .uninit none from trivial) hvs))
  refine ⟨res, h4, ?_⟩
  have h6 : leAll out' ((starts L0 flags).map (LS.shift ((j + 1) * D))) := by
    refine leAll_trans h2 ?_
    have := shift_leAll (k := j * D) houts
    rw [shift_shift_all] at this
    rwa [show (j + 1) * D = D + j * D by rw [Nat.succ_mul, Nat.add_comm]]
  clear * - h5 h6
  have hne : ∀ s ∈ (starts L0 flags).map (LS.shift ((j + 1) * D)), s.good (L0 + (j + 1) * D) :=
    shift_all_good (starts_good (Nat.le_refl _) flags)
  generalize (starts L0 flags).map (LS.shift ((j + 1) * D)) = tt at h6 hne
  induction h6 generalizing res with
  | nil => cases h5; exact .nil
  | cons h _ ih =>
    cases h5 with
    | cons h1 h2 =>
      refine .cons (h1.mono h ?_) (ih _ h2 fun s hs => hne s (List.mem_cons_of_mem _ hs))
      have := hne _ (List.mem_cons_self)
      intro he; rw [he] at this; exact this

theorem RelAll.len {top : Nat} {ss : List LS} {vs : List (CV V)} (h : RelAll top ss vs) :
    ss.length = vs.length := h.length_eq

/-- The copies of one iteration of the unrolled loop after copy `j`. -/
theorem chunk_tail {L0 top D k : Nat} {flags : List Bool}
    {f : Int → List (CV V) → Option (List (CV V))} (hf : Copies L0 top D k flags f)
    (hL : L0 ≤ top) (step i : Int) (n j : Nat) (hj : j + n = k) (hn : 0 < n) (vs : List (CV V))
    (hr : RelAll top (if j = 0 then between flags
      else (starts L0 flags).map (LS.shift (j * D))) vs) (rest : List Seg) :
    ∃ vs', RelAll top (between flags) vs' ∧
      runSegs L0 top flags f
        (((List.range n).map fun t => ⟨i + (j + t : Nat) * step, decide (j + t = 0),
          decide (j + t + 1 = k)⟩) ++ rest) vs = runSegs L0 top flags f rest vs' := by
  induction n generalizing j vs with
  | zero => omega
  | succ n ih =>
    have hlen : flags.length = vs.length := by
      rw [← hr.len]; split <;> simp [between, starts]
    -- bootstrap
    obtain ⟨v1, b1, b2⟩ : ∃ v1, bootAll L0 top (if j = 0 then flags else off flags) vs = some v1 ∧
        RelAll top ((starts L0 flags).map (LS.shift (j * D))) v1 := by
      by_cases h0 : j = 0
      · subst h0
        rw [if_pos rfl] at hr ⊢
        obtain ⟨v1, h1, h2⟩ := bootAll_sound (L0 := L0) (flags := flags) hr (by simp [between])
          (by rw [boots_between]; exact starts_good hL flags)
        rw [boots_between] at h2
        refine ⟨v1, h1, ?_⟩
        rw [Nat.zero_mul]
        have : (starts L0 flags).map (LS.shift 0) = starts L0 flags := by
          rw [← List.map_id (starts L0 flags), List.map_map]
          refine List.map_congr_left fun s _ => ?_
          cases s <;> rfl
        rwa [this]
      · rw [if_neg h0] at hr ⊢
        exact ⟨vs, bootAll_off hlen, hr⟩
    obtain ⟨v2, c1, c2⟩ := hf j (by omega) (i + (j : Nat) * step) v1 b2
    have hlen2 : flags.length = v2.length := by rw [← c2.len]; simp [starts]
    rw [List.range_succ_eq_map, List.map_cons, List.cons_append]
    simp only [runSegs, Nat.add_zero, decide_eq_true_eq]
    rw [b1]
    simp only [Option.bind_some]
    rw [c1]
    simp only [Option.bind_some]
    by_cases hl : n = 0
    · subst hl
      obtain ⟨v3, d1, d2⟩ := minAll_sound (flags := flags) c2 (by simp [starts])
      rw [mins_starts] at d2
      refine ⟨v3, d2, ?_⟩
      rw [if_pos (by omega), d1]
      simp
    · rw [if_neg (by omega), minAll_off hlen2]
      simp only [Option.bind_some]
      obtain ⟨v3, e1, e2⟩ := ih (j + 1) (by omega) (by omega) v2 (by
        rw [if_neg (by omega)]; exact c2)
      refine ⟨v3, e1, ?_⟩
      rw [← e2, List.map_map]
      congr 2
      refine List.map_congr_left fun t _ => ?_
      simp only [Function.comp, Nat.succ_eq_add_one]
      rw [show j + (t + 1) = j + 1 + t by omega]

theorem chunk_sound {L0 top D k : Nat} {flags : List Bool}
    {f : Int → List (CV V) → Option (List (CV V))} (hf : Copies L0 top D k flags f)
    (hL : L0 ≤ top) (hk : 0 < k) (step i : Int) (vs : List (CV V))
    (hr : RelAll top (between flags) vs) (rest : List Seg) :
    ∃ vs', RelAll top (between flags) vs' ∧
      runSegs L0 top flags f (chunk step k i ++ rest) vs = runSegs L0 top flags f rest vs' := by
  obtain ⟨vs', h1, h2⟩ := chunk_tail hf hL step i k 0 (by omega) hk vs (by simpa using hr) rest
  refine ⟨vs', h1, ?_⟩
  rw [← h2, chunk]
  simp only [Nat.zero_add]

theorem chunks_sound {L0 top D k : Nat} {flags : List Bool}
    {f : Int → List (CV V) → Option (List (CV V))} (hf : Copies L0 top D k flags f)
    (hL : L0 ≤ top) (hk : 0 < k) (step : Int) (is : List Int) (vs : List (CV V))
    (hr : RelAll top (between flags) vs) (rest : List Seg) :
    ∃ vs', RelAll top (between flags) vs' ∧
      runSegs L0 top flags f (is.flatMap (chunk step k) ++ rest) vs
        = runSegs L0 top flags f rest vs' := by
  induction is generalizing vs with
  | nil => exact ⟨vs, hr, rfl⟩
  | cons i is ih =>
    obtain ⟨v1, h1, h2⟩ := chunk_sound hf hL hk step i vs hr (is.flatMap (chunk step k) ++ rest)
    obtain ⟨v2, h3, h4⟩ := ih v1 h1
    refine ⟨v2, h3, ?_⟩
    rw [List.flatMap_cons, List.append_assoc, h2, h4]

theorem Copies.one {L0 top D k : Nat} {flags : List Bool}
    {f : Int → List (CV V) → Option (List (CV V))} (hf : Copies L0 top D k flags f)
    (hk : 0 < k) : Copies L0 top D 1 flags f := fun j hj => hf j (by omega)

/-- The ordinary loop. -/
theorem segs_sound {L0 top D : Nat} {flags : List Bool}
    {f : Int → List (CV V) → Option (List (CV V))} (hf : Copies L0 top D 1 flags f)
    (hL : L0 ≤ top) (b : Bounds) (vs : List (CV V)) (hr : RelAll top (between flags) vs) :
    ∃ vs', runSegs L0 top flags f b.segs vs = some vs' ∧ RelAll top (between flags) vs' := by
  obtain ⟨v1, h1, h2⟩ := chunks_sound hf hL (by omega) b.step b.ivs vs hr []
  refine ⟨v1, ?_, h1⟩
  have : b.segs = b.ivs.flatMap (chunk b.step 1) ++ [] := by
    rw [List.append_nil, Bounds.segs]
    induction b.ivs with
    | nil => rfl
    | cons i is ih =>
      rw [List.map_cons, List.flatMap_cons, ih]
      simp [chunk]
  rw [this, h2]
  rfl

/-- The unrolled loop. -/
theorem unroll_sound {L0 top D k : Nat} {flags : List Bool}
    {f : Int → List (CV V) → Option (List (CV V))} (hf : Copies L0 top D k flags f)
    (hL : L0 ≤ top) (hk : 0 < k) (b : Bounds) (vs : List (CV V))
    (hr : RelAll top (between flags) vs) :
    ∃ vs', runSegs L0 top flags f (unroll b k) vs = some vs' ∧ RelAll top (between flags) vs' := by
  simp only [unroll]
  have hfm : ((List.range (b.trips / k)).flatMap fun t : Nat =>
      chunk b.step k (b.lb + t * (k * b.step))) =
      ((List.range (b.trips / k)).map fun t : Nat => b.lb + t * (k * b.step)).flatMap
        (chunk b.step k) := by
    rw [List.flatMap_map]
  rw [hfm]
  obtain ⟨v1, h1, h2⟩ := chunks_sound hf hL hk b.step
    ((List.range (b.trips / k)).map fun t : Nat => b.lb + t * (k * b.step)) vs hr
    (if b.trips % k = 1 then
      [⟨b.lb + (b.trips / k : Nat) * k * b.step, true, false⟩]
    else ({ b with lb := b.lb + (b.trips / k : Nat) * k * b.step } : Bounds).segs)
  rw [h2]
  split
  · obtain ⟨v2, b1, b2⟩ := bootAll_sound (L0 := L0) (flags := flags) h1 (by simp [between])
      (by rw [boots_between]; exact starts_good hL flags)
    rw [boots_between] at b2
    have b3 : RelAll top ((starts L0 flags).map (LS.shift (0 * D))) v2 := by
      rw [Nat.zero_mul]
      have : (starts L0 flags).map (LS.shift 0) = starts L0 flags := by
        rw [← List.map_id (starts L0 flags), List.map_map]
        refine List.map_congr_left fun s _ => ?_
        cases s <;> rfl
      rwa [this]
    obtain ⟨v3, c1, c2⟩ := hf 0 hk (b.lb + (b.trips / k : Nat) * k * b.step) v2 b3
    refine ⟨v3, ?_, ?_⟩
    · simp only [runSegs, if_true, b1, Option.bind_some, c1, Bool.false_eq_true, if_false]
      rw [minAll_off (by rw [← c2.len]; simp [starts])]
      rfl
    · exact c2.mono (starts_between _ _ _) (between_good top flags)
  · exact segs_sound (hf.one hk) hL _ v1 h1

end Heir.Halo
