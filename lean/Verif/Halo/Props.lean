import Verif.Halo.Round
import Verif.Halo.Lemmas4

/-!
# C148–C151: levels of ciphertexts in loops
-/

namespace Heir.Halo

variable {V : Type}

/-! ## C148: the analysis of levels -/

/-- A program accepted by the analysis never runs out of levels, for any bounds of its loops and
any outcome of its conditions, and every ciphertext it returns has at least the level that is
written down for it. -/
theorem C148_sound {m : Sem V} {L0 top : Nat} {p : Prog} {env out : List LS}
    {cenv : List (CV V)} (h : Ok L0 top p env out) (hg : ∀ s ∈ env, s.good top)
    (hr : RelAll top env cenv) :
    ∃ res, eval m L0 top p cenv = some res ∧ out.length = res.length ∧
      ∀ (i : Nat) (s : LS) (v : CV V) (l : Nat), out[i]? = some s → res[i]? = some v →
        v.2 = some l → ∃ a, annotated top s = some a ∧ a ≤ l := by
  obtain ⟨res, h1, h2⟩ := sound (m := m) p h hg hr
  refine ⟨res, h1, h2.len, ?_⟩
  intro i s v l hs hv hl
  obtain ⟨v', h3, h4⟩ := get_rel h2 hs
  rw [hv] at h3
  cases h3
  rw [hl] at h4
  cases s with
  | uninit => exact absurd h4 (by simp [Rel])
  | int n => exact ⟨top - n, rfl, by simp only [Rel] at h4; omega⟩
  | max => exact ⟨0, rfl, Nat.zero_le _⟩
  | invalid => exact absurd h4 (by simp [Rel])

/-- Without loops and conditions the analysis accepts a program if and only if it runs, and the
levels written down are the levels of the ciphertexts. -/
theorem C148_exact {m : Sem V} {L0 top : Nat} {p : Prog} (hst : p.Straight) (hp : p.Pos)
    {env : List LS} {cenv : List (CV V)} (hr : ExactAll top env cenv) :
    ((∃ out, Ok L0 top p env out) ↔ (eval m L0 top p cenv).isSome = true) ∧
    ∀ out res, Ok L0 top p env out → eval m L0 top p cenv = some res →
      out.map (annotated top) = res.map Prod.snd := by
  refine ⟨⟨?_, ?_⟩, ?_⟩
  · rintro ⟨out, h⟩
    obtain ⟨res, h1, -⟩ := sound (m := m) p h hr.good hr.rel
    rw [h1]; rfl
  · intro h
    obtain ⟨res, h1⟩ := Option.isSome_iff_exists.1 h
    obtain ⟨out, h2, -⟩ := straight_exact p hst hp hr h1
    exact ⟨out, h2⟩
  · intro out res h1 h2
    obtain ⟨out', h3, h4⟩ := straight_exact p hst hp hr h2
    have := straight_unique p hst h1 h3
    subst this
    clear * - h4
    induction h4 with
    | nil => rfl
    | @cons s v ss vs h _ ih =>
      simp only [List.map_cons, ih, List.cons.injEq, and_true]
      obtain ⟨v, l⟩ := v
      revert h
      cases s <;> cases l <;> simp [Exact, annotated]
      all_goals omega

/-! ## C149: bootstrapped loops -/

/-- The pass keeps the values: whatever runs afterwards returns what the loop without levels
returns. -/
theorem C149_same {m : Sem V} {L0 top : Nat} {strip : Nat → Nat} {secret flags : List Bool}
    {b : Bounds} {inits : List Nat} {body rest : Prog} {cenv res : List (CV V)}
    (hl : secret.length = inits.length)
    (hstrip : ∀ x ∈ inits, (cenv.map Prod.fst)[strip x]? = (cenv.map Prod.fst)[x]?)
    (h : eval m L0 top (bootstrapLoop strip secret (.loop b flags inits body rest)) cenv
      = some res) :
    evalV m (.loop b flags inits body rest) (cenv.map Prod.fst) = some (res.map Prod.fst) := by
  have h1 := eval_fst _ h
  rw [← h1]
  simp only [bootstrapLoop]
  split
  · simp only [evalV]
    rw [mapM_strip hl hstrip]
  · simp only [evalV]

/-- After the pass the loop runs for any number of iterations if one iteration from freshly
bootstrapped arguments is accepted, and it returns the same values. -/
theorem C149_levels {m : Sem V} {L0 top : Nat} {strip : Nat → Nat} {secret flags : List Bool}
    {b : Bounds} {inits : List Nat} {body rest : Prog} {env ini outs out : List LS}
    {cenv : List (CV V)} (hany : secret.any id = true) (hL : L0 ≤ top)
    (hg : ∀ s ∈ env, s.good top) (hr : RelAll top env cenv)
    (hlen : secret.length = inits.length)
    (hini : ((List.zipWith (fun s x => if s then strip x else x) secret inits).mapM
      fun x => env[x]?) = some ini)
    (hpub : ∀ (i : Nat) (s : LS), secret[i]? = some false → ini[i]? = some s → s = .uninit)
    (hbody : Ok L0 top body (env ++ .uninit :: starts L0 secret) outs)
    (hout : secret.length = outs.length)
    (hpubo : ∀ (i : Nat) (s : LS), secret[i]? = some false → outs[i]? = some s → s = .uninit)
    (hrest : Ok L0 top rest (env ++ between secret) out)
    (hstrip : ∀ x ∈ inits, (cenv.map Prod.fst)[strip x]? = (cenv.map Prod.fst)[x]?) :
    ∃ res, eval m L0 top (bootstrapLoop strip secret (.loop b flags inits body rest)) cenv
        = some res ∧ RelAll top out res ∧
      evalV m (.loop b flags inits body rest) (cenv.map Prod.fst) = some (res.map Prod.fst) := by
  have hlen' : secret.length = ini.length := by
    rw [mapM_length hini, List.length_zipWith, hlen, Nat.min_self]
  have hok := bootstrapLoop_ok (b := b) (flags := flags) hany hL hg hini hlen' hpub hbody hout
    hpubo hrest
  obtain ⟨res, h1, h2⟩ := sound (m := m) _ hok hg hr
  exact ⟨res, h1, h2, C149_same hlen hstrip h1⟩

/-- Without the pass no loop that lowers its argument is accepted. -/
theorem C149_needed {L0 B k : Nat} (hk : 0 < k) (b : Bounds) (x n : Nat) (rest : Prog)
    (env out : List LS) (hx : env[x]? = some (.int n)) :
    ¬ Ok L0 B (.loop b [false] [x]
      (.op (.reduce k (env.length + 1)) (.ret [env.length + 2])) rest) env out := by
  rintro ⟨ini, sts, outs, h1, h2, h3, h4, h5, h6, h7, h7', h8⟩
  simp only [List.mapM_cons, List.mapM_nil, hx, Option.bind_eq_bind, Option.bind_some,
    Option.pure_def, Option.some.injEq] at h1
  subst h1
  cases h3 with
  | @cons _ s _ ss h3 h3' =>
    cases h3'
    obtain ⟨t, e1, e2, e3⟩ := h6
    simp only [boots, Bool.false_eq_true, if_false] at h3 e1 e3
    have hs : (env ++ [LS.uninit, s])[env.length + 1]? = some s := by
      rw [List.getElem?_append_right (by omega)]; simp
    simp only [absOp, hs, Option.map_some, Option.some.injEq] at e1
    have ht : (env ++ [LS.uninit, s] ++ [t])[env.length + 2]? = some t := by
      rw [List.getElem?_append_right (by simp)]; simp
    simp only [Ok, List.mapM_cons, List.mapM_nil, ht, Option.bind_eq_bind, Option.bind_some,
      Option.pure_def, Option.some.injEq] at e3
    subst e3
    cases h7 with
    | cons h7 _ =>
      simp only [Bool.false_eq_true, if_false] at h7
      subst e1
      obtain ⟨c1, c2⟩ := clip_valid e2
      rw [c1] at h7
      have hs4 := h4 s (by simp)
      revert h7 h3 c2 hs4
      cases s <;> simp [LS.reduce, LS.le, LS.join, LS.good]
      omega

/-! ## C150: partially unrolled loops -/

/-- The copies of the body run the iterations of the loop in order. -/
theorem C150_iterations (b : Bounds) (hs : 0 < b.step) (M L0 : Nat) (ends : List LS) :
    (partialUnroll M L0 ends b).map Seg.iv = b.ivs := by
  rw [partialUnroll]
  split
  · split
    · exact unroll_iv b hs _ (by omega)
    · exact segs_iv b
  · exact segs_iv b

/-- The pass keeps the values: whatever runs afterwards returns what the loop without levels
returns. -/
theorem C150_same {m : Sem V} {L0 top M : Nat} {secret : List Bool} {b : Bounds} {body : Prog}
    {ends : List LS} {cenv vs res : List (CV V)} (hs : 0 < b.step)
    (h : runSegs L0 top secret (fun i st => eval m L0 top body (cenv ++ (m.iv i, none) :: st))
      (partialUnroll M L0 ends b) vs = some res) :
    iterV (fun i st => evalV m body (cenv.map Prod.fst ++ m.iv i :: st)) b.ivs
      (vs.map Prod.fst) = some (res.map Prod.fst) := by
  have := runSegs_fst (g := fun i st => evalV m body (cenv.map Prod.fst ++ m.iv i :: st))
    (by
      intro i st r hr
      have := eval_fst _ hr
      simpa only [List.map_append, List.map_cons] using this) _ h
  rwa [C150_iterations b hs] at this

/-- The unrolled loop runs with the levels that the factor was computed for, if no point of an
iteration is deeper than the deepest end of an argument and two iterations fit.

Partial: the two conditions are not checked by the pass, see the violations. -/
theorem C150_levels_partial {m : Sem V} {L0 B0 M : Nat} {secret : List Bool} {b : Bounds}
    {body : Prog} {env outs : List LS} {cenv vs : List (CV V)} (hs : 0 < b.step)
    (hL : L0 ≤ B0) (henv : ∀ s ∈ env, s.good B0) (hrel : RelAll M env cenv)
    (hok : Ok L0 B0 body (env ++ .uninit :: starts L0 secret) outs)
    (hlen : secret.length = outs.length)
    (hint : ∀ s ∈ secretEnds secret outs, ∃ n, s = .int n)
    (hpub : ∀ (i : Nat) (s : LS), secret[i]? = some false → outs[i]? = some s → s = .uninit)
    (hpeak : .int B0 ∈ secretEnds secret outs) (htwo : L0 + 2 * (B0 - L0) ≤ M)
    (hvs : RelAll M (between secret) vs) :
    ∃ res, runSegs L0 M secret (fun i st => eval m L0 M body (cenv ++ (m.iv i, none) :: st))
        (partialUnroll M L0 (secretEnds secret outs) b) vs = some res ∧
      RelAll M (between secret) res ∧
      iterV (fun i st => evalV m body (cenv.map Prod.fst ++ m.iv i :: st)) b.ivs
        (vs.map Prod.fst) = some (res.map Prod.fst) := by
  have hgo : ∀ s ∈ outs, s.good B0 := Ok.good body hok (good_append henv (by
    intro s hs
    rcases List.mem_cons.1 hs with rfl | hs
    · trivial
    · exact starts_good hL secret s hs))
  have hle := outs_le hlen hgo hL hint hpub
  have h1 : Copies L0 M (B0 - L0) 1 secret
      (fun i st => eval m L0 M body (cenv ++ (m.iv i, none) :: st)) :=
    copies_of_ok hL henv hrel hok hle (by omega)
  have key : ∃ res, runSegs L0 M secret
      (fun i st => eval m L0 M body (cenv ++ (m.iv i, none) :: st))
      (partialUnroll M L0 (secretEnds secret outs) b) vs = some res ∧
      RelAll M (between secret) res := by
    rw [partialUnroll]
    split
    · next k hk =>
      split
      · next hk1 =>
        have hfit := plan_le hk hpeak hL htwo
        refine unroll_sound (D := B0 - L0) (copies_of_ok hL henv hrel hok hle ?_) (by omega)
          (by omega) b vs hvs
        have : k * (B0 - L0) = (k - 1) * (B0 - L0) + (B0 - L0) := by
          rw [← Nat.succ_mul]; congr 1; omega
        omega
      · exact segs_sound h1 (by omega) b vs hvs
    · exact segs_sound h1 (by omega) b vs hvs
  obtain ⟨res, h2, h3⟩ := key
  exact ⟨res, h2, h3, C150_same hs h2⟩

/-- One bootstrap of every argument for each iteration of the unrolled loop, and one for each of
the remaining iterations. -/
theorem C150_bootstraps (b : Bounds) (hs : 0 < b.step) (k : Nat) (hk : 0 < k) :
    ((unroll b k).filter Seg.boot).length = b.trips / k + b.trips % k := by
  have hc : ∀ i : Int, ((chunk b.step k i).filter Seg.boot).length = 1 := by
    intro i
    obtain ⟨n, rfl⟩ : ∃ n, k = n + 1 := ⟨k - 1, by omega⟩
    rw [chunk, List.range_succ_eq_map, List.map_cons, List.map_map, List.filter_cons]
    simp only [decide_true, if_true, List.length_cons, Nat.add_eq_right, List.length_eq_zero_iff,
      List.filter_eq_nil_iff]
    intro s hs
    obtain ⟨j, -, rfl⟩ := List.mem_map.1 hs
    simp [Function.comp]
  have hm : ∀ is : List Nat, ((is.flatMap fun t : Nat =>
      chunk b.step k (b.lb + t * (k * b.step))).filter Seg.boot).length = is.length := by
    intro is
    induction is with
    | nil => rfl
    | cons i is ih =>
      rw [List.flatMap_cons, List.filter_append, List.length_append, hc, ih, List.length_cons]
      omega
  have hrest : ({ b with lb := b.lb + (b.trips / k : Nat) * k * b.step } : Bounds).trips
      = b.trips % k := by
    have := trips_tail b hs (b.trips / k * k)
    push_cast at this
    push_cast
    rw [this]
    have := Nat.div_add_mod b.trips k
    rw [Nat.mul_comm] at this
    omega
  simp only [unroll]
  rw [List.filter_append, List.length_append, hm, List.length_range]
  congr 1
  split
  · next h => simp [h]
  · rw [Bounds.segs, List.filter_eq_self.2 (by simp), List.length_map, Bounds.ivs,
      List.length_map, List.length_range, hrest]

/-- A computation on integers. -/
def intSem : Sem Int := ⟨fun _ xs => xs.sum, id, fun v => v != 0⟩

/-- A body with two secret arguments that lowers the first by one level and the second by four. -/
def twoBody : Prog := .op (.reduce 1 1) (.op (.reduce 4 2) (.ret [3, 4]))

/-- An argument whose own factor is not more than one is ignored when the least factor is chosen:
with four levels a loop that runs is unrolled four times and then lacks levels. -/
theorem C150_violated_ignored :
    plan 4 0 [.int 1, .int 4] 8 = some 4 ∧
    Ok 0 4 twoBody [.uninit, .int 0, .int 0] [.int 1, .int 4] ∧
    (runSegs 0 4 [true, true] (fun i st => eval intSem 0 4 twoBody ((i, none) :: st))
      (⟨0, 8, 1⟩ : Bounds).segs [(5, some 0), (7, some 0)]) = some [(5, some 0), (7, some 0)] ∧
    (runSegs 0 4 [true, true] (fun i st => eval intSem 0 4 twoBody ((i, none) :: st))
      (partialUnroll 4 0 [.int 1, .int 4] ⟨0, 8, 1⟩) [(5, some 0), (7, some 0)]) = none := by
  refine ⟨by decide +kernel, ?_, by decide +kernel, by decide +kernel⟩
  exact ⟨.int 1, rfl, by simp, .int 4, rfl, by simp, rfl⟩

/-- A body that lowers its argument by four levels, bootstraps it and lowers it by one. -/
def deepBody : Prog := .op (.reduce 4 1) (.op (.bootstrap 2) (.op (.reduce 1 3) (.ret [4])))

/-- Points of the body deeper than its end are not taken into account: with four levels a loop
that runs is unrolled four times and then lacks levels. -/
theorem C150_violated_peak :
    plan 4 0 [.int 1] 8 = some 4 ∧
    Ok 0 4 deepBody [.uninit, .int 0] [.int 1] ∧
    (runSegs 0 4 [true] (fun i st => eval intSem 0 4 deepBody ((i, none) :: st))
      (⟨0, 8, 1⟩ : Bounds).segs [(5, some 0)]) = some [(5, some 0)] ∧
    (runSegs 0 4 [true] (fun i st => eval intSem 0 4 deepBody ((i, none) :: st))
      (partialUnroll 4 0 [.int 1] ⟨0, 8, 1⟩) [(5, some 0)]) = none := by
  refine ⟨by decide +kernel, ?_, by decide +kernel, by decide +kernel⟩
  exact ⟨.int 4, rfl, by simp, .int 0, rfl, by simp, .int 1, rfl, by simp, rfl⟩

/-! ## C151: peeled loops -/

/-- The peeled iteration is the first one, and with the remaining loop it computes what the loop
computes. -/
theorem C151_same {b b1 b2 : Bounds} (hs : 0 < b.step) (h : peel b = some (b1, b2))
    (f : Int → List V → Option (List V)) (st : List V) :
    b1.ivs = [b.lb] ∧
    iterV f b.ivs st = (f b.lb st).bind (iterV f b2.ivs) := by
  obtain ⟨h1, h2⟩ := peel_iv hs h
  refine ⟨h1, ?_⟩
  rw [← h2, iterV_append, h1]
  simp only [iterV]
  cases f b.lb st <;> rfl

/-- Loops of at least two iterations are peeled, and no others.

Partial: for sizes up to `2 ^ 24`, see the violation. -/
theorem C151_when_partial {b : Bounds} (hs : 0 < b.step) (h1 : b.step ≤ 2 ^ 24)
    (h2 : b.ub - b.lb ≤ 2 ^ 24) : (peel b).isSome = true ↔ 2 ≤ b.trips := peel_iff hs h1 h2

/-- Whatever is peeled has at least two iterations, for all sizes. -/
theorem C151_only {b : Bounds} (hs : 0 < b.step) (h : (peel b).isSome = true) : 2 ≤ b.trips := by
  have ht : 2 ≤ b.trips ↔ b.step < b.ub - b.lb := by
    have : 2 ≤ (b.ub - b.lb + b.step - 1) / b.step ↔ b.step < b.ub - b.lb := by
      rw [Int.le_ediv_iff_mul_le hs]; omega
    rw [← this]
    simp only [Bounds.trips]; omega
  rw [ht]
  by_contra hn
  have : fewIterations b = true := by
    rw [fewIterations]
    split
    · rfl
    · exact decide_eq_true (flt_mono (by omega))
  simp [peel, this] at h

/-- What a large number of iterations is rounded to: a multiple of the distance of the floats around
it, not further away than half the distance, and an even multiple if there are two. -/
theorem C151_rounding {n : Nat} (h : 2 ^ 24 ≤ n) :
    ∃ q, flt n = q * ulp n ∧ 2 * n ≤ 2 * flt n + ulp n ∧ 2 * flt n ≤ 2 * n + ulp n ∧
      (2 * n = 2 * flt n + ulp n ∨ 2 * flt n = 2 * n + ulp n → q % 2 = 0) := by
  have e := Nat.div_add_mod n (ulp n)
  have hm : n % ulp n < ulp n := Nat.mod_lt _ (by unfold ulp; positivity)
  have hc : ulp n * (n / ulp n) = n / ulp n * ulp n := Nat.mul_comm _ _
  have h7 : (n / ulp n + 1) * ulp n = n / ulp n * ulp n + ulp n := by ring
  rcases flt_big h with ⟨h1, h2, h3⟩ | ⟨h1, h2, h3⟩
  · exact ⟨_, h1, by omega, by omega, fun h => h3 (by omega)⟩
  · exact ⟨_, h1, by omega, by omega, fun h => h3 (by omega)⟩

example : flt (2 ^ 25 + 6) = 2 ^ 25 + 8 ∧ flt (2 ^ 25 + 2) = 2 ^ 25 ∧ ulp (2 ^ 25 + 2) = 4 := by
  decide +kernel

/-- The number of iterations is computed with single-precision floats: a loop of two iterations
that is not peeled. -/
theorem C151_violated_float :
    (⟨0, 2 ^ 24 + 1, 2 ^ 24⟩ : Bounds).trips = 2 ∧ peel ⟨0, 2 ^ 24 + 1, 2 ^ 24⟩ = none := by
  constructor <;> decide +kernel

/-! ### examples -/

/-- Square a secret argument in each iteration: public counter, secret value, secret outer
value. -/
def powBody : Prog :=
  -- 0: outer, 1: iv, 2: argument
  .op (.pure 0 [2, 0]) (.op (.reduce 1 3) (.ret [4]))

example : Ok 1 6 powBody [.int 2, .uninit, .int 1] [.int 3] :=
  ⟨.int 2, rfl, by simp, .int 3, rfl, by simp, rfl⟩

/-- C149: the loop after the pass, with a hundred iterations. -/
example : ∃ res, eval intSem 1 6 (bootstrapLoop id [true]
      (.loop ⟨0, 100, 1⟩ [false] [0] powBody (.ret [1]))) [((3 : Int), some 5)] = some res ∧
    RelAll 6 [.max] res ∧
    evalV intSem (.loop ⟨0, 100, 1⟩ [false] [0] powBody (.ret [1])) [3]
      = some (res.map Prod.fst) :=
  C149_levels (env := [.int 2]) (ini := [.int 2]) (outs := [.int 3]) (cenv := [(3, some 5)])
    rfl (by omega) (by simp [LS.good]) (.cons (by simp [Rel]) .nil) rfl rfl
    (by intro i s h; cases i <;> simp at h)
    ⟨.int 2, rfl, by simp, .int 3, rfl, by simp, rfl⟩ rfl
    (by intro i s h; cases i <;> simp at h) rfl (by simp)

/-- C150: unrolled twice. -/
example : plan 6 1 [.int 3] 100 = some 2 := by decide +kernel

example : ∃ res, runSegs 1 6 [true]
      (fun i st => eval intSem 1 6 powBody ([((3 : Int), some 5)] ++ (intSem.iv i, none) :: st))
      (partialUnroll 6 1 (secretEnds [true] [.int 3]) ⟨0, 101, 1⟩) [(3, some 0)] = some res ∧
    RelAll 6 (between [true]) res ∧
    iterV (fun i st => evalV intSem powBody (([((3 : Int), some 5)] : List (CV Int)).map Prod.fst
      ++ intSem.iv i :: st)) (⟨0, 101, 1⟩ : Bounds).ivs
      (([(3, some 0)] : List (CV Int)).map Prod.fst) = some (res.map Prod.fst) :=
  C150_levels_partial (B0 := 3) (env := [.int 2]) (by decide) (by omega) (by simp [LS.good])
    (.cons (by simp [Rel]) .nil) ⟨.int 2, rfl, by simp, .int 3, rfl, by simp, rfl⟩ rfl
    (by simp [secretEnds]) (by intro i s h; cases i <;> simp at h) (by simp [secretEnds])
    (by omega) (.cons (by simp [Rel]) .nil)

/-- C150: seven iterations by three. -/
example : unroll ⟨0, 7, 1⟩ 3 =
    [⟨0, true, false⟩, ⟨1, false, false⟩, ⟨2, false, true⟩,
     ⟨3, true, false⟩, ⟨4, false, false⟩, ⟨5, false, true⟩, ⟨6, true, false⟩] := by decide +kernel

/-- C151. -/
example : peel ⟨1, 12, 3⟩ = some (⟨1, 4, 3⟩, ⟨4, 12, 3⟩) := by decide +kernel

/-- C148: two reductions, a product with a fresh ciphertext, a bootstrap. -/
example : (eval intSem 2 5
      (.op (.reduce 2 0) (.op (.pure 0 [1, 2]) (.op (.bootstrap 3) (.ret [3, 4]))))
      [((1 : Int), some 5), (2, some 4)]).map (·.map Prod.snd) = some [some 3, some 3] ∧
    Ok 2 5 (.op (.reduce 2 0) (.op (.pure 0 [1, 2]) (.op (.bootstrap 3) (.ret [3, 4]))))
      [.int 0, .int 1] [.int 2, .int 2] :=
  ⟨by decide +kernel, .int 2, rfl, by simp, .int 2, rfl, by simp, .int 2, rfl, by simp, rfl⟩

example : ExactAll 5 [.int 0, .int 1] [((1 : Int), some 5), (2, some 4)] :=
  .cons (by simp [Exact]) (.cons (by simp [Exact]) .nil)

end Heir.Halo
