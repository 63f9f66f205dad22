import Verif.Halo.Lemmas3

/-!
# Lemmas for C148: exactness without control flow; for C149: bootstrapped loops
-/

namespace Heir.Halo

variable {V : Type}

theorem Exact.rel {top : Nat} {s : LS} {l : Option Nat} (h : Exact top s l) : Rel top s l := by
  cases s <;> cases l <;> simp [Exact, Rel] at *
  omega

theorem Exact.good {top : Nat} {s : LS} {l : Option Nat} (h : Exact top s l) : s.good top := by
  cases s <;> cases l <;> simp [Exact, LS.good] at *
  omega

theorem Exact.join {top : Nat} {a b : LS} {l r : Option Nat} (ha : Exact top a l)
    (hb : Exact top b r) : Exact top (a.join b) (lower l r) := by
  cases a <;> cases b <;> cases l <;> cases r <;> simp [LS.join, Exact, lower] at *
  all_goals omega

theorem Exact.foldl {top : Nat} {as : List LS} {ls : List (Option Nat)}
    (h : List.Forall₂ (Exact top) as ls) (a : LS) (l : Option Nat) (h0 : Exact top a l) :
    Exact top (as.foldl LS.join a) (ls.foldl lower l) := by
  induction h generalizing a l with
  | nil => exact h0
  | cons h1 _ ih => exact ih _ _ (h0.join h1)

theorem op_exact {m : Sem V} {L0 top : Nat} {env : List LS} {cenv : List (CV V)}
    (hr : ExactAll top env cenv) (o : Op) (hp : o.Pos) {v : CV V}
    (h : evalOp m L0 top cenv o = some v) :
    ∃ s, absOp L0 top env o = some s ∧ s ≠ .invalid ∧ Exact top s v.2 := by
  have fin : ∀ (s : LS), Exact top s v.2 → s.clip top ≠ .invalid ∧ Exact top (s.clip top) v.2 := by
    intro s hs
    rw [clip_good hs.good]
    refine ⟨?_, hs⟩
    intro he; rw [he] at hs; simp [Exact] at hs
  have hr' : List.Forall₂ (fun (v : CV V) s => Exact top s v.2) cenv env := hr.flip
  cases o with
  | pure fn xs =>
    simp only [evalOp, Option.map_eq_some_iff] at h
    obtain ⟨vs, h1, rfl⟩ := h
    obtain ⟨ss, h2, h3⟩ := mapM_rel hr' xs h1
    refine ⟨_, by simp only [absOp, h2, Option.map_some]; rfl, fin _ ?_⟩
    refine Exact.foldl ?_ _ _ (by simp [Exact])
    rw [List.forall₂_map_right_iff]
    exact h3.flip
  | reduce k x =>
    simp only [evalOp, Option.bind_eq_some_iff] at h
    obtain ⟨w, h1, h2⟩ := h
    obtain ⟨s, h3, h4⟩ := get_rel hr' h1
    refine ⟨_, by simp only [absOp, h3, Option.map_some]; rfl, fin _ ?_⟩
    obtain ⟨w, l⟩ := w
    simp only [Op.Pos] at hp
    cases l with
    | none =>
      simp only [CV.reduce, Option.some.injEq] at h2
      subst h2
      revert h4; cases s <;> simp [Exact, LS.reduce]
    | some l =>
      simp only [CV.reduce] at h2
      split at h2
      · simp only [Option.some.injEq] at h2
        subst h2
        revert h4; cases s <;> simp [Exact, LS.reduce] <;> omega
      · cases h2
  | reduceMin x =>
    simp only [evalOp, Option.map_eq_some_iff] at h
    obtain ⟨w, h1, rfl⟩ := h
    obtain ⟨s, h3, h4⟩ := get_rel hr' h1
    refine ⟨_, by simp only [absOp, h3, Option.map_some]; rfl, fin _ ?_⟩
    obtain ⟨w, l⟩ := w
    revert h4
    cases s <;> cases l <;> simp [Exact, LS.reduceMin, CV.reduceMin]
  | bootstrap x =>
    simp only [evalOp, Option.bind_eq_some_iff] at h
    obtain ⟨w, h1, h2⟩ := h
    obtain ⟨s, h3, h4⟩ := get_rel hr' h1
    refine ⟨_, by simp only [absOp, h3, Option.map_some]; rfl, fin _ ?_⟩
    obtain ⟨w, l⟩ := w
    cases l with
    | none =>
      simp only [CV.bootstrap, Option.some.injEq] at h2
      subst h2
      revert h4; cases s <;> simp [Exact, LS.bootstrap]
    | some l =>
      simp only [CV.bootstrap] at h2
      split at h2
      · simp only [Option.some.injEq] at h2
        subst h2
        revert h4; cases s <;> simp [Exact, LS.bootstrap] <;> omega
      · cases h2

theorem ExactAll.rel {top : Nat} {ss : List LS} {vs : List (CV V)} (h : ExactAll top ss vs) :
    RelAll top ss vs := h.imp fun _ _ h => h.rel

theorem ExactAll.good {top : Nat} {ss : List LS} {vs : List (CV V)} (h : ExactAll top ss vs) :
    ∀ s ∈ ss, s.good top := by
  induction h with
  | nil => simp
  | cons h _ ih =>
    intro s hs
    rcases List.mem_cons.1 hs with rfl | hs
    · exact h.good
    · exact ih s hs

/-- A program without control flow that runs is accepted, with exact states. -/
theorem straight_exact {m : Sem V} {L0 top : Nat} (p : Prog) (hst : p.Straight) (hp : p.Pos)
    {env : List LS} {cenv res : List (CV V)} (hr : ExactAll top env cenv)
    (h : eval m L0 top p cenv = some res) :
    ∃ out, Ok L0 top p env out ∧ ExactAll top out res := by
  induction p generalizing env cenv with
  | ret ys =>
    have hr' : List.Forall₂ (fun (v : CV V) s => Exact top s v.2) cenv env := hr.flip
    obtain ⟨out, h1, h2⟩ := mapM_rel hr' ys h
    exact ⟨out, h1, h2.flip⟩
  | op o rest ih =>
    simp only [eval, Option.bind_eq_some_iff] at h
    obtain ⟨v, h1, h2⟩ := h
    obtain ⟨s, h3, h4, h5⟩ := op_exact hr o hp.1 h1
    obtain ⟨out, h6, h7⟩ := ih hst hp.2 (env := env ++ [s]) (append_rel hr (.cons h5 .nil)) h2
    exact ⟨out, ⟨s, h3, h4, h6⟩, h7⟩
  | loop => exact absurd hst (by simp [Prog.Straight])
  | ite => exact absurd hst (by simp [Prog.Straight])

/-- There is one solution only. -/
theorem straight_unique {L0 B : Nat} (p : Prog) (hst : p.Straight) {env out out' : List LS}
    (h : Ok L0 B p env out) (h' : Ok L0 B p env out') : out = out' := by
  induction p generalizing env with
  | ret ys =>
    simp only [Ok] at h h'
    rw [h] at h'
    exact Option.some.inj h'
  | op o rest ih =>
    obtain ⟨s, h1, h2, h3⟩ := h
    obtain ⟨s', h1', h2', h3'⟩ := h'
    rw [h1] at h1'
    cases h1'
    exact ih hst h3 h3'
  | loop => exact absurd hst (by simp [Prog.Straight])
  | ite => exact absurd hst (by simp [Prog.Straight])

/-! ### bootstrapped loops -/

theorem mapM_strip {α : Type} {env : List α} {strip : Nat → Nat} {secret : List Bool}
    {inits : List Nat} (hl : secret.length = inits.length)
    (h : ∀ x ∈ inits, env[strip x]? = env[x]?) :
    ((List.zipWith (fun s x => if s then strip x else x) secret inits).mapM fun x => env[x]?)
      = inits.mapM fun x => env[x]? := by
  induction secret generalizing inits with
  | nil => obtain rfl := List.length_eq_zero_iff.1 hl.symm; rfl
  | cons s ss ih =>
    cases inits with
    | nil => simp at hl
    | cons x xs =>
      simp only [List.zipWith_cons_cons, List.mapM_cons]
      rw [ih (by simpa using hl) fun x hx => h x (List.mem_cons_of_mem _ hx)]
      cases s with
      | false => rfl
      | true => simp only [if_true, h x (by simp)]

/-- Secret states are lowered, public ones have none. -/
theorem mins_between {secret : List Bool} {ini : List LS} (hl : secret.length = ini.length)
    (hg : ∀ s ∈ ini, s ≠ .invalid)
    (hpub : ∀ (i : Nat) (s : LS), secret[i]? = some false → ini[i]? = some s → s = .uninit) :
    leAll (mins secret ini) (between secret) := by
  induction secret generalizing ini with
  | nil => exact .nil
  | cons f fs ih =>
    cases ini with
    | nil => simp at hl
    | cons s ss =>
      refine .cons ?_ (ih (by simpa using hl) (fun s hs => hg s (List.mem_cons_of_mem _ hs))
        (fun i s h1 h2 => hpub (i + 1) s (by simpa using h1) (by simpa using h2)))
      cases f with
      | false =>
        have := hpub 0 s rfl rfl
        subst this; rfl
      | true =>
        have := hg s (by simp)
        revert this
        cases s <;> simp [LS.reduceMin, LS.le, LS.join]

/-- The analysis of the loop after the pass. -/
theorem bootstrapLoop_ok {L0 B : Nat} {strip : Nat → Nat} {secret : List Bool} {b : Bounds}
    {flags : List Bool} {inits : List Nat} {body rest : Prog} {env ini outs out : List LS}
    (hany : secret.any id = true) (hL : L0 ≤ B) (hg : ∀ s ∈ env, s.good B)
    (hini : ((List.zipWith (fun s x => if s then strip x else x) secret inits).mapM
      fun x => env[x]?) = some ini)
    (hlen : secret.length = ini.length)
    (hpub : ∀ (i : Nat) (s : LS), secret[i]? = some false → ini[i]? = some s → s = .uninit)
    (hbody : Ok L0 B body (env ++ .uninit :: starts L0 secret) outs)
    (hout : secret.length = outs.length)
    (hpubo : ∀ (i : Nat) (s : LS), secret[i]? = some false → outs[i]? = some s → s = .uninit)
    (hrest : Ok L0 B rest (env ++ between secret) out) :
    Ok L0 B (bootstrapLoop strip secret (.loop b flags inits body rest)) env out := by
  have hgo : ∀ s ∈ outs, s.good B := Ok.good body hbody (good_append hg (by
    intro s hs
    rcases List.mem_cons.1 hs with rfl | hs
    · trivial
    · exact starts_good hL secret s hs))
  simp only [bootstrapLoop, hany, if_true]
  refine ⟨ini, between secret, outs, hini, hlen,
    mins_between hlen (good_ne fun s hs => hg s (mapM_mem _ hini s hs)) hpub,
    between_good B secret, ?_, ?_, mins_between hout (good_ne hgo) hpubo, hout.symm, hrest⟩
  · rw [boots_between]; exact starts_good hL secret
  · rw [boots_between]; exact hbody

/-! ### the chosen factor -/

theorem mapM_toInt_mem {ends : List LS} {es : List Int} (h : ends.mapM LS.toInt = some es)
    {n : Nat} (hn : .int n ∈ ends) : (n : Int) ∈ es := by
  induction ends generalizing es with
  | nil => cases hn
  | cons s ss ih =>
    simp only [List.mapM_cons, Option.bind_eq_bind] at h
    cases hs : s.toInt with
    | none => simp [hs] at h
    | some a =>
      cases hl : ss.mapM LS.toInt with
      | none => simp [hs, hl] at h
      | some l =>
        simp only [hs, hl, Option.bind_some, Option.pure_def, Option.some.injEq] at h
        subst h
        rcases List.mem_cons.1 hn with rfl | hn
        · simp only [LS.toInt, Option.some.injEq] at hs
          simp [← hs]
        · exact List.mem_cons_of_mem _ (ih hl hn)

theorem mapM_toInt_int {ends : List LS} {es : List Int} (h : ends.mapM LS.toInt = some es) :
    ∀ s ∈ ends, ∃ n, s = .int n := by
  induction ends generalizing es with
  | nil => simp
  | cons s ss ih =>
    simp only [List.mapM_cons, Option.bind_eq_bind] at h
    cases hs : s.toInt with
    | none => simp [hs] at h
    | some a =>
      cases hl : ss.mapM LS.toInt with
      | none => simp [hs, hl] at h
      | some l =>
        intro t ht
        rcases List.mem_cons.1 ht with rfl | ht
        · revert hs; cases t <;> simp [LS.toInt]
        · exact ih hl t ht

theorem plan_le {M L0 : Nat} {ends : List LS} {trips k : Nat} (h : plan M L0 ends trips = some k)
    {n : Nat} (hn : .int n ∈ ends) (hL : L0 ≤ n) (hM : L0 + 2 * (n - L0) ≤ M) :
    L0 + k * (n - L0) ≤ M := by
  simp only [plan] at h
  split at h
  · cases h
  · simp only [Option.bind_eq_some_iff] at h
    obtain ⟨es, h1, h2⟩ := h
    have hmem := mapM_toInt_mem h1 hn
    split at h2
    · cases h2
    · next hz =>
      simp only [Option.map_eq_some_iff] at h2
      obtain ⟨f, h3, h4⟩ := h2
      have hne : (n : Int) - L0 ≠ 0 := by
        intro he
        refine hz (List.any_eq_true.2 ⟨n, hmem, by simpa using he⟩)
      have hpos : 0 < n - L0 := by omega
      have hfac : factor M L0 n = (((M - L0) / (n - L0) : Nat) : Int) := by
        rw [factor, Int.tdiv_eq_ediv_of_nonneg (by omega)]
        rw [show (M : Int) - L0 = ((M - L0 : Nat) : Int) by omega,
          show (n : Int) - L0 = ((n - L0 : Nat) : Int) by omega]
        rfl
      have hge : 2 ≤ (M - L0) / (n - L0) := by
        rw [Nat.le_div_iff_mul_le hpos]; omega
      have hin : factor M L0 n ∈ (es.map (factor M L0)).filter fun f => decide (1 < f) := by
        refine List.mem_filter.2 ⟨List.mem_map_of_mem hmem, ?_⟩
        rw [hfac]
        simp only [decide_eq_true_eq]
        omega
      have hle : f ≤ factor M L0 n := (List.min?_eq_some_iff.1 h3).2 _ hin
      have hk : k ≤ (M - L0) / (n - L0) := by
        rw [hfac] at hle
        rw [← h4]
        split <;> omega
      have := Nat.mul_le_mul_right (n - L0) hk
      have h5 := Nat.div_mul_le_self (M - L0) (n - L0)
      omega

/-- Yielded states are at most `D` levels below the start. -/
theorem outs_le {L0 B0 : Nat} {secret : List Bool} {outs : List LS}
    (hlen : secret.length = outs.length) (hg : ∀ s ∈ outs, s.good B0) (hL : L0 ≤ B0)
    (hint : ∀ s ∈ secretEnds secret outs, ∃ n, s = .int n)
    (hpub : ∀ (i : Nat) (s : LS), secret[i]? = some false → outs[i]? = some s → s = .uninit) :
    leAll outs ((starts L0 secret).map (LS.shift (B0 - L0))) := by
  induction secret generalizing outs with
  | nil => obtain rfl := List.length_eq_zero_iff.1 hlen.symm; exact .nil
  | cons f fs ih =>
    cases outs with
    | nil => simp at hlen
    | cons s ss =>
      have hrec := ih (outs := ss) (by simpa using hlen)
        (fun s hs => hg s (List.mem_cons_of_mem _ hs))
        (by
          intro t ht
          refine hint t ?_
          cases f
          · exact ht
          · exact List.mem_cons_of_mem _ ht)
        (fun i s h1 h2 => hpub (i + 1) s (by simpa using h1) (by simpa using h2))
      refine .cons ?_ hrec
      cases f with
      | false => rw [hpub 0 s rfl rfl]; rfl
      | true =>
        obtain ⟨n, rfl⟩ := hint s (by simp [secretEnds])
        have := hg (.int n) (by simp)
        simp only [LS.good] at this
        simp only [if_true, LS.shift, LS.le, LS.join, LS.int.injEq]
        omega

end Heir.Halo
