import Verif.Memref.Spec

/-!
# Forwarding stores to loads
-/

namespace Heir.Memref

open Heir.Lut (flattenIndex unflattenIndex)

variable {V : Type} {W : World V} {T : Types}

/-! ## Runs and scopes -/

theorem run_append : ∀ (xs ys : List Op) (s : State V),
    run W (xs ++ ys) s = (run W xs s).bind (run W ys)
  | [], _, _ => rfl
  | x :: xs, ys, s => by
    simp only [List.cons_append, run]
    cases step W s x with
    | none => rfl
    | some s' => exact run_append xs ys s'

theorem scope_cons (sc : List Nat) (o : Op) (os : List Op) :
    scope sc (o :: os) = scope (o.defs ++ sc) os := rfl

theorem mscope_cons (mc : List Nat) (o : Op) (os : List Op) :
    mscope mc (o :: os) = mscope (o.mdefs ++ mc) os := rfl

theorem scope_append (sc : List Nat) (xs ys : List Op) :
    scope sc (xs ++ ys) = scope (scope sc xs) ys := by simp [scope, List.foldl_append]

theorem mscope_append (mc : List Nat) (xs ys : List Op) :
    mscope mc (xs ++ ys) = mscope (mscope mc xs) ys := by simp [mscope, List.foldl_append]

theorem wf_append : ∀ (xs ys : List Op) (sc mc : List Nat),
    wf sc mc (xs ++ ys) ↔ wf sc mc xs ∧ wf (scope sc xs) (mscope mc xs) ys
  | [], ys, sc, mc => by simp [wf, scope, mscope]
  | x :: xs, ys, sc, mc => by
    simp only [List.cons_append, wf, scope_cons, mscope_cons, wf_append xs ys]
    constructor
    · rintro ⟨a, b, c, d, e, f⟩; exact ⟨⟨a, b, c, d, e⟩, f⟩
    · rintro ⟨⟨a, b, c, d, e⟩, f⟩; exact ⟨a, b, c, d, e, f⟩

theorem scope_mem {x : Nat} : ∀ (os : List Op) (sc : List Nat),
    x ∈ scope sc os ↔ x ∈ sc ∨ ∃ o ∈ os, x ∈ o.defs
  | [], sc => by simp [scope]
  | o :: os, sc => by
    rw [scope_cons, scope_mem os]
    simp only [List.mem_append, List.mem_cons, exists_eq_or_imp]
    constructor
    · rintro ((h | h) | h)
      · exact .inr (.inl h)
      · exact .inl h
      · exact .inr (.inr h)
    · rintro (h | h | h)
      · exact .inl (.inr h)
      · exact .inl (.inl h)
      · exact .inr h

theorem mscope_mem {x : Nat} : ∀ (os : List Op) (mc : List Nat),
    x ∈ mscope mc os ↔ x ∈ mc ∨ ∃ o ∈ os, x ∈ o.mdefs
  | [], mc => by simp [mscope]
  | o :: os, mc => by
    rw [mscope_cons, mscope_mem os]
    simp only [List.mem_append, List.mem_cons, exists_eq_or_imp]
    constructor
    · rintro ((h | h) | h)
      · exact .inr (.inl h)
      · exact .inl h
      · exact .inr (.inr h)
    · rintro (h | h | h)
      · exact .inl (.inr h)
      · exact .inl (.inl h)
      · exact .inr h

/-- No operation defines a visible value. -/
theorem wf_fresh {x : Nat} : ∀ {os : List Op} {sc mc : List Nat}, wf sc mc os → x ∈ sc →
    ∀ o ∈ os, x ∉ o.defs
  | [], _, _, _, _, o, ho => by simp at ho
  | a :: os, sc, mc, h, hx, o, ho => by
    obtain ⟨-, h2, -, -, h5⟩ := h
    rcases List.mem_cons.1 ho with rfl | ho
    · exact fun hd => h2 x hd hx
    · exact wf_fresh h5 (List.mem_append_right _ hx) o ho

theorem wf_mfresh {x : Nat} : ∀ {os : List Op} {sc mc : List Nat}, wf sc mc os → x ∈ mc →
    ∀ o ∈ os, x ∉ o.mdefs
  | [], _, _, _, _, o, ho => by simp at ho
  | a :: os, sc, mc, h, hx, o, ho => by
    obtain ⟨-, -, -, h2, h5⟩ := h
    rcases List.mem_cons.1 ho with rfl | ho
    · exact fun hd => h2 x hd hx
    · exact wf_mfresh h5 (List.mem_append_right _ hx) o ho

theorem setL_other {x : Nat} : ∀ (rs : List Nat) (vs : List V) (s : State V), x ∉ rs →
    (setL s rs vs).env x = s.env x
  | [], _, _, _ => by simp [setL]
  | _ :: _, [], _, _ => rfl
  | r :: rs, v :: vs, s, h => by
    rw [setL, setL_other rs vs _ fun h' => h (by simp [h'])]
    simp only [State.set]
    rw [if_neg fun e => h (by simp [e])]

theorem setL_mem : ∀ (rs : List Nat) (vs : List V) (s : State V), (setL s rs vs).mem = s.mem
  | [], _, _ => by simp [setL]
  | _ :: _, [], _ => rfl
  | r :: rs, v :: vs, s => by rw [setL, setL_mem rs vs]; rfl

theorem fillL_env : ∀ (bs : List Nat) (fs : List (Int → V)) (s : State V),
    (fillL s bs fs).env = s.env
  | [], _, _ => by simp [fillL]
  | _ :: _, [], _ => rfl
  | b :: bs, f :: fs, s => by rw [fillL, fillL_env bs fs]; rfl

theorem fillL_other {b : Nat} : ∀ (bs : List Nat) (fs : List (Int → V)) (s : State V), b ∉ bs →
    (fillL s bs fs).mem b = s.mem b
  | [], _, _, _ => by simp [fillL]
  | _ :: _, [], _, _ => rfl
  | c :: bs, f :: fs, s, h => by
    rw [fillL, fillL_other bs fs _ fun h' => h (by simp [h'])]
    simp only [State.fill]
    funext j
    rw [if_neg fun e => h (by simp [e])]

/-- Writing back what was read. -/
theorem fillL_same : ∀ (bs : List Nat) (s s' : State V), s'.mem = s.mem →
    (fillL s' bs (bs.map s.mem)).mem = s.mem
  | [], s, s', h => h
  | b :: bs, s, s', h => by
    rw [List.map_cons, fillL]
    refine fillL_same bs s _ ?_
    funext c j
    simp only [State.fill]
    split
    · next e => rw [e]
    · rw [h]

/-- A value an operation does not define is kept. -/
theorem step_env {x : Nat} {o : Op} {s s' : State V} (h : step W s o = some s') (hx : x ∉ o.defs) :
    s'.env x = s.env x := by
  cases o with
  | alloc m => simp only [step, Option.some.injEq] at h; rw [h]
  | view m src => simp only [step, Option.some.injEq] at h; rw [h]
  | global m => simp only [step, Option.some.injEq] at h; rw [h]
  | store v m idx =>
    simp only [step, Option.map_eq_some_iff] at h
    obtain ⟨k, -, rfl⟩ := h
    rfl
  | load r m idx =>
    simp only [step, Option.map_eq_some_iff] at h
    obtain ⟨k, -, rfl⟩ := h
    simp only [Op.defs, List.mem_singleton] at hx
    simp only [State.set, if_neg hx]
  | other f rs ms args mems =>
    simp only [step, Option.some.injEq] at h
    simp only [Op.defs] at hx
    rw [← h, setL_other _ _ _ hx, fillL_env]

/-! ## Keys -/

theorem materialize_val (s : State V) : ∀ {idx : List Idx} {is : List Int},
    materialize idx = some is → idx.map (idxVal W s) = is
  | [], is, h => by simpa [materialize] using h
  | .inl i :: idx, is, h => by
    simp only [materialize, Option.map_eq_some_iff] at h
    obtain ⟨js, hj, rfl⟩ := h
    rw [List.map_cons, materialize_val s hj]
    rfl
  | .inr x :: idx, is, h => by simp [materialize] at h

theorem static_vals {m : Nat} (h : Static T W m) :
    (T.lay m).offsetVal = (W.desc m).offset ∧ (T.lay m).strideVals = (W.desc m).strides := by
  unfold Static at h
  rw [h]
  simp [Layout.offsetVal, Layout.strideVals, Function.comp_def]

/-- The key is the source and the address. -/
theorem key_addr {before : List Op} {m : Nat} {idx : List Idx} {k : Nat × Int}
    (h : key T before m idx = .ok k) (hm : Static T W m) (s : State V) :
    addr W s m idx = some k.2 ∧ findSource before m = some k.1 := by
  unfold key at h
  split at h
  · simp at h
  · next is his =>
    split at h
    · next j t hj ht =>
      simp only [Res.ok.injEq] at h
      subst h
      refine ⟨?_, ht⟩
      obtain ⟨h1, h2⟩ := static_vals hm
      rw [addr, materialize_val s his, ← h1, ← h2, hj]
    · simp at h

/-- The source has the buffer and is an argument or an allocation. -/
theorem findSource_spec {args margs : List Nat} : ∀ {before : List Op} {m t : Nat},
    wf args margs before.reverse → m ∈ mscope margs before.reverse →
    (∀ m s, .view m s ∈ before → (W.desc m).buf = (W.desc s).buf) →
    findSource before m = some t →
    (W.desc t).buf = (W.desc m).buf ∧ (t ∈ margs ∨ .alloc t ∈ before) ∧
      (t ∈ margs → .alloc t ∉ before)
  | [], m, t, _, hm, _, h => by
    simp only [findSource, Option.some.injEq] at h
    subst h
    simp only [List.reverse_nil, mscope, List.foldl_nil] at hm
    exact ⟨rfl, .inl hm, by simp⟩
  | o :: before, m, t, hw, hm, hv, h => by
    rw [List.reverse_cons] at hw hm
    obtain ⟨hw1, hw2⟩ := (wf_append _ _ _ _).1 hw
    rw [mscope_append, mscope_mem] at hm
    obtain ⟨hu, hd, hmu, hmd, -⟩ := hw2
    have lift : ∀ {m : Nat}, m ∈ mscope margs before.reverse → findSource before m = some t →
        (W.desc t).buf = (W.desc m).buf ∧ (t ∈ margs ∨ .alloc t ∈ o :: before) ∧
          (t ∈ margs → .alloc t ∉ o :: before) := by
      intro m hm h
      obtain ⟨h1, h2, h3⟩ := findSource_spec hw1 hm (fun m s h => hv m s (by simp [h])) h
      refine ⟨h1, h2.imp_right fun h => by simp [h], fun ht hc => ?_⟩
      rcases List.mem_cons.1 hc with rfl | hc
      · exact hmd t (by simp [Op.mdefs]) ((mscope_mem _ _).2 (.inl ht))
      · exact h3 ht hc
    have pass : m ∉ o.mdefs → m ∈ mscope margs before.reverse := by
      intro hn
      rcases hm with hm | ⟨o', ho', hm⟩
      · exact hm
      · rw [List.mem_singleton] at ho'
        exact absurd (ho' ▸ hm) hn
    cases o with
    | alloc r =>
      simp only [findSource] at h
      split at h
      · next e =>
        simp only [Option.some.injEq] at h
        subst h
        refine ⟨rfl, .inr (by simp [e]), fun ht => ?_⟩
        exact absurd ((mscope_mem _ _).2 (.inl ht)) (hmd m (by simp [Op.mdefs, e]))
      · next e => exact lift (pass (by simpa [Op.mdefs] using fun e' => e e'.symm)) h
    | view r s =>
      simp only [findSource] at h
      split at h
      · next e =>
        obtain ⟨h1, h2, h3⟩ := lift (hmu s (by simp [Op.muses])) h
        exact ⟨by rw [h1, ← e, hv r s (by simp)], h2, h3⟩
      · next e => exact lift (pass (by simpa [Op.mdefs] using fun e' => e e'.symm)) h
    | global r =>
      simp only [findSource] at h
      split at h
      · simp at h
      · next e => exact lift (pass (by simpa [Op.mdefs] using fun e' => e e'.symm)) h
    | store v r idx => exact lift (pass (by simp [Op.mdefs])) h
    | load v r idx => exact lift (pass (by simp [Op.mdefs])) h
    | other f rs ms as mems =>
      simp only [findSource] at h
      split at h
      · simp at h
      · next e => exact lift (pass e) h

/-! ## The latest store -/

theorem storeMap_cons {o : Op} {ops : List Op} (h : storeMap T (o :: ops) = .ok ()) :
    storeMap T ops = .ok () ∧ ∀ v m idx, o = .store v m idx → ∃ k, key T ops m idx = .ok k := by
  cases o with
  | store v m idx =>
    simp only [storeMap] at h
    split at h
    · next hs =>
      refine ⟨hs, ?_⟩
      rintro v' m' idx' he
      simp only [Op.store.injEq] at he
      obtain ⟨rfl, rfl, rfl⟩ := he
      split at h
      · next k hk => exact ⟨k, hk⟩
      · simp at h
      · simp at h
    · next hs => rw [h] at hs; exact absurd rfl (hs ())
  | alloc m => exact ⟨h, by simp⟩
  | view m s => exact ⟨h, by simp⟩
  | global m => exact ⟨h, by simp⟩
  | load r m idx => exact ⟨h, by simp⟩
  | other f rs ms as mems => exact ⟨h, by simp⟩

/-- The memory at a key holds the value last stored there. -/
theorem lastStore_sound {p : Prog} (hL : Laid W p) (hS : AllStatic T W p) (hQ : Quiet W p)
    {k : Nat × Int} {v : Nat} (hk : k.1 ∈ p.margs ∨ .alloc k.1 ∈ p.body)
    (hl : ∃ r l idx, .load r l idx ∈ p.body ∧ (W.desc l).buf = (W.desc k.1).buf) :
    ∀ {before : List Op} {s s' : State V}, (∀ o ∈ before, o ∈ p.body) →
    wf p.args p.margs before.reverse → storeMap T before = .ok () →
    lastStore T k before = some v → run W before.reverse s = some s' →
    s'.mem (W.desc k.1).buf k.2 = s'.env v ∧ v ∈ scope p.args before.reverse
  | [], s, s', _, _, _, h, _ => by simp [lastStore] at h
  | o :: before, s, s', hsub, hw, hm, h, hr => by
    rw [List.reverse_cons] at hw hr
    obtain ⟨hw1, hu, hd, hmu, hmd, -⟩ := (wf_append _ _ _ _).1 hw
    rw [run_append] at hr
    obtain ⟨s1, h1, hr⟩ := Option.bind_eq_some_iff.1 hr
    simp only [run] at hr
    obtain ⟨s2, h2, hr⟩ := Option.bind_eq_some_iff.1 hr
    simp only [Option.some.injEq] at hr
    subst hr
    obtain ⟨hm1, hm2⟩ := storeMap_cons hm
    have hsub' : ∀ o ∈ before, o ∈ p.body := fun o ho => hsub o (by simp [ho])
    have hv : ∀ m s, .view m s ∈ before → (W.desc m).buf = (W.desc s).buf :=
      fun m s h => hL.view m s (hsub' _ h)
    rw [List.reverse_cons, scope_append, scope_mem]
    -- the memory at the key and the value are kept
    have keep : lastStore T k before = some v →
        s2.mem (W.desc k.1).buf k.2 = s1.mem (W.desc k.1).buf k.2 →
        s2.mem (W.desc k.1).buf k.2 = s2.env v ∧ (v ∈ scope p.args before.reverse ∨
          ∃ o' ∈ [o], v ∈ o'.defs) := by
      intro hls he
      obtain ⟨h3, h4⟩ := lastStore_sound hL hS hQ hk hl hsub' hw1 hm1 hls h1
      exact ⟨by rw [he, h3, step_env h2 fun hd' => hd v hd' h4], .inl h4⟩
    cases o with
    | alloc m =>
      simp only [step, Option.some.injEq] at h2
      exact keep h (by rw [h2])
    | view m t =>
      simp only [step, Option.some.injEq] at h2
      exact keep h (by rw [h2])
    | global m =>
      simp only [step, Option.some.injEq] at h2
      exact keep h (by rw [h2])
    | load r m idx =>
      simp only [step, Option.map_eq_some_iff] at h2
      obtain ⟨a, -, rfl⟩ := h2
      exact keep h rfl
    | store w m idx =>
      have hst := hS.store w m idx (hsub _ (by simp))
      simp only [step, Option.map_eq_some_iff] at h2
      obtain ⟨a, ha, rfl⟩ := h2
      obtain ⟨k', hk'⟩ := hm2 w m idx rfl
      obtain ⟨ha', hsrc⟩ := key_addr (W := W) hk' hst s1
      rw [ha] at ha'
      simp only [Option.some.injEq] at ha'
      obtain ⟨hb, hsrc', -⟩ := findSource_spec hw1 (hmu m (by simp [Op.muses])) hv hsrc
      simp only [lastStore] at h
      split at h
      · next e =>
        rw [hk', Res.ok.injEq] at e
        simp only [Option.some.injEq] at h
        subst h e
        exact ⟨by simp [State.write, hb, ha'], .inl (hu w (by simp [Op.uses]))⟩
      · next e =>
        refine keep h ?_
        simp only [State.write]
        rw [if_neg]
        rintro ⟨e1, e2⟩
        apply e
        rw [hk', Res.ok.injEq]
        rw [← hb] at e1
        have := hL.apart k.1 k'.1 hk (hsrc'.imp_right fun h => hsub' _ h) e1
        exact Prod.ext this.symm (by rw [← ha', e2])
    | other f rs ms as mems =>
      simp only [step, Option.some.injEq] at h2
      refine keep h ?_
      rw [← h2, setL_mem]
      rcases hQ f rs ms as mems (hsub _ (by simp)) with hq | hq
      · rw [hq, fillL_same _ _ _ rfl]
      · rw [fillL_other]
        intro hc
        obtain ⟨m, hm, he⟩ := List.mem_map.1 hc
        obtain ⟨r, l, idx, hl1, hl2⟩ := hl
        exact hq m hm r l idx hl1 (by rw [he, hl2])

/-! ## Replacing the load -/

/-- Equal states but for `r`. -/
structure Near (r v : Nat) (s s' : State V) : Prop where
  env : ∀ x, x ≠ r → s'.env x = s.env x
  val : s.env r = s.env v
  mem : s'.mem = s.mem

theorem near_ren {r v : Nat} {s s' : State V} (h : Near r v s s') (hv : v ≠ r) (x : Nat) :
    s'.env (ren r v x) = s.env x := by
  unfold ren
  split
  · next e => rw [h.env v hv, e, h.val]
  · next e => exact h.env x e

theorem near_addr {r v : Nat} {s s' : State V} (h : Near r v s s') (hv : v ≠ r) (m : Nat)
    (idx : List Idx) : addr W s' m (idx.map (renIdx r v)) = addr W s m idx := by
  unfold addr
  rw [List.map_map]
  congr 1
  apply List.map_congr_left
  intro i _
  cases i with
  | inl i => rfl
  | inr x => simp only [Function.comp_apply, renIdx, idxVal, near_ren h hv]

theorem near_set {r v : Nat} {s s' : State V} (h : Near r v s s') {x : Nat} (hr : x ≠ r)
    (hv : x ≠ v) (a : V) : Near r v (s.set x a) (s'.set x a) where
  env y hy := by simp only [State.set, h.env y hy]
  val := by
    simp only [State.set]
    rw [if_neg (Ne.symm hr), if_neg (Ne.symm hv), h.val]
  mem := h.mem

theorem near_setL {r v : Nat} : ∀ {rs : List Nat} {vs : List V} {s s' : State V}, Near r v s s' →
    r ∉ rs → v ∉ rs → Near r v (setL s rs vs) (setL s' rs vs)
  | [], _, _, _, h, _, _ => by simpa [setL] using h
  | _ :: _, [], _, _, h, _, _ => by simpa [setL] using h
  | x :: rs, a :: vs, s, s', h, hr, hv => by
    simp only [setL]
    simp only [List.mem_cons, not_or] at hr hv
    exact near_setL (near_set h (Ne.symm hr.1) (Ne.symm hv.1) a) hr.2 hv.2

theorem near_fillL {r v : Nat} : ∀ {bs : List Nat} {fs : List (Int → V)} {s s' : State V},
    Near r v s s' → Near r v (fillL s bs fs) (fillL s' bs fs)
  | [], _, _, _, h => by simpa [fillL] using h
  | _ :: _, [], _, _, h => by simpa [fillL] using h
  | b :: bs, f :: fs, s, s', h => by
    simp only [fillL]
    exact near_fillL ⟨h.env, h.val, by simp only [State.fill, h.mem]⟩

theorem near_step {r v : Nat} {s s' : State V} (h : Near r v s s') (hv : v ≠ r) {o : Op}
    (hr : r ∉ o.defs) (hvd : v ∉ o.defs) {s1 : State V} (hs : step W s o = some s1) :
    ∃ s1', step W s' (o.rename r v) = some s1' ∧ Near r v s1 s1' := by
  cases o with
  | alloc m =>
    simp only [step, Option.some.injEq] at hs; subst hs; exact ⟨s', rfl, h⟩
  | view m t =>
    simp only [step, Option.some.injEq] at hs; subst hs; exact ⟨s', rfl, h⟩
  | global m =>
    simp only [step, Option.some.injEq] at hs; subst hs; exact ⟨s', rfl, h⟩
  | store w m idx =>
    simp only [step, Option.map_eq_some_iff] at hs
    obtain ⟨k, hk, rfl⟩ := hs
    refine ⟨_, by simp only [Op.rename, step, near_addr h hv, hk, Option.map_some]; rfl, ?_⟩
    exact ⟨h.env, h.val, by simp only [State.write, h.mem, near_ren h hv]⟩
  | load x m idx =>
    simp only [step, Option.map_eq_some_iff] at hs
    obtain ⟨k, hk, rfl⟩ := hs
    refine ⟨_, by simp only [Op.rename, step, near_addr h hv, hk, Option.map_some]; rfl, ?_⟩
    rw [h.mem]
    simp only [Op.defs, List.mem_singleton] at hr hvd
    exact near_set h (Ne.symm hr) (Ne.symm hvd) _
  | other f rs ms as mems =>
    simp only [step, Option.some.injEq] at hs
    subst hs
    refine ⟨_, rfl, ?_⟩
    have e : (as.map (ren r v)).map s'.env = as.map s.env := by
      rw [List.map_map]
      exact List.map_congr_left fun x _ => near_ren h hv x
    rw [e, h.mem]
    exact near_setL (near_fillL h) hr hvd

theorem near_run {r v : Nat} (hv : v ≠ r) : ∀ {os : List Op} {s s' s1 : State V}, Near r v s s' →
    (∀ o ∈ os, r ∉ o.defs ∧ v ∉ o.defs) → run W os s = some s1 →
    ∃ s1', run W (os.map (Op.rename r v)) s' = some s1' ∧ Near r v s1 s1'
  | [], s, s', s1, h, _, hs => by
    simp only [run, Option.some.injEq] at hs
    subst hs
    exact ⟨s', rfl, h⟩
  | o :: os, s, s', s1, h, hd, hs => by
    simp only [run] at hs
    obtain ⟨s2, h2, hs⟩ := Option.bind_eq_some_iff.1 hs
    obtain ⟨s2', h2', h3⟩ := near_step h hv (hd o (by simp)).1 (hd o (by simp)).2 h2
    obtain ⟨s1', h4, h5⟩ := near_run hv h3 (fun o ho => hd o (by simp [ho])) hs
    exact ⟨s1', by rw [List.map_cons, run, h2', Option.bind_some, h4], h5⟩

/-! ## Validity after replacing -/

theorem rename_defs (r v : Nat) (o : Op) : (o.rename r v).defs = o.defs := by cases o <;> rfl
theorem rename_mdefs (r v : Nat) (o : Op) : (o.rename r v).mdefs = o.mdefs := by cases o <;> rfl
theorem rename_muses (r v : Nat) (o : Op) : (o.rename r v).muses = o.muses := by cases o <;> rfl

theorem idxUses_ren (r v : Nat) : ∀ idx : List Idx,
    idxUses (idx.map (renIdx r v)) = (idxUses idx).map (ren r v)
  | [] => rfl
  | .inl i :: idx => by
    have := idxUses_ren r v idx
    simpa [idxUses, renIdx] using this
  | .inr x :: idx => by
    have := idxUses_ren r v idx
    simpa [idxUses, renIdx] using this

theorem rename_uses (r v : Nat) (o : Op) : (o.rename r v).uses = o.uses.map (ren r v) := by
  cases o <;> simp [Op.rename, Op.uses, idxUses_ren]

theorem wf_rename {r v : Nat} : ∀ {os : List Op} {sc sc' mc : List Nat}, wf sc mc os →
    r ∈ sc → (∀ x ∈ sc, ren r v x ∈ sc') → (∀ x ∈ sc', x ∈ sc) →
    wf sc' mc (os.map (Op.rename r v))
  | [], _, _, _, _, _, _, _ => trivial
  | o :: os, sc, sc', mc, h, hr, h1, h2 => by
    obtain ⟨hu, hd, hmu, hmd, hw⟩ := h
    refine ⟨?_, ?_, ?_, ?_, ?_⟩
    · rw [rename_uses]
      intro x hx
      obtain ⟨y, hy, rfl⟩ := List.mem_map.1 hx
      exact h1 y (hu y hy)
    · rw [rename_defs]; exact fun x hx hs => hd x hx (h2 x hs)
    · rw [rename_muses]; exact hmu
    · rw [rename_mdefs]; exact hmd
    · rw [rename_defs, rename_mdefs]
      refine wf_rename hw (List.mem_append_right _ hr) (fun x hx => ?_) (fun x hx => ?_)
      · rcases List.mem_append.1 hx with hx | hx
        · by_cases e : x = r
          · -- `r` is not defined here
            subst e
            unfold ren
            rw [if_pos rfl]
            exact absurd hr (hd x hx)
          · simp only [ren, if_neg e]; exact List.mem_append_left _ hx
        · exact List.mem_append_right _ (h1 x hx)
      · rcases List.mem_append.1 hx with hx | hx
        · exact List.mem_append_left _ hx
        · exact List.mem_append_right _ (h2 x hx)

def isLoad : Op → Bool
  | .load _ _ _ => true
  | _ => false

theorem filter_keep {o : Op} (h : isLoad o = false) (ops : List Op) :
    (o :: ops).filter (!isLoad ·) = o :: ops.filter (!isLoad ·) :=
  List.filter_cons_of_pos (by rw [h]; rfl)

theorem filter_load (r m : Nat) (idx : List Idx) (ops : List Op) :
    (.load r m idx :: ops : List Op).filter (!isLoad ·) = ops.filter (!isLoad ·) :=
  List.filter_cons_of_neg (by simp [isLoad])

theorem findSource_noLoads : ∀ (ops : List Op) (m : Nat),
    findSource (ops.filter (!isLoad ·)) m = findSource ops m
  | [], _ => rfl
  | .load _ _ _ :: ops, m => by
    rw [filter_load, findSource_noLoads ops m, findSource]
  | .alloc r :: ops, m => by
    rw [filter_keep rfl]; simp only [findSource, findSource_noLoads ops]
  | .view r s :: ops, m => by
    rw [filter_keep rfl]; simp only [findSource, findSource_noLoads ops]
  | .global r :: ops, m => by
    rw [filter_keep rfl]; simp only [findSource, findSource_noLoads ops]
  | .store v r idx :: ops, m => by
    rw [filter_keep rfl]; simp only [findSource, findSource_noLoads ops]
  | .other f rs ms as mems :: ops, m => by
    rw [filter_keep rfl]; simp only [findSource, findSource_noLoads ops]

theorem key_noLoads (ops : List Op) (m : Nat) (idx : List Idx) :
    key T (ops.filter (!isLoad ·)) m idx = key T ops m idx := by
  unfold key
  rw [findSource_noLoads]

theorem storeMap_noLoads : ∀ ops : List Op, storeMap T (ops.filter (!isLoad ·)) = storeMap T ops
  | [] => rfl
  | .load _ _ _ :: ops => by rw [filter_load, storeMap_noLoads ops, storeMap]; simp
  | .alloc r :: ops => by
    rw [filter_keep rfl]; simpa only [storeMap] using storeMap_noLoads ops
  | .view r s :: ops => by
    rw [filter_keep rfl]; simpa only [storeMap] using storeMap_noLoads ops
  | .global r :: ops => by
    rw [filter_keep rfl]; simpa only [storeMap] using storeMap_noLoads ops
  | .store v r idx :: ops => by
    rw [filter_keep rfl]; simp only [storeMap, storeMap_noLoads ops, key_noLoads]
  | .other f rs ms as mems :: ops => by
    rw [filter_keep rfl]; simpa only [storeMap] using storeMap_noLoads ops

theorem findSource_rename (r v : Nat) : ∀ (xs ops : List Op) (m : Nat),
    findSource (xs.map (Op.rename r v) ++ ops) m = findSource (xs ++ ops) m
  | [], _, _ => rfl
  | .load _ _ _ :: xs, ops, m => by simp [Op.rename, findSource, findSource_rename r v xs ops]
  | .alloc _ :: xs, ops, m => by simp [Op.rename, findSource, findSource_rename r v xs ops]
  | .view _ _ :: xs, ops, m => by simp [Op.rename, findSource, findSource_rename r v xs ops]
  | .global _ :: xs, ops, m => by simp [Op.rename, findSource, findSource_rename r v xs ops]
  | .store _ _ _ :: xs, ops, m => by simp [Op.rename, findSource, findSource_rename r v xs ops]
  | .other _ _ _ _ _ :: xs, ops, m => by simp [Op.rename, findSource, findSource_rename r v xs ops]

theorem materialize_rename (r v : Nat) : ∀ idx : List Idx,
    materialize (idx.map (renIdx r v)) = materialize idx
  | [] => rfl
  | .inl i :: idx => by simp [renIdx, materialize, materialize_rename r v idx]
  | .inr i :: idx => by simp [renIdx, materialize]

theorem storeMap_rename (r v : Nat) (ops : List Op) : ∀ xs : List Op,
    storeMap T (xs.map (Op.rename r v) ++ ops) = storeMap T (xs ++ ops)
  | [] => rfl
  | .load _ _ _ :: xs => by simp [Op.rename, storeMap, storeMap_rename r v ops xs]
  | .alloc _ :: xs => by simp [Op.rename, storeMap, storeMap_rename r v ops xs]
  | .view _ _ :: xs => by simp [Op.rename, storeMap, storeMap_rename r v ops xs]
  | .global _ :: xs => by simp [Op.rename, storeMap, storeMap_rename r v ops xs]
  | .store _ m idx :: xs => by
    simp only [List.map_cons, List.cons_append, Op.rename, storeMap, storeMap_rename r v ops xs]
    have : key T (xs.map (Op.rename r v) ++ ops) m (idx.map (renIdx r v)) =
        key T (xs ++ ops) m idx := by
      unfold key
      rw [materialize_rename, findSource_rename]
    rw [this]
  | .other _ _ _ _ _ :: xs => by simp [Op.rename, storeMap, storeMap_rename r v ops xs]

/-- The stores up to some operation. -/
theorem storeMap_suffix : ∀ {xs ops : List Op}, storeMap T (xs ++ ops) = .ok () →
    storeMap T ops = .ok ()
  | [], _, h => h
  | _ :: _, _, h => storeMap_suffix (storeMap_cons h).1

/-! ## Indices of the source -/

theorem go_spec : ∀ {l : List Int} {n : Int} {is : List Int},
    unflattenIndex.go n (l ++ [1]) = some is → ∀ off, flattenIndex off is (l ++ [1]) = some (off + n)
  | [], n, is, h, off => by
    simp only [List.nil_append, unflattenIndex.go, one_ne_zero, if_false, Option.map_some,
      Option.some.injEq, Int.tdiv_one] at h
    subst h
    simp [flattenIndex]
  | s :: l, n, is, h, off => by
    simp only [List.cons_append, unflattenIndex.go] at h
    split at h
    · simp at h
    · simp only [Option.map_eq_some_iff] at h
      obtain ⟨js, hj, rfl⟩ := h
      simp only [List.cons_append, flattenIndex]
      rw [go_spec hj]
      have := Int.tmod_add_mul_tdiv n s
      rw [Int.mul_comm] at this
      simp only [Option.some.injEq]
      omega

theorem unflatten_spec {l : List Int} {n off : Int} {is : List Int}
    (h : unflattenIndex n off (l ++ [1]) = some is) : flattenIndex off is (l ++ [1]) = some n := by
  unfold unflattenIndex at h
  rw [go_spec h]
  simp

/-! ## A step -/

theorem map_inl (W : World V) (s : State V) (is : List Int) :
    (is.map Sum.inl : List Idx).map (idxVal W s) = is := by
  rw [List.map_map]
  exact List.map_id' is

theorem idxUses_inl (is : List Int) : idxUses (is.map Sum.inl : List Idx) = [] := by
  induction is with
  | nil => rfl
  | cons i is ih => simpa [idxUses] using ih

/-- What is known of the source of a load that is forwarded. -/
theorem load_src {p : Prog} (hG : Good T W p) {pre after : List Op} {r m : Nat} {idx : List Idx}
    (hb : p.body = pre ++ .load r m idx :: after) {k : Nat × Int}
    (hk : key T pre.reverse m idx = .ok k) :
    (W.desc k.1).buf = (W.desc m).buf ∧ (k.1 ∈ p.margs ∨ .alloc k.1 ∈ pre) := by
  have h2 : findSource pre.reverse m = some k.1 := by
    unfold key at hk
    split at hk
    · simp at hk
    · split at hk
      · next hj ht =>
        simp only [Res.ok.injEq] at hk
        subst hk
        exact ht
      · simp at hk
  have hw := hG.wf.1
  rw [hb] at hw
  obtain ⟨hw1, hw2⟩ := (wf_append _ _ _ _).1 hw
  obtain ⟨h3, h4, -⟩ := findSource_spec (W := W) (args := p.args) (margs := p.margs)
    (by rw [List.reverse_reverse]; exact hw1)
    (by rw [List.reverse_reverse]; exact hw2.2.2.1 m (by simp [Op.muses]))
    (fun m s h => hG.laid.view m s (by rw [hb]; simp at h; simp [h])) h2
  exact ⟨h3, h4.imp_right fun h => by simpa using h⟩

theorem load_key {p : Prog} (hG : Good T W p) {pre after : List Op} {r m : Nat} {idx : List Idx}
    (hb : p.body = pre ++ .load r m idx :: after) {k : Nat × Int}
    (hk : key T pre.reverse m idx = .ok k) (s : State V) :
    addr W s m idx = some k.2 ∧ (W.desc k.1).buf = (W.desc m).buf ∧
      (k.1 ∈ p.margs ∨ .alloc k.1 ∈ pre) :=
  ⟨(key_addr hk (hG.static.load r m idx (by rw [hb]; simp)) s).1, load_src hG hb hk⟩

theorem replace_good {p : Prog} (hG : Good T W p) {pre after : List Op} {r m : Nat}
    {idx : List Idx} (hb : p.body = pre ++ .load r m idx :: after) {v : Nat}
    (hv : v ∈ scope p.args pre) :
    Good T W { p with body := pre ++ after.map (Op.rename r v), rets := p.rets.map (ren r v) } := by
  have hw := hG.wf.1
  rw [hb] at hw
  obtain ⟨hw1, hu, hd, hmu, hmd, hw2⟩ := (wf_append _ _ _ _).1 hw
  have hmem : ∀ o ∈ pre ++ after.map (Op.rename r v), ∃ o' ∈ p.body, o = o' ∨ o = o'.rename r v := by
    intro o ho
    rw [hb]
    rcases List.mem_append.1 ho with ho | ho
    · exact ⟨o, by simp [ho], .inl rfl⟩
    · obtain ⟨o', ho', rfl⟩ := List.mem_map.1 ho
      exact ⟨o', by simp [ho'], .inr rfl⟩
  have hren : ∀ x, x ∈ r :: scope p.args pre → ren r v x ∈ scope p.args pre := by
    intro x hx
    unfold ren
    split
    · exact hv
    · next e => rcases List.mem_cons.1 hx with h | h; exact absurd h e; exact h
  have hscope : ∀ x, x ∈ scope p.args p.body →
      ren r v x ∈ scope p.args (pre ++ after.map (Op.rename r v)) := by
    intro x hx
    rw [hb, scope_append, scope_cons, scope_mem] at hx
    rw [scope_append, scope_mem]
    rcases hx with hx | ⟨o, ho, hx⟩
    · exact .inl (hren x hx)
    · refine .inr ⟨o.rename r v, List.mem_map_of_mem ho, ?_⟩
      rw [rename_defs]
      have : x ≠ r := by
        rintro rfl
        exact wf_fresh hw2 (by simp [Op.defs]) o ho hx
      simpa [ren, this] using hx
  refine ⟨⟨?_, ?_, ?_⟩, ⟨?_, ?_⟩, ⟨?_, ?_, hG.static.arg⟩, ?_, ?_⟩
  · exact (wf_append _ _ _ _).2 ⟨hw1, wf_rename hw2 (by simp [Op.defs])
      (by simpa [Op.defs] using hren) (fun x hx => by simp [Op.defs, hx])⟩
  · intro x hx
    obtain ⟨y, hy, rfl⟩ := List.mem_map.1 hx
    exact hscope y (hG.wf.2.1 y hy)
  · intro x hx
    have := hG.wf.2.2 x hx
    simp only
    rw [hb, mscope_append, mscope_cons, mscope_mem] at this
    rw [mscope_append, mscope_mem]
    rcases this with h | ⟨o, ho, h⟩
    · exact .inl h
    · exact .inr ⟨o.rename r v, List.mem_map_of_mem ho, by rw [rename_mdefs]; exact h⟩
  · intro x s hx
    obtain ⟨o', ho', e | e⟩ := hmem _ hx
    · exact hG.laid.view x s (by rw [e]; exact ho')
    · cases o' <;> simp [Op.rename] at e
      obtain ⟨rfl, rfl⟩ := e
      exact hG.laid.view _ _ ho'
  · intro s t hs ht
    refine hG.laid.apart s t ?_ ?_
    · refine hs.imp_right fun h => ?_
      obtain ⟨o', ho', e | e⟩ := hmem _ h
      · rw [e]; exact ho'
      · cases o' <;> simp [Op.rename] at e
        subst e; exact ho'
    · refine ht.imp_right fun h => ?_
      obtain ⟨o', ho', e | e⟩ := hmem _ h
      · rw [e]; exact ho'
      · cases o' <;> simp [Op.rename] at e
        subst e; exact ho'
  · intro w x i hx
    obtain ⟨o', ho', e | e⟩ := hmem _ hx
    · exact hG.static.store w x i (by rw [e]; exact ho')
    · cases o' <;> simp [Op.rename] at e
      obtain ⟨-, rfl, -⟩ := e
      exact hG.static.store _ _ _ ho'
  · intro w x i hx
    obtain ⟨o', ho', e | e⟩ := hmem _ hx
    · exact hG.static.load w x i (by rw [e]; exact ho')
    · cases o' <;> simp [Op.rename] at e
      obtain ⟨-, rfl, -⟩ := e
      exact hG.static.load _ _ _ ho'
  · intro f rs ms as mems hx
    have hload : ∀ r' l idx', .load r' l idx' ∈ pre ++ after.map (Op.rename r v) →
        ∃ idx, .load r' l idx ∈ p.body := by
      intro r' l idx' hl
      obtain ⟨o', ho', e | e⟩ := hmem _ hl
      · exact ⟨idx', by rw [e]; exact ho'⟩
      · cases o' <;> simp [Op.rename] at e
        obtain ⟨rfl, rfl, -⟩ := e
        exact ⟨_, ho'⟩
    obtain ⟨o', ho', e | e⟩ := hmem _ hx
    · rcases hG.quiet f rs ms as mems (by rw [e]; exact ho') with h | h
      · exact .inl h
      · refine .inr fun m hm r' l idx' hl => ?_
        obtain ⟨i, hi⟩ := hload r' l idx' hl
        exact h m hm r' l i hi
    · cases o' <;> simp [Op.rename] at e
      obtain ⟨rfl, rfl, rfl, rfl, rfl⟩ := e
      rcases hG.quiet _ _ _ _ _ ho' with h | h
      · exact .inl h
      · refine .inr fun m hm r' l idx' hl => ?_
        obtain ⟨i, hi⟩ := hload r' l idx' hl
        exact h m hm r' l i hi
  · have := hG.stores
    rw [hb, List.reverse_append, List.reverse_cons, List.append_assoc] at this
    simp only
    rw [List.reverse_append, ← List.map_reverse, storeMap_rename, ← storeMap_noLoads]
    rw [← storeMap_noLoads] at this
    simpa [List.filter_append, isLoad] using this

theorem replace_same {p : Prog} (hG : Good T W p) {pre after : List Op} {r m : Nat}
    {idx : List Idx} (hb : p.body = pre ++ .load r m idx :: after) {k : Nat × Int}
    (hk : key T pre.reverse m idx = .ok k) {v : Nat} (hl : lastStore T k pre.reverse = some v) :
    v ∈ scope p.args pre ∧
    SameResult W p { p with body := pre ++ after.map (Op.rename r v), rets := p.rets.map (ren r v) }
      (fun _ => False) := by
  have hw := hG.wf.1
  rw [hb] at hw
  obtain ⟨hw1, hu, hd, hmu, hmd, hw2⟩ := (wf_append _ _ _ _).1 hw
  have hst := hG.stores
  rw [hb, List.reverse_append, List.reverse_cons, List.append_assoc] at hst
  have hst' := storeMap_suffix (storeMap_suffix hst)
  have hsound : ∀ {s s' : State V}, run W pre s = some s' →
      s'.mem (W.desc k.1).buf k.2 = s'.env v ∧ v ∈ scope p.args pre := by
    intro s s' hr
    obtain ⟨-, h2, h3⟩ := load_key hG hb hk s'
    have := lastStore_sound (before := pre.reverse) (s := s) (s' := s') hG.laid hG.static hG.quiet
      (h3.imp_right fun h => by rw [hb]; simp [h]) ⟨r, m, idx, by rw [hb]; simp, h2.symm⟩
      (fun o ho => by rw [hb]; simp at ho; simp [ho])
      (by rw [List.reverse_reverse]; exact hw1) hst' hl (by rw [List.reverse_reverse]; exact hr)
    rwa [List.reverse_reverse] at this
  have hvs : v ∈ scope p.args pre := by
    -- the stored value is visible, whatever the run
    clear hsound
    have : ∀ {ops : List Op}, wf p.args p.margs ops.reverse → lastStore T k ops = some v →
        v ∈ scope p.args ops.reverse := by
      intro ops
      induction ops with
      | nil => intro _ h; simp [lastStore] at h
      | cons o ops ih =>
        intro hw h
        rw [List.reverse_cons] at hw ⊢
        obtain ⟨hw1, hu, -⟩ := (wf_append _ _ _ _).1 hw
        rw [scope_append, scope_mem]
        cases o with
        | store w m idx =>
          simp only [lastStore] at h
          split at h
          · simp only [Option.some.injEq] at h
            subst h
            exact .inl (hu w (by simp [Op.uses]))
          · exact .inl (ih hw1 h)
        | _ => exact .inl (ih hw1 h)
    have := this (by rw [List.reverse_reverse]; exact hw1) hl
    rwa [List.reverse_reverse] at this
  refine ⟨hvs, ?_⟩
  have hvr : v ≠ r := by
    rintro rfl
    exact hd v (by simp [Op.defs]) hvs
  intro s s1 hr
  rw [hb, run_append] at hr
  obtain ⟨s2, h2, hr⟩ := Option.bind_eq_some_iff.1 hr
  simp only [run] at hr
  obtain ⟨s3, h3, hr⟩ := Option.bind_eq_some_iff.1 hr
  obtain ⟨ha, hbuf, -⟩ := load_key hG hb hk s2
  simp only [step, ha, Option.map_some, Option.some.injEq] at h3
  obtain ⟨hval, -⟩ := hsound h2
  have hnear : Near r v s3 s2 := by
    rw [← h3, ← hbuf, hval]
    refine ⟨fun x hx => by simp [State.set, hx], ?_, rfl⟩
    simp [State.set, hvr]
  obtain ⟨s1', h4, h5⟩ := near_run hvr hnear (fun o ho =>
    ⟨wf_fresh hw2 (by simp [Op.defs]) o ho, wf_fresh hw2 (by simp [hvs]) o ho⟩) hr
  refine ⟨s1', by simp only [run_append, h2, Option.bind_some, h4], ?_, fun b _ => by rw [h5.mem]⟩
  simp only [List.map_map]
  exact List.map_congr_left fun x _ => near_ren h5 hvr x

theorem reload_same {p : Prog} (hG : Good T W p) {pre after : List Op} {r m : Nat}
    {idx : List Idx} (hb : p.body = pre ++ .load r m idx :: after) {k : Nat × Int}
    (hk : key T pre.reverse m idx = .ok k) (ha : isAlloc pre.reverse k.1 = false) {is : List Int}
    (hi : unflattenIndex k.2 (T.lay k.1).offsetVal (T.lay k.1).strideVals = some is) :
    Good T W { p with body := pre ++ .load r k.1 (is.map .inl) :: after } ∧
    SameResult W p { p with body := pre ++ .load r k.1 (is.map .inl) :: after }
      (fun _ => False) := by
  have hw := hG.wf.1
  rw [hb] at hw
  obtain ⟨hw1, hu, hd, hmu, hmd, hw2⟩ := (wf_append _ _ _ _).1 hw
  obtain ⟨hbuf, hor⟩ := load_src hG hb hk
  have hkarg : k.1 ∈ p.margs := by
    rcases hor with h | h
    · exact h
    · simp [isAlloc, h] at ha
  obtain ⟨hks, l, hl⟩ := hG.static.arg _ hkarg
  have hidx : flattenIndex (W.desc k.1).offset is (W.desc k.1).strides = some k.2 := by
    obtain ⟨h1, h2⟩ := static_vals hks
    rw [h1, h2, hl] at hi
    rw [hl]
    exact unflatten_spec hi
  have hmem : ∀ o ∈ pre ++ .load r k.1 (is.map .inl) :: after, isLoad o = false → o ∈ p.body := by
    intro o ho hn
    rw [hb]
    rcases List.mem_append.1 ho with ho | ho
    · simp [ho]
    · rcases List.mem_cons.1 ho with rfl | ho
      · simp [isLoad] at hn
      · simp [ho]
  have hsc : scope p.args (pre ++ .load r k.1 (is.map .inl) :: after) = scope p.args p.body := by
    rw [hb, scope_append, scope_cons, scope_append, scope_cons]
    rfl
  have hmsc : mscope p.margs (pre ++ .load r k.1 (is.map .inl) :: after) =
      mscope p.margs p.body := by
    rw [hb, mscope_append, mscope_cons, mscope_append, mscope_cons]
    rfl
  refine ⟨⟨⟨?_, ?_, ?_⟩, ⟨?_, ?_⟩, ⟨?_, ?_, hG.static.arg⟩, ?_, ?_⟩, ?_⟩
  · refine (wf_append _ _ _ _).2 ⟨hw1, ?_, hd, ?_, hmd, hw2⟩
    · intro x hx
      simp [Op.uses, idxUses_inl] at hx
    · intro x hx
      simp only [Op.muses, List.mem_singleton] at hx
      subst hx
      exact (mscope_mem _ _).2 (.inl hkarg)
  · intro x hx
    simp only [hsc]
    exact hG.wf.2.1 x hx
  · intro x hx
    simp only [hmsc]
    exact hG.wf.2.2 x hx
  · exact fun x s hx => hG.laid.view x s (hmem _ hx rfl)
  · exact fun s t hs ht => hG.laid.apart s t (hs.imp_right fun h => hmem _ h rfl)
      (ht.imp_right fun h => hmem _ h rfl)
  · exact fun w x i hx => hG.static.store w x i (hmem _ hx rfl)
  · intro w x i hx
    rcases List.mem_append.1 hx with hx | hx
    · exact hG.static.load w x i (by rw [hb]; simp [hx])
    · rcases List.mem_cons.1 hx with e | hx
      · simp only [Op.load.injEq] at e
        obtain ⟨-, rfl, -⟩ := e
        exact hks
      · exact hG.static.load w x i (by rw [hb]; simp [hx])
  · intro f rs ms as mems hx
    refine (hG.quiet f rs ms as mems (hmem _ hx rfl)).imp_right fun h => ?_
    intro y hy w x i hx
    rcases List.mem_append.1 hx with hx | hx
    · exact h y hy w x i (by rw [hb]; simp [hx])
    · rcases List.mem_cons.1 hx with e | hx
      · simp only [Op.load.injEq] at e
        obtain ⟨-, rfl, -⟩ := e
        rw [hbuf]
        exact h y hy r m idx (by rw [hb]; simp)
      · exact h y hy w x i (by rw [hb]; simp [hx])
  · have := hG.stores
    rw [hb, ← storeMap_noLoads] at this
    simp only
    rw [← storeMap_noLoads]
    simpa [List.filter_append, isLoad] using this
  · intro s s1 hr
    rw [hb, run_append] at hr
    obtain ⟨s2, h2, hr⟩ := Option.bind_eq_some_iff.1 hr
    simp only [run] at hr
    obtain ⟨s3, h3, hr⟩ := Option.bind_eq_some_iff.1 hr
    obtain ⟨ha, -, -⟩ := load_key hG hb hk s2
    refine ⟨s1, ?_, rfl, fun _ _ => rfl⟩
    simp only [run_append, h2, Option.bind_some, run]
    have : step W s2 (.load r k.1 (is.map .inl)) = some s3 := by
      rw [← h3]
      simp only [step, ha]
      simp only [addr, map_inl, hidx, hbuf]
    rw [this]
    exact hr

theorem sameResult_refl (p : Prog) (hid : Nat → Prop) : SameResult W p p hid :=
  fun _ s1 h => ⟨s1, h, rfl, fun _ _ => rfl⟩

theorem sameResult_trans {p q r : Prog} {h1 h2 : Nat → Prop} (a : SameResult W p q h1)
    (b : SameResult W q r h2) : SameResult W p r (fun x => h1 x ∨ h2 x) := by
  intro s s1 h
  obtain ⟨s2, e2, e3, e4⟩ := a s s1 h
  obtain ⟨s3, f2, f3, f4⟩ := b s s2 e2
  exact ⟨s3, f2, f3.trans e3, fun x hx => (f4 x fun y => hx (.inr y)).trans (e4 x fun y => hx (.inl y))⟩

/-- A forwarded load. -/
theorem forward_good {p q : Prog} {i : Nat} (hG : Good T W p) (h : forward T p i = .ok q) :
    Good T W q ∧ SameResult W p q (fun _ => False) := by
  unfold forward at h
  split at h
  · next r m idx after hd =>
    have hb : p.body = p.body.take i ++ .load r m idx :: after := by
      rw [← hd, List.take_append_drop]
    unfold action at h
    split at h
    · simp at h
    · simp at h
    · simp only [Res.ok.injEq] at h
      subst h
      exact ⟨hG, sameResult_refl _ _⟩
    · next v hv =>
      simp only [Res.ok.injEq] at h
      subst h
      split at hv
      · simp at hv
      · split at hv
        · simp at hv
        · simp at hv
        · next k hk =>
          split at hv
          · next w hw =>
            split at hv
            · simp at hv
            · simp only [Res.ok.injEq, Action.replace.injEq] at hv
              subst hv
              obtain ⟨h1, h2⟩ := replace_same hG hb hk hw
              exact ⟨replace_good hG hb h1, h2⟩
          · split at hv
            · simp at hv
            · split at hv
              · simp at hv
              · split at hv <;> simp at hv
    · next s is hv =>
      simp only [Res.ok.injEq] at h
      subst h
      split at hv
      · simp at hv
      · split at hv
        · simp at hv
        · simp at hv
        · next k hk =>
          split at hv
          · split at hv <;> simp at hv
          · split at hv
            · simp at hv
            · next ha =>
              split at hv
              · simp at hv
              · split at hv
                · next hi =>
                  simp only [Res.ok.injEq, Action.reload.injEq] at hv
                  obtain ⟨rfl, rfl⟩ := hv
                  exact reload_same hG hb hk (by simpa using ha) hi
                · simp at hv
  · simp at h

end Heir.Memref
