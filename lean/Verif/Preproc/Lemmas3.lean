import Verif.Preproc.Lemmas2

namespace Heir.Preproc

variable {V K : Type}

/-! ## The function that loads -/

/-- If the memory has what the encoders of the original make, the function that
loads computes what the original computes. -/
theorem loads_run [DecidableEq K] {I : Interp V} (hI : I.Lawful) (key : Ref → Option K) :
    ∀ (c : Code) (ls : List Loop) (ivs : List Nat) (p : List Int) (s : State V K),
      Source c → (∀ v ∈ ivs, v ∉ defs c) → (defs c).Nodup → ivs.map s.env = p.map I.ofInt →
      (∀ x ∈ trace I ls p c s.env, ∃ k, key x.1 = some k ∧ s.store k = some x.2) →
      run I key ls (loads ivs c) s = ⟨eval I c s.env, s.store, s.ok⟩ := by
  intro c
  induction c with
  | done => intro ls ivs p s _ _ _ _ _; rfl
  | op id res f args rest ih =>
    intro ls ivs p s hs hiv hn hp hm
    have hiv1 : ∀ v ∈ ivs, v ∉ res := fun v hv hm => hiv v hv (by simp [defs, hm])
    have hiv2 : ∀ v ∈ ivs, v ∉ defs rest := fun v hv hm => hiv v hv (by simp [defs, hm])
    have hn' : (defs rest).Nodup := (List.nodup_append.mp hn).2.1
    simp only [loads, run, eval]
    rw [ih ls ivs p (s.set res (I.fn f (args.map s.env))) hs hiv2 hn' (by rw [State.set_env, map_setAll _ _ _ _ hiv1, hp]) hm]
    rfl
  | enc id site res f ty shape args rest ih =>
    intro ls ivs p s hs hiv hn hp hm
    have hiv1 : ∀ v ∈ ivs, v ∉ [res] := fun v hv hm => hiv v hv (by simp only [List.mem_singleton] at hm; simp [defs, hm])
    have hiv2 : ∀ v ∈ ivs, v ∉ defs rest := fun v hv hm => hiv v hv (by simp [defs, hm])
    have hn' : (defs rest).Nodup := (List.nodup_cons.mp hn).2
    simp only [trace, List.forall_mem_cons] at hm
    obtain ⟨⟨k, hk, hx⟩, hm⟩ := hm
    simp only [loads, run, eval]
    rw [idx_eq hI hp]
    have hr : s.read (key ⟨site, ty, ls, p⟩) (if isOne shape = true then I.pack else _root_.id) res =
        s.set [res] [I.enc f (isOne shape) (args.map s.env)] := by
      simp only [State.read, hk, Option.bind_some, hx]
      cases hb : isOne shape with
      | false => simp
      | true => simp [hI.pack]
    rw [hr, ih ls ivs p _ hs hiv2 hn' (by rw [State.set_env, map_setAll _ _ _ _ hiv1, hp]) hm]
    rfl
  | ite id res c t ty el ey rest iht ihe ih =>
    intro ls ivs p s hs hiv hn hp hm
    obtain ⟨hs1, hs2, hs3⟩ := hs
    have hivt : ∀ v ∈ ivs, v ∉ defs t := fun v hv hm => hiv v hv (by simp [defs, hm])
    have hive : ∀ v ∈ ivs, v ∉ defs el := fun v hv hm => hiv v hv (by simp [defs, hm])
    have hiv1 : ∀ v ∈ ivs, v ∉ res := fun v hv hm => hiv v hv (by simp [defs, hm])
    have hiv2 : ∀ v ∈ ivs, v ∉ defs rest := fun v hv hm => hiv v hv (by simp [defs, hm])
    simp only [defs, List.nodup_append] at hn
    have hn' := hn.2.1
    have hnt := hn.1.1.1
    have hne := hn.1.1.2.1
    simp only [trace, List.forall_mem_append] at hm
    simp only [loads, run, eval]
    by_cases hb : I.truth (s.env c) = true
    · simp only [hb, if_true] at hm ⊢
      rw [iht ls ivs p s hs1 hivt hnt hp hm.1]
      rw [ih ls ivs p _ hs3 hiv2 hn' (by
        rw [State.set_env, map_setAll _ _ _ _ hiv1, ← hp]
        exact List.map_congr_left fun v hv => eval_frame I t _ (hivt v hv)) hm.2]
      rfl
    · simp only [hb, Bool.false_eq_true, if_false] at hm ⊢
      rw [ihe ls ivs p s hs2 hive hne hp hm.1]
      rw [ih ls ivs p _ hs3 hiv2 hn' (by
        rw [State.set_env, map_setAll _ _ _ _ hiv1, ← hp]
        exact List.map_congr_left fun v hv => eval_frame I el _ (hive v hv)) hm.2]
      rfl
  | loop id res iv l inits iters body ys rest ihb ih =>
    intro ls ivs p s hs hiv hn hp hm
    obtain ⟨hs1, hs2⟩ := hs
    have hivb : ∀ v ∈ ivs, v ∉ defs body := fun v hv hm => hiv v hv (by simp [defs, hm])
    have hivv : ∀ v ∈ ivs, v ∉ [iv] := fun v hv hm => hiv v hv (by simp only [List.mem_singleton] at hm; simp [defs, hm])
    have hivi : ∀ v ∈ ivs, v ∉ iters := fun v hv hm => hiv v hv (by simp [defs, hm])
    have hiv1 : ∀ v ∈ ivs, v ∉ res := fun v hv hm => hiv v hv (by simp [defs, hm])
    have hiv2 : ∀ v ∈ ivs, v ∉ defs rest := fun v hv hm => hiv v hv (by simp [defs, hm])
    simp only [defs, List.cons_append, List.append_assoc, List.nodup_cons] at hn
    have hvb : iv ∉ defs body := fun hm => hn.1 (by simp [hm])
    have hn1 := (List.nodup_append.mp hn.2).2.1
    have hnb := (List.nodup_append.mp hn1).1
    have hn' := (List.nodup_append.mp (List.nodup_append.mp hn1).2.1).2.1
    simp only [trace, List.forall_mem_append] at hm
    simp only [loads, run, eval]
    have key1 : ∀ (ks : List Int) (s : State V K), ivs.map s.env = p.map I.ofInt →
        (∀ x ∈ collect (fun k e => setAll (eval I body (setAll e [iv] [I.ofInt k])) iters
              (ys.map (eval I body (setAll e [iv] [I.ofInt k]))))
            (fun k e => trace I (ls ++ [l]) (p ++ [k]) body (setAll e [iv] [I.ofInt k])) ks s.env,
          ∃ k, key x.1 = some k ∧ s.store k = some x.2) →
        ks.foldl (fun s k =>
          (run I key (ls ++ [l]) (loads (ivs ++ [iv]) body) (s.set [iv] [I.ofInt k])).set iters
            (ys.map (run I key (ls ++ [l]) (loads (ivs ++ [iv]) body) (s.set [iv] [I.ofInt k])).env)) s =
        ⟨ks.foldl (fun e k => setAll (eval I body (setAll e [iv] [I.ofInt k])) iters
          (ys.map (eval I body (setAll e [iv] [I.ofInt k])))) s.env, s.store, s.ok⟩ ∧
        ivs.map (ks.foldl (fun e k => setAll (eval I body (setAll e [iv] [I.ofInt k])) iters
          (ys.map (eval I body (setAll e [iv] [I.ofInt k])))) s.env) = p.map I.ofInt := by
      intro ks
      induction ks with
      | nil => intro s hp _; exact ⟨rfl, hp⟩
      | cons k ks ihk =>
        intro s hp hm
        simp only [collect, List.forall_mem_append] at hm
        have hp1 : (ivs ++ [iv]).map (s.set [iv] [I.ofInt k]).env = (p ++ [k]).map I.ofInt := by
          rw [List.map_append, List.map_append, State.set_env, map_setAll _ _ _ _ hivv, hp]
          simp [setAll]
        have h1 := ihb (ls ++ [l]) (ivs ++ [iv]) (p ++ [k]) (s.set [iv] [I.ofInt k]) hs1
          (by simpa [List.forall_mem_append] using fun v hv => hv.elim (hivb v) fun h => h ▸ hvb) hnb hp1 hm.1
        simp only [List.foldl_cons, h1]
        refine ihk (State.set ⟨eval I body (s.set [iv] [I.ofInt k]).env, s.store, s.ok⟩ iters _) ?_ hm.2
        rw [State.set_env, map_setAll _ _ _ _ hivi, ← hp]
        refine List.map_congr_left fun v hv => ?_
        refine (eval_frame I body _ (hivb v hv)).trans ?_
        exact setAll_notMem _ _ _ (hivv v hv)
    obtain ⟨h1, h2⟩ := key1 l.ivals (s.set iters (inits.map s.env))
      (by rw [State.set_env, map_setAll _ _ _ _ hivi, hp]) hm.1
    rw [h1, ih ls ivs p _ hs2 hiv2 hn' (by rw [State.set_env, map_setAll _ _ _ _ hiv1]; exact h2) hm.2]
    rfl
  | store => intro ls ivs p s hs; exact hs.elim
  | load => intro ls ivs p s hs; exact hs.elim

/-! ## The places of the encoded values -/

theorem mem_collect {α β : Type} (next : Int → α → α) (out : Int → α → List β) {x : β} :
    ∀ (ks : List Int) (a : α), x ∈ collect next out ks a → ∃ k ∈ ks, ∃ a, x ∈ out k a := by
  intro ks
  induction ks with
  | nil => intro a h; simp [collect] at h
  | cons k ks ih =>
    intro a h
    rcases List.mem_append.mp h with h | h
    · exact ⟨k, by simp, a, h⟩
    · obtain ⟨k', hk, a', h⟩ := ih _ h; exact ⟨k', by simp [hk], a', h⟩

theorem trace_ref (I : Interp V) : ∀ (c : Code) (ls : List Loop) (p : List Int) (e : Nat → V), InNest ls p →
    ∀ x ∈ trace I ls p c e, (x.1.site, x.1.ty, x.1.loops) ∈ encs ls c ∧ InNest x.1.loops x.1.idx ∧
      ∃ q, x.1.idx = p ++ q := by
  intro c
  induction c with
  | done => intro ls p e _ x hx; simp [trace] at hx
  | op id res f args rest ih => intro ls p e h x hx; exact ih _ _ _ h x hx
  | enc id site res f ty shape args rest ih =>
    intro ls p e h x hx
    simp only [trace, List.mem_cons] at hx
    rcases hx with rfl | hx
    · exact ⟨by simp [encs], h, [], by simp⟩
    · obtain ⟨h1, h2⟩ := ih _ _ _ h x hx; exact ⟨by simp [encs, h1], h2⟩
  | ite id res c t ty el ey rest iht ihe ih =>
    intro ls p e h x hx
    simp only [trace, List.mem_append] at hx
    rcases hx with hx | hx
    · split at hx
      · obtain ⟨h1, h2⟩ := iht _ _ _ h x hx; exact ⟨by simp [encs, h1], h2⟩
      · obtain ⟨h1, h2⟩ := ihe _ _ _ h x hx; exact ⟨by simp [encs, h1], h2⟩
    · obtain ⟨h1, h2⟩ := ih _ _ _ h x hx; exact ⟨by simp [encs, h1], h2⟩
  | loop id res iv l inits iters body ys rest ihb ih =>
    intro ls p e h x hx
    simp only [trace, List.mem_append] at hx
    rcases hx with hx | hx
    · obtain ⟨k, hk, a, hx⟩ := mem_collect _ _ _ _ hx
      obtain ⟨h1, h2, q, h3⟩ := ihb (ls ++ [l]) (p ++ [k]) _ (List.rel_append h (.cons hk .nil)) x hx
      exact ⟨by simp [encs, h1], h2, k :: q, by simp [h3]⟩
    · obtain ⟨h1, h2⟩ := ih _ _ _ h x hx; exact ⟨by simp [encs, h1], h2⟩
  | store site ty v one idx rest ih => intro ls p e h x hx; exact ih _ _ _ h x hx
  | load site ty res one idx rest ih => intro ls p e h x hx; exact ih _ _ _ h x hx

theorem ivals_nodup (l : Loop) : l.ivals.Nodup := by
  unfold Loop.ivals Loop.trip
  split
  · refine List.Nodup.map (fun a b h => ?_) List.nodup_range
    have : (a : Int) * l.step = b * l.step := by simpa using h
    have := mul_right_cancel₀ (by omega) this
    exact_mod_cast this
  · simp

/-- Site and indices. -/
def Ref.pos (r : Ref) : Nat × List Int := (r.site, r.idx)

theorem nodup_append_sites {t u : List (Ref × V)} {a b : List (Nat × Nat × List Loop)}
    (ht : (t.map (·.1.pos)).Nodup) (hu : (u.map (·.1.pos)).Nodup)
    (h1 : ∀ x ∈ t, (x.1.site, x.1.ty, x.1.loops) ∈ a) (h2 : ∀ x ∈ u, (x.1.site, x.1.ty, x.1.loops) ∈ b)
    (hab : ∀ s ∈ a.map (·.1), s ∉ b.map (·.1)) : ((t ++ u).map (·.1.pos)).Nodup := by
  rw [List.map_append]
  refine List.Nodup.append ht hu fun y hy hy' => ?_
  obtain ⟨x, hx, rfl⟩ := List.mem_map.mp hy
  obtain ⟨x', hx', he⟩ := List.mem_map.mp hy'
  have hs : x'.1.site = x.1.site := congrArg Prod.fst he
  refine hab x.1.site (List.mem_map.mpr ⟨_, h1 x hx, rfl⟩) (List.mem_map.mpr ⟨_, h2 x' hx', hs⟩)

theorem trace_nodup (I : Interp V) : ∀ (c : Code) (ls : List Loop) (p : List Int) (e : Nat → V), InNest ls p →
    ((encs ls c).map (·.1)).Nodup → ((trace I ls p c e).map (·.1.pos)).Nodup := by
  intro c
  induction c with
  | done => intro ls p e _ _; simp [trace]
  | op id res f args rest ih => intro ls p e h hn; exact ih _ _ _ h hn
  | enc id site res f ty shape args rest ih =>
    intro ls p e h hn
    simp only [encs, List.map_cons, List.nodup_cons] at hn
    simp only [trace, List.map_cons, List.nodup_cons]
    refine ⟨fun hm => hn.1 ?_, ih _ _ _ h hn.2⟩
    obtain ⟨x, hx, he⟩ := List.mem_map.mp hm
    exact List.mem_map.mpr ⟨_, (trace_ref I rest ls p _ h x hx).1, congrArg Prod.fst he⟩
  | ite id res c t ty el ey rest iht ihe ih =>
    intro ls p e h hn
    simp only [encs, List.map_append] at hn
    obtain ⟨⟨hnt, hne, hte⟩, hnr, hr⟩ := (List.nodup_append'.mp hn).imp_left List.nodup_append'.mp
    simp only [trace]
    have hr' : ∀ s ∈ (encs ls t ++ encs ls el).map (·.1), s ∉ (encs ls rest).map (·.1) := by
      intro s hs hs'; exact hr (by simpa using hs) (by simpa using hs')
    refine nodup_append_sites (a := encs ls t ++ encs ls el) (b := encs ls rest) ?_ (ih _ _ _ h hnr) ?_
      (fun x hx => (trace_ref I rest ls p _ h x hx).1) hr'
    · split
      · exact iht _ _ _ h hnt
      · exact ihe _ _ _ h hne
    · intro x hx
      split at hx
      · exact List.mem_append_left _ (trace_ref I t ls p _ h x hx).1
      · exact List.mem_append_right _ (trace_ref I el ls p _ h x hx).1
  | loop id res iv l inits iters body ys rest ihb ih =>
    intro ls p e h hn
    simp only [encs, List.map_append] at hn
    obtain ⟨hnb, hnr, hr⟩ := List.nodup_append'.mp hn
    simp only [trace]
    have href : ∀ k ∈ l.ivals, ∀ a : Nat → V, ∀ x ∈ trace I (ls ++ [l]) (p ++ [k]) body (setAll a [iv] [I.ofInt k]),
        (x.1.site, x.1.ty, x.1.loops) ∈ encs (ls ++ [l]) body ∧ ∃ q, x.1.idx = p ++ k :: q := by
      intro k hk a x hx
      obtain ⟨h1, _, q, h3⟩ := trace_ref I body (ls ++ [l]) (p ++ [k]) _ (List.rel_append h (.cons hk .nil)) x hx
      exact ⟨h1, q, by simpa using h3⟩
    refine nodup_append_sites (a := encs (ls ++ [l]) body) (b := encs ls rest) ?_ (ih _ _ _ h hnr) ?_
      (fun x hx => (trace_ref I rest ls p _ h x hx).1) fun s hs hs' => hr hs hs'
    · have hks := ivals_nodup l
      have hin : ∀ k ∈ l.ivals, InNest (ls ++ [l]) (p ++ [k]) := fun k hk => List.rel_append h (.cons hk .nil)
      revert href hin hks
      generalize l.ivals = ks
      generalize setAll e iters (inits.map e) = e0
      intro href hks hin
      induction ks generalizing e0 with
      | nil => simp [collect]
      | cons k ks ihk =>
        simp only [collect, List.map_append]
        refine List.Nodup.append (ihb _ _ _ (hin k (by simp)) hnb)
          (ihk _ (fun k' hk' => href k' (by simp [hk'])) (List.nodup_cons.mp hks).2 fun k' hk' => hin k' (by simp [hk'])) ?_
        intro y hy hy'
        obtain ⟨x, hx, rfl⟩ := List.mem_map.mp hy
        obtain ⟨x', hx', he⟩ := List.mem_map.mp hy'
        obtain ⟨k', hk', a', hx'⟩ := mem_collect _ _ _ _ hx'
        obtain ⟨-, q, hq⟩ := href k (by simp) _ x hx
        obtain ⟨-, q', hq'⟩ := href k' (by simp [hk']) _ x' hx'
        have hi : x'.1.idx = x.1.idx := congrArg Prod.snd he
        rw [hq, hq'] at hi
        have hkk : k' = k := by simpa using (List.cons.inj (List.append_cancel_left hi)).1
        exact (List.nodup_cons.mp hks).1 (hkk ▸ hk')
    · intro x hx
      obtain ⟨k, hk, a, hx⟩ := mem_collect _ _ _ _ hx
      exact (href k hk a x hx).1
  | store site ty v one idx rest ih => intro ls p e h hn; exact ih _ _ _ h hn
  | load site ty res one idx rest ih => intro ls p e h hn; exact ih _ _ _ h hn

/-- Storing values at different places keeps them all. -/
theorem writes_spec [DecidableEq K] (key : Ref → Option K) : ∀ (t : List (Ref × V)) (s : State V K),
    (∀ x ∈ t, ∃ k, key x.1 = some k) → (t.map (·.1.pos)).Nodup →
    (∀ x ∈ t, ∀ y ∈ t, key x.1 = key y.1 → x.1.pos = y.1.pos) →
    (writes key t s).ok = s.ok ∧ (∀ x ∈ t, ∃ k, key x.1 = some k ∧ (writes key t s).store k = some x.2) ∧
      ∀ k, (∀ x ∈ t, key x.1 ≠ some k) → (writes key t s).store k = s.store k := by
  intro t
  induction t with
  | nil => intro s _ _ _; simp [writes]
  | cons x t ih =>
    intro s hk hn hi
    simp only [List.map_cons, List.nodup_cons] at hn
    obtain ⟨k, hx⟩ := hk x (by simp)
    obtain ⟨h1, h2, h3⟩ := ih (s.write (key x.1) x.2) (fun y hy => hk y (by simp [hy])) hn.2
      fun y hy z hz => hi y (by simp [hy]) z (by simp [hz])
    have hw : writes key (x :: t) s = writes key t (s.write (key x.1) x.2) := rfl
    rw [hw]
    refine ⟨by rw [h1, hx]; rfl, List.forall_mem_cons.mpr ⟨⟨k, hx, ?_⟩, h2⟩, fun k' hk' => ?_⟩
    · rw [h3 k fun y hy he => hn.1 (List.mem_map.mpr ⟨y, hy, (hi x (by simp) y (by simp [hy]) (hx.trans he.symm)).symm⟩), hx]
      simp [State.write]
    · rw [h3 k' fun y hy => hk' y (by simp [hy]), hx]
      have : k' ≠ k := fun h => hk' x (by simp) (h ▸ hx)
      simp [State.write, this]

end Heir.Preproc
