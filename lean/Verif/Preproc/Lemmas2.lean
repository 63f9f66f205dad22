import Verif.Preproc.Lemmas

namespace Heir.Preproc

variable {V K : Type}

theorem forall2_live {ct : Nat → Bool} {A : Nat → Prop} (hA : ∀ v, A v → ct v = false) {vs ws : List Nat}
    (h : List.Forall₂ (fun a b => ct a = ct b) vs ws) (hw : ∀ b ∈ ws, ct b = false → A b) :
    List.Forall₂ (fun a b => A a → A b) vs ws := by
  induction h with
  | nil => exact .nil
  | @cons a b vs ws hab _ ih =>
    exact .cons (fun ha => hw b (by simp) (hab ▸ hA a ha)) (ih fun b hb => hw b (by simp [hb]))

theorem map_agree {ct : Nat → Bool} {A : Nat → Prop} {e e' : Nat → V} (h : Agree A e e') {vs : List Nat}
    (hu : ∀ v ∈ vs, ct v = false → A v) (hc : ∀ v ∈ vs, ct v = false) : vs.map e = vs.map e' :=
  List.map_congr_left fun v hv => h v (hu v hv (hc v hv))

theorem idx_eq {I : Interp V} (hI : I.Lawful) {ivs : List Nat} {p : List Int} {e : Nat → V}
    (h : ivs.map e = p.map I.ofInt) : (ivs.map fun i => I.toInt (e i)) = p := by
  have := congrArg (List.map I.toInt) h
  simpa [List.map_map, Function.comp_def, hI.int] using this

theorem run_ivs [DecidableEq K] (I : Interp V) (key : Ref → Option K) (S : List Nat) (c : Code) (ls : List Loop)
    (ivs ivs' : List Nat) (s : State V K) (h : ∀ v ∈ ivs, v ∉ defs c) :
    ivs.map (run I key ls (slice S ivs' c) s).env = ivs.map s.env :=
  List.map_congr_left fun v hv => run_frame I key _ _ _ fun hm => h v hv (defs_slice S c ivs' v hm)

/-- The function that encodes computes the same values as the original on `A`
and stores what the encoders of the original make. -/
theorem slice_run [DecidableEq K] {I : Interp V} (hI : I.Lawful) (key : Ref → Option K) {ct : Nat → Bool}
    {S : List Nat} {A : Nat → Prop} (hA : ∀ v, A v → ct v = false) :
    ∀ (c : Code) (p' : Option Nat) (ls : List Loop) (ivs : List Nat) (p : List Int) (s : State V K) (e : Nat → V),
      Source c → Typed ct c → Ok ct S A (rows p' c) → (∀ v ∈ ivs, v ∉ defs c) → (defs c).Nodup →
      Agree A s.env e → ivs.map s.env = p.map I.ofInt →
      Agree A (run I key ls (slice S ivs c) s).env (eval I c e) ∧
        SameMem (run I key ls (slice S ivs c) s) (writes key (trace I ls p c e) s) := by
  intro c
  induction c with
  | done => intro p' ls ivs p s e _ _ _ _ _ ha _; exact ⟨ha, rfl, rfl⟩
  | op id res f args rest ih =>
    intro p' ls ivs p s e hs ht hok hiv hn ha hp
    simp only [rows] at hok
    have hok' : Ok ct S A (rows p' rest) := hok.sub fun r hr => List.mem_cons_of_mem _ hr
    have hu := hok.uses _ (List.mem_cons_self ..)
    have hd := hok.dead _ (List.mem_cons_self ..)
    have hiv1 : ∀ v ∈ ivs, v ∉ res := fun v hv hm => hiv v hv (by simp [defs, hm])
    have hiv2 : ∀ v ∈ ivs, v ∉ defs rest := fun v hv hm => hiv v hv (by simp [defs, hm])
    have hn' : (defs rest).Nodup := (List.nodup_append.mp hn).2.1
    by_cases hid : id ∈ S
    · simp only [slice, hid, if_true, run, eval, trace]
      refine (ih p' ls ivs p (s.set res (I.fn f (args.map s.env))) _ hs ht.2 hok' hiv2 hn' ?_ ?_).imp_right
        fun h => h.trans (SameMem.writes key _ ⟨rfl, rfl⟩)
      · refine ha.set _ _ _ fun ⟨v, hv, hav⟩ => ?_
        rw [map_agree ha (hu hid) (ht.1 ⟨v, hv, hA v hav⟩)]
      · rw [State.set_env, map_setAll _ _ _ _ hiv1, hp]
    · simp only [slice, hid, if_false, eval, trace]
      exact ih p' ls ivs p s _ hs ht.2 hok' hiv2 hn' (ha.setDead _ _ (hd hid)) hp
  | enc id site res f ty shape args rest ih =>
    intro p' ls ivs p s e hs ht hok hiv hn ha hp
    simp only [rows] at hok
    have hok' : Ok ct S A (rows p' rest) := hok.sub fun r hr => List.mem_cons_of_mem _ hr
    have hid : id ∈ S := hok.enc _ (List.mem_cons_self ..) rfl
    have hu := hok.uses _ (List.mem_cons_self ..) hid
    have hiv1 : ∀ v ∈ ivs, v ∉ [res] := fun v hv hm => hiv v hv (by simp only [List.mem_singleton] at hm; simp [defs, hm])
    have hiv2 : ∀ v ∈ ivs, v ∉ defs rest := fun v hv hm => hiv v hv (by simp [defs, hm])
    have hn' : (defs rest).Nodup := (List.nodup_cons.mp hn).2
    have hargs := map_agree ha hu ht.2.1
    simp only [slice, hid, if_true, run, eval, trace, writes, List.foldl_cons]
    rw [← hargs]
    have hp1 : ivs.map (s.set [res] [I.enc f (isOne shape) (args.map s.env)]).env = p.map I.ofInt := by
      rw [State.set_env, map_setAll _ _ _ _ hiv1, hp]
    rw [idx_eq hI hp1]
    have hres : (s.set [res] [I.enc f (isOne shape) (args.map s.env)]).env res = I.enc f (isOne shape) (args.map s.env) := by
      simp [setAll]
    rw [hres]
    refine (ih p' ls ivs p _ _ hs ht.2.2 hok' hiv2 hn' ?_ ?_).imp_right fun h => h.trans (SameMem.writes key _ ?_)
    · rw [write_env (K := K)]; exact ha.set _ _ _ fun _ => rfl
    · rw [write_env (K := K), hp1]
    · exact SameMem.write (s := s.set [res] [I.enc f (isOne shape) (args.map s.env)]) (s' := s) ⟨rfl, rfl⟩ _ _
  | ite id res c t ty el ey rest iht ihe ih =>
    intro p' ls ivs p s e hs ht hok hiv hn ha hp
    obtain ⟨hs1, hs2, hs3⟩ := hs
    obtain ⟨htc, hty, hey, ht1, ht2, ht3⟩ := ht
    simp only [rows] at hok
    have hokt : Ok ct S A (rows (some id) t) := hok.sub fun r hr => by simp [hr]
    have hoke : Ok ct S A (rows (some id) el) := hok.sub fun r hr => by simp [hr]
    have hok' : Ok ct S A (rows p' rest) := hok.sub fun r hr => by simp [hr]
    have hu := hok.uses _ (List.mem_cons_self ..)
    have hd := hok.dead _ (List.mem_cons_self ..)
    have hivt : ∀ v ∈ ivs, v ∉ defs t := fun v hv hm => hiv v hv (by simp [defs, hm])
    have hive : ∀ v ∈ ivs, v ∉ defs el := fun v hv hm => hiv v hv (by simp [defs, hm])
    have hiv1 : ∀ v ∈ ivs, v ∉ res := fun v hv hm => hiv v hv (by simp [defs, hm])
    have hiv2 : ∀ v ∈ ivs, v ∉ defs rest := fun v hv hm => hiv v hv (by simp [defs, hm])
    simp only [defs, List.nodup_append] at hn
    have hn' := hn.2.1
    have hnt := hn.1.1.1
    have hne := hn.1.1.2.1
    by_cases hid : id ∈ S
    · have hu := hu hid
      have hc : s.env c = e c := ha c (hu c (by simp) htc)
      simp only [slice, hid, if_true, run, eval, trace, hc]
      rw [writes_append]
      by_cases hb : I.truth (e c) = true
      · simp only [hb, if_true]
        obtain ⟨h1, h2⟩ := iht (some id) ls ivs p s e hs1 ht1 hokt hivt hnt ha hp
        refine (ih p' ls ivs p _ _ hs3 ht3 hok' hiv2 hn' ?_ ?_).imp_right fun h => h.trans (SameMem.writes key _ h2)
        · exact h1.setPairs h1 (forall2_live hA hty fun b hb' => hu b (by simp [hb']))
        · rw [State.set_env, map_setAll _ _ _ _ hiv1, run_ivs _ _ _ _ _ _ _ _ hivt, hp]
      · simp only [hb]
        obtain ⟨h1, h2⟩ := ihe (some id) ls ivs p s e hs2 ht2 hoke hive hne ha hp
        refine (ih p' ls ivs p _ _ hs3 ht3 hok' hiv2 hn' ?_ ?_).imp_right fun h => h.trans (SameMem.writes key _ h2)
        · exact h1.setPairs h1 (forall2_live hA hey fun b hb' => hu b (by simp [hb']))
        · simp only [Bool.false_eq_true, if_false]
          rw [State.set_env, map_setAll _ _ _ _ hiv1, run_ivs _ _ _ _ _ _ _ _ hive, hp]
    · obtain ⟨k1, k2⟩ := skip_code I t id hs1 hokt hid
      obtain ⟨k3, k4⟩ := skip_code I el id hs2 hoke hid
      simp only [slice, hid, if_false, eval, trace, k1, k3, ite_self, List.nil_append]
      refine ih p' ls ivs p s _ hs3 ht3 hok' hiv2 hn' ?_ hp
      split
      · refine Agree.setDead (fun v hv => ?_) _ _ (hd hid)
        rw [ha v hv, eval_frame I t e fun hm => k2 v hm hv]
      · refine Agree.setDead (fun v hv => ?_) _ _ (hd hid)
        rw [ha v hv, eval_frame I el e fun hm => k4 v hm hv]
  | loop id res iv l inits iters body ys rest ihb ih =>
    intro p' ls ivs p s e hs ht hok hiv hn ha hp
    obtain ⟨hs1, hs2⟩ := hs
    obtain ⟨htv, hti, hty, htr, ht1, ht2⟩ := ht
    simp only [rows] at hok
    have hokb : Ok ct S A (rows (some id) body) := hok.sub fun r hr => by simp [hr]
    have hok' : Ok ct S A (rows p' rest) := hok.sub fun r hr => by simp [hr]
    have hu := hok.uses _ (List.mem_cons_self ..)
    have hw := hok.own _ (List.mem_cons_self ..)
    have hd := hok.dead _ (List.mem_cons_self ..)
    have hivb : ∀ v ∈ ivs, v ∉ defs body := fun v hv hm => hiv v hv (by simp [defs, hm])
    have hivv : ∀ v ∈ ivs, v ∉ [iv] := fun v hv hm => hiv v hv (by simp only [List.mem_singleton] at hm; simp [defs, hm])
    have hivi : ∀ v ∈ ivs, v ∉ iters := fun v hv hm => hiv v hv (by simp [defs, hm])
    have hiv1 : ∀ v ∈ ivs, v ∉ res := fun v hv hm => hiv v hv (by simp [defs, hm])
    have hiv2 : ∀ v ∈ ivs, v ∉ defs rest := fun v hv hm => hiv v hv (by simp [defs, hm])
    simp only [defs, List.cons_append, List.append_assoc, List.nodup_cons] at hn
    have hvb : iv ∉ defs body := fun hm => hn.1 (by simp [hm])
    have hn1 := (List.nodup_append.mp hn.2).2.1
    have hnb := (List.nodup_append.mp hn1).1
    have hn' := (List.nodup_append.mp (List.nodup_append.mp hn1).2.1).2.1
    by_cases hid : id ∈ S
    · have hu := hu hid
      have hw := hw hid
      simp only [slice, hid, if_true, run, eval, trace]
      rw [writes_append]
      have key1 : ∀ (ks : List Int) (s : State V K) (e : Nat → V), Agree A s.env e → ivs.map s.env = p.map I.ofInt →
          Agree A (ks.foldl (fun s k =>
            (run I key (ls ++ [l]) (slice S (ivs ++ [iv]) body) (s.set [iv] [I.ofInt k])).set iters
              (ys.map (run I key (ls ++ [l]) (slice S (ivs ++ [iv]) body) (s.set [iv] [I.ofInt k])).env)) s).env
            (ks.foldl (fun e k => setAll (eval I body (setAll e [iv] [I.ofInt k])) iters
              (ys.map (eval I body (setAll e [iv] [I.ofInt k])))) e) ∧
          SameMem (ks.foldl (fun s k =>
            (run I key (ls ++ [l]) (slice S (ivs ++ [iv]) body) (s.set [iv] [I.ofInt k])).set iters
              (ys.map (run I key (ls ++ [l]) (slice S (ivs ++ [iv]) body) (s.set [iv] [I.ofInt k])).env)) s)
            (writes key (collect (fun k e => setAll (eval I body (setAll e [iv] [I.ofInt k])) iters
                (ys.map (eval I body (setAll e [iv] [I.ofInt k]))))
              (fun k e => trace I (ls ++ [l]) (p ++ [k]) body (setAll e [iv] [I.ofInt k])) ks e) s) ∧
          ivs.map (ks.foldl (fun s k =>
            (run I key (ls ++ [l]) (slice S (ivs ++ [iv]) body) (s.set [iv] [I.ofInt k])).set iters
              (ys.map (run I key (ls ++ [l]) (slice S (ivs ++ [iv]) body) (s.set [iv] [I.ofInt k])).env)) s).env =
            p.map I.ofInt := by
        intro ks
        induction ks with
        | nil => intro s e ha hp; exact ⟨ha, ⟨rfl, rfl⟩, hp⟩
        | cons k ks ihk =>
          intro s e ha hp
          have ha1 : Agree A (s.set [iv] [I.ofInt k]).env (setAll e [iv] [I.ofInt k]) := ha.set _ _ _ fun _ => rfl
          have hp1 : (ivs ++ [iv]).map (s.set [iv] [I.ofInt k]).env = (p ++ [k]).map I.ofInt := by
            rw [List.map_append, List.map_append, State.set_env, map_setAll _ _ _ _ hivv, hp]
            simp [setAll]
          obtain ⟨h1, h2⟩ := ihb (some id) (ls ++ [l]) (ivs ++ [iv]) (p ++ [k]) _ _ hs1 ht1 hokb
            (by simpa [List.forall_mem_append] using fun v hv => hv.elim (hivb v) fun h => h ▸ hvb) hnb ha1 hp1
          obtain ⟨h3, h4, h5⟩ := ihk
            ((run I key (ls ++ [l]) (slice S (ivs ++ [iv]) body) (s.set [iv] [I.ofInt k])).set iters
              (ys.map (run I key (ls ++ [l]) (slice S (ivs ++ [iv]) body) (s.set [iv] [I.ofInt k])).env))
            (setAll (eval I body (setAll e [iv] [I.ofInt k])) iters
              (ys.map (eval I body (setAll e [iv] [I.ofInt k]))))
            (h1.setPairs h1 (forall2_live hA hty fun b hb => hu b (by simp [hb])))
            (by rw [State.set_env, map_setAll _ _ _ _ hivi, run_ivs _ _ _ _ _ _ _ _ hivb, State.set_env,
                  map_setAll _ _ _ _ hivv, hp])
          refine ⟨h3, ?_, h5⟩
          rw [collect, writes_append]
          refine SameMem.trans h4 (SameMem.writes key _ ?_)
          exact SameMem.trans (s' := run I key (ls ++ [l]) (slice S (ivs ++ [iv]) body) (s.set [iv] [I.ofInt k]))
            ⟨rfl, rfl⟩ (h2.trans (SameMem.writes key _ ⟨rfl, rfl⟩))
      obtain ⟨h1, h2, h3⟩ := key1 l.ivals (s.set iters (inits.map s.env)) (setAll e iters (inits.map e))
        (ha.setPairs ha (forall2_live hA hti fun b hb => hu b (by simp [hb])))
        (by rw [State.set_env, map_setAll _ _ _ _ hivi, hp])
      refine (ih p' ls ivs p _ _ hs2 ht2 hok' hiv2 hn' ?_ ?_).imp_right fun h => h.trans (SameMem.writes key _ ?_)
      · exact h1.setPairs h1 (forall2_live hA htr fun b hb => hw b (by simp [hb]))
      · rw [State.set_env, map_setAll _ _ _ _ hiv1, h3]
      · exact SameMem.trans h2 (SameMem.writes key _ ⟨rfl, rfl⟩)
    · obtain ⟨k1, k2⟩ := skip_code I body id hs1 hokb hid
      have hd := hd hid
      simp only [slice, hid, if_false, eval, trace, k1]
      have hnil : ∀ (ks : List Int) (e : Nat → V), collect (fun k e => setAll (eval I body (setAll e [iv] [I.ofInt k])) iters
          (ys.map (eval I body (setAll e [iv] [I.ofInt k])))) (fun _ _ => ([] : List (Ref × V))) ks e = [] := by
        intro ks; induction ks with
        | nil => intro e; rfl
        | cons k ks ihk => intro e; simp [collect, ihk]
      rw [hnil, List.nil_append]
      refine ih p' ls ivs p s _ hs2 ht2 hok' hiv2 hn' (Agree.setDead ?_ _ _ fun v hv => hd v (by simp [hv])) hp
      refine foldl_inv (fun e' => Agree A s.env e') _ _ _ (ha.setDead _ _ fun v hv => hd v (by simp [hv]))
        fun b k _ hb => Agree.setDead ?_ _ _ fun v hv => hd v (by simp [hv])
      intro v hv
      rw [eval_frame I body _ fun hm => k2 v hm hv]
      exact (hb.setDead [iv] _ fun v hv => hd v (by simp only [List.mem_singleton] at hv; simp [hv])) v hv
  | store => intro p' ls ivs p s e hs; exact hs.elim
  | load => intro p' ls ivs p s e hs; exact hs.elim

end Heir.Preproc
