import Verif.Memref.ExtractSpec
import Mathlib.Tactic.Tauto
import Mathlib.Tactic.ByContra

namespace Heir.Memref.Extract

variable {V M : Type} {S : Sem V M}

theorem run_append {F : Option Fun} : ∀ (xs ys : List Op) (s : State V M),
    run S F (xs ++ ys) s = (run S F xs s).bind (run S F ys)
  | [], _, _ => rfl
  | o :: xs, ys, s => by
    simp only [List.cons_append, run]
    cases step S F s o with
    | none => rfl
    | some t => simp [run_append xs ys t]

theorem scope_append (sc : List Nat) (xs ys : List Op) :
    scope sc (xs ++ ys) = scope (scope sc xs) ys := by
  simp [scope, List.foldl_append]

theorem scope_cons (sc : List Nat) (o : Op) (os : List Op) :
    scope sc (o :: os) = scope (o.res.toList ++ sc) os := rfl

theorem scope_mem {x : Nat} : ∀ (os : List Op) (sc : List Nat),
    x ∈ scope sc os ↔ x ∈ sc ∨ ∃ o ∈ os, o.res = some x
  | [], sc => by simp [scope]
  | o :: os, sc => by
    rw [scope_cons, scope_mem os]
    simp only [List.mem_append, Option.mem_toList, Option.mem_def, List.mem_cons,
      exists_eq_or_imp]
    constructor
    · rintro ((h | h) | h)
      · exact .inr (.inl h)
      · exact .inl h
      · exact .inr (.inr h)
    · rintro (h | h | h)
      · exact .inl (.inr h)
      · exact .inl (.inl h)
      · exact .inr h

theorem wf_append : ∀ (xs ys : List Op) (sc : List Nat),
    wf sc (xs ++ ys) ↔ wf sc xs ∧ wf (scope sc xs) ys
  | [], ys, sc => by simp [wf, scope]
  | o :: xs, ys, sc => by
    simp only [List.cons_append, wf, wf_append xs ys, scope_cons]
    tauto

theorem wf_fresh {x : Nat} : ∀ {os : List Op} {sc : List Nat}, wf sc os → x ∈ sc →
    ∀ o ∈ os, o.res ≠ some x
  | o :: os, sc, hw, hx, o', ho => by
    obtain ⟨-, hd, hw⟩ := hw
    rcases List.mem_cons.1 ho with rfl | ho
    · exact fun h => hd x h hx
    · exact wf_fresh hw (by simp [hx]) o' ho

theorem vals_congr {e e' : Nat → Option V} : ∀ {xs : List Nat}, (∀ x ∈ xs, e' x = e x) →
    vals e' xs = vals e xs
  | [], _ => rfl
  | x :: xs, h => by
    simp only [vals]
    rw [h x (by simp), vals_congr fun y hy => h y (by simp [hy])]

theorem vals_map (e : Nat → Option V) (g : Nat → Nat) : ∀ xs : List Nat,
    vals e (xs.map g) = vals (fun x => e (g x)) xs
  | [] => rfl
  | x :: xs => by simp only [List.map_cons, vals, vals_map e g xs]

theorem vals_some {e : Nat → Option V} : ∀ {xs : List Nat}, (∀ x ∈ xs, (e x).isSome) →
    ∃ vs, vals e xs = some vs
  | [], _ => ⟨[], rfl⟩
  | x :: xs, h => by
    obtain ⟨vs, hv⟩ := vals_some (e := e) (xs := xs) fun y hy => h y (by simp [hy])
    obtain ⟨v, hx⟩ := Option.isSome_iff_exists.1 (h x (by simp))
    exact ⟨v :: vs, by simp [vals, hv, hx]⟩

/-- Arguments bound to values of an environment. -/
theorem bindL_spec {e : Nat → Option V} : ∀ {xs : List Nat} {vs : List V}, vals e xs = some vs →
    ∀ x ∈ xs, bindL (fun _ => none) xs vs x = e x
  | y :: xs, vs, h, x, hx => by
    simp only [vals] at h
    split at h
    · next v ws hv hw =>
      simp only [Option.some.injEq] at h
      subst h
      simp only [bindL, bindE]
      split
      · next e => rw [e, hv]
      · next hne => exact bindL_spec hw x (by simpa [hne] using hx)
    · simp at h

theorem step_env {F : Option Fun} {s s' : State V M} {o : Op} {x : Nat}
    (h : step S F s o = some s') (hx : o.res ≠ some x) : s'.env x = s.env x := by
  cases o with
  | load f r as =>
    simp only [step, Option.map_eq_some_iff] at h
    obtain ⟨vs, -, rfl⟩ := h
    simp only [Op.res, ne_eq, Option.some.injEq] at hx
    simp [bindE, Ne.symm hx]
  | store f v as =>
    simp only [step] at h
    split at h
    · simp only [Option.some.injEq] at h; subst h; rfl
    · simp at h
  | op f r as =>
    simp only [step, Option.map_eq_some_iff] at h
    obtain ⟨vs, -, rfl⟩ := h
    simp only [Op.res, ne_eq, Option.some.injEq] at hx
    simp [bindE, Ne.symm hx]
  | call r as =>
    simp only [step] at h
    split at h
    · simp only [Option.map_eq_some_iff] at h
      obtain ⟨v, -, rfl⟩ := h
      simp only [Op.res, ne_eq, Option.some.injEq] at hx
      simp [bindE, Ne.symm hx]
    · simp at h

theorem run_env {F : Option Fun} {x : Nat} : ∀ {os : List Op} {s s' : State V M},
    run S F os s = some s' → (∀ o ∈ os, o.res ≠ some x) → s'.env x = s.env x
  | [], s, s', h, _ => by simp only [run, Option.some.injEq] at h; rw [h]
  | o :: os, s, s', h, hx => by
    simp only [run] at h
    obtain ⟨t, ht, h⟩ := Option.bind_eq_some_iff.1 h
    rw [run_env h fun o' ho' => hx o' (by simp [ho']), step_env ht (hx o (by simp))]

theorem step_def {F : Option Fun} {s s' : State V M} {o : Op} {r : Nat}
    (h : step S F s o = some s') (hr : o.res = some r) : (s'.env r).isSome := by
  cases o with
  | load f x as =>
    simp only [step, Option.map_eq_some_iff] at h
    obtain ⟨vs, -, rfl⟩ := h
    simp only [Op.res, Option.some.injEq] at hr
    simp [bindE, hr]
  | store f v as => simp [Op.res] at hr
  | op f x as =>
    simp only [step, Option.map_eq_some_iff] at h
    obtain ⟨vs, -, rfl⟩ := h
    simp only [Op.res, Option.some.injEq] at hr
    simp [bindE, hr]
  | call x as =>
    simp only [step] at h
    split at h
    · simp only [Option.map_eq_some_iff] at h
      obtain ⟨v, -, rfl⟩ := h
      simp only [Op.res, Option.some.injEq] at hr
      simp [bindE, hr]
    · simp at h

/-- The values of executed operations. -/
theorem run_eqs {F : Option Fun} : ∀ {os : List Op} {s s' : State V M} {sc : List Nat}, wf sc os →
    run S F os s = some s' →
    (∀ o ∈ os, ∀ r, o.res = some r → (s'.env r).isSome) ∧
    ∀ f r as, .op f r as ∈ os → s'.env r = (vals s'.env as).map (S.op f)
  | [], _, _, _, _, _ => by simp
  | o :: os, s, s', sc, hw, h => by
    obtain ⟨hu, hd, hw⟩ := hw
    simp only [run] at h
    obtain ⟨t, ht, h⟩ := Option.bind_eq_some_iff.1 h
    obtain ⟨i1, i2⟩ := run_eqs hw h
    have keep : ∀ x ∈ o.res.toList ++ sc, s'.env x = t.env x :=
      fun x hx => run_env h (wf_fresh hw hx)
    refine ⟨fun o' ho r hr => ?_, fun f r as ho => ?_⟩
    · rcases List.mem_cons.1 ho with rfl | ho
      · rw [keep r (by simp [hr])]
        exact step_def ht hr
      · exact i1 o' ho r hr
    · rcases List.mem_cons.1 ho with e | ho
      · subst e
        rw [keep r (by simp [Op.res])]
        rw [vals_congr (e' := s'.env) (e := s.env) fun x hx => ?_]
        · simp only [step, Option.map_eq_some_iff] at ht
          obtain ⟨vs, hv, rfl⟩ := ht
          simp [bindE, hv]
        · have hxs := hu x hx
          rw [keep x (by simp [hxs]), step_env ht]
          intro e
          exact hd x e hxs
      · exact i2 f r as ho

/-- The function computes what the body computed. -/
theorem evalOps_eq {e : Nat → Option V} : ∀ {os : List Op} {sc : List Nat} {fe : Nat → Option V},
    wf sc os → (∀ x ∈ sc, fe x = e x) →
    (∀ o ∈ os, ∃ f r as, o = .op f r as ∧ (e r).isSome ∧ e r = (vals e as).map (S.op f)) →
    ∃ fe', evalOps S os fe = some fe' ∧ ∀ x ∈ scope sc os, fe' x = e x
  | [], sc, fe, _, h, _ => ⟨fe, rfl, h⟩
  | o :: os, sc, fe, hw, h, he => by
    obtain ⟨hu, hd, hw⟩ := hw
    obtain ⟨f, r, as, rfl, hs, hr⟩ := he o (by simp)
    obtain ⟨v, hv⟩ := Option.isSome_iff_exists.1 hs
    rw [hv] at hr
    obtain ⟨vs, hvs, hv'⟩ := Option.map_eq_some_iff.1 hr.symm
    simp only [evalOps]
    rw [vals_congr (e' := fe) (e := e) (xs := as) fun x hx => h x (hu x hx), hvs]
    simp only
    refine evalOps_eq hw ?_ (fun o ho => he o (by simp [ho]))
    intro x hx
    simp only [bindE]
    split
    · next e => rw [e, hv, hv']
    · next hne =>
      refine h x ?_
      rcases List.mem_append.1 hx with hx | hx
      · simp only [Op.res, Option.toList_some, List.mem_singleton] at hx
        exact absurd hx hne
      · exact hx

/-- Executions with erased operations and renamed operands. -/
theorem sim {F : Option Fun} {P : Nat → Prop} {g : Nat → Nat} {er : Op → Bool} {h : Op → Op} :
    ∀ {os : List Op} {s s' s1 : State V M},
    (∀ o ∈ os, (∀ x as, o ≠ .call x as) ∧ (er (h o) = true → ∃ f r as, o = .op f r as ∧ ¬ P r) ∧
      (er (h o) = false → ∀ x ∈ o.args, P x) ∧
      (∀ r, o.res = some r → ∀ x, P x → (g x = r ↔ x = r))) →
    (∀ f r as, h (.load f r as) = .load f r (as.map g)) →
    (∀ f r as, h (.op f r as) = .op f r (as.map g)) →
    (∀ f v as, h (.store f v as) = .store f (g v) (as.map g)) →
    s'.mem = s.mem → (∀ x, P x → s'.env (g x) = s.env x) →
    run S none os s = some s1 →
    ∃ s2, run S F ((os.map h).filter fun o => !er o) s' = some s2 ∧ s2.mem = s1.mem ∧
      ∀ x, P x → s2.env (g x) = s1.env x
  | [], s, s', s1, _, _, _, _, hm, he, hr => by
    simp only [run, Option.some.injEq] at hr
    subst hr
    exact ⟨s', rfl, hm, he⟩
  | o :: os, s, s', s1, ho, hl, hop, hst, hm, he, hr => by
    simp only [run] at hr
    obtain ⟨t, ht, hr⟩ := Option.bind_eq_some_iff.1 hr
    have ho' := fun o' h' => ho o' (List.mem_cons_of_mem o h')
    obtain ⟨hnc, her, hargs, hres⟩ := ho o (by simp)
    rw [List.map_cons]
    by_cases hg : er (h o) = true
    · rw [List.filter_cons_of_neg (by simp [hg])]
      obtain ⟨f, r, as, rfl, hnP⟩ := her hg
      simp only [step, Option.map_eq_some_iff] at ht
      obtain ⟨vs, -, rfl⟩ := ht
      refine sim ho' hl hop hst (s := ⟨bindE s.env r (S.op f vs), s.mem⟩) hm ?_ hr
      intro x hx
      have : x ≠ r := by rintro rfl; exact hnP hx
      simp [bindE, this, he x hx]
    · have hg' : er (h o) = false := by simpa using hg
      rw [List.filter_cons_of_pos (by simp [hg'])]
      have hv : ∀ as : List Nat, (∀ x ∈ as, P x) → vals s'.env (as.map g) = vals s.env as := by
        intro as has
        rw [vals_map]
        exact vals_congr fun x hx => he x (has x hx)
      have : ∃ t', step S F s' (h o) = some t' ∧ t'.mem = t.mem ∧ ∀ x, P x → t'.env (g x) = t.env x := by
        cases o with
        | call x as => exact absurd rfl (hnc x as)
        | load f r as =>
          simp only [step, Option.map_eq_some_iff] at ht
          obtain ⟨vs, hvs, rfl⟩ := ht
          refine ⟨⟨bindE s'.env r (S.load f vs s.mem), s.mem⟩, ?_, rfl, ?_⟩
          · rw [hl]
            simp only [step, hv as (hargs hg'), hvs, Option.map_some, hm]
          · intro x hx
            simp only [bindE, hres r rfl x hx, he x hx]
        | op f r as =>
          simp only [step, Option.map_eq_some_iff] at ht
          obtain ⟨vs, hvs, rfl⟩ := ht
          refine ⟨⟨bindE s'.env r (S.op f vs), s.mem⟩, ?_, rfl, ?_⟩
          · rw [hop]
            simp only [step, hv as (hargs hg'), hvs, Option.map_some, hm]
          · intro x hx
            simp only [bindE, hres r rfl x hx, he x hx]
        | store f v as =>
          simp only [step] at ht
          split at ht
          · next x vs hx hvs =>
            simp only [Option.some.injEq] at ht
            subst ht
            have hP := hargs hg'
            simp only [Op.args, List.mem_cons, forall_eq_or_imp] at hP
            refine ⟨⟨s'.env, S.store f x vs s.mem⟩, ?_, rfl, he⟩
            rw [hst]
            simp only [step, he v hP.1, hx, hv as hP.2, hvs, hm]
          · simp at ht
      obtain ⟨t', h1, h2, h3⟩ := this
      obtain ⟨s2, h4, h5⟩ := sim (F := F) ho' hl hop hst h2 h3 hr
      exact ⟨s2, by rw [run, h1, Option.bind_some, h4], h5⟩

theorem toCopy_append (b : List Op) : ∀ xs ys : List Op,
    toCopy b (xs ++ ys) = toCopy b xs ++ toCopy b ys
  | [], _ => rfl
  | .op f r as :: xs, ys => by
    simp only [List.cons_append, toCopy, toCopy_append b xs ys]
    split <;> simp
  | .load _ _ _ :: xs, ys => by simp only [List.cons_append, toCopy, toCopy_append b xs ys]
  | .store _ _ _ :: xs, ys => by simp only [List.cons_append, toCopy, toCopy_append b xs ys]
  | .call _ _ :: xs, ys => by simp only [List.cons_append, toCopy, toCopy_append b xs ys]

theorem toCopy_sub (b : List Op) : ∀ {xs : List Op} {o : Op}, o ∈ toCopy b xs →
    o ∈ xs ∧ ∃ f r as, o = .op f r as
  | .op f r as :: xs, o, h => by
    simp only [toCopy] at h
    split at h
    · obtain ⟨h1, h2⟩ := toCopy_sub b h
      exact ⟨by simp [h1], h2⟩
    · rcases List.mem_cons.1 h with rfl | h
      · exact ⟨by simp, f, r, as, rfl⟩
      · obtain ⟨h1, h2⟩ := toCopy_sub b h
        exact ⟨by simp [h1], h2⟩
  | .load _ _ _ :: xs, o, h => by
    obtain ⟨h1, h2⟩ := toCopy_sub b (xs := xs) h
    exact ⟨by simp [h1], h2⟩
  | .store _ _ _ :: xs, o, h => by
    obtain ⟨h1, h2⟩ := toCopy_sub b (xs := xs) h
    exact ⟨by simp [h1], h2⟩
  | .call _ _ :: xs, o, h => by
    obtain ⟨h1, h2⟩ := toCopy_sub b (xs := xs) h
    exact ⟨by simp [h1], h2⟩

theorem split_res {v : Nat} : ∀ {os : List Op}, (∃ o ∈ os, o.res = some v) →
    ∃ pre o post, os = pre ++ o :: post ∧ o.res = some v ∧ ∀ o' ∈ pre, o'.res ≠ some v
  | o :: os, h => by
    by_cases he : o.res = some v
    · exact ⟨[], o, os, rfl, he, by simp⟩
    · obtain ⟨pre, o', post, h1, h2, h3⟩ := split_res (os := os) (v := v) (by
        obtain ⟨o', ho, hr⟩ := h
        rcases List.mem_cons.1 ho with rfl | ho
        · exact absurd hr he
        · exact ⟨o', ho, hr⟩)
      refine ⟨o :: pre, o', post, by rw [h1]; rfl, h2, ?_⟩
      intro x hx
      rcases List.mem_cons.1 hx with rfl | hx
      · exact he
      · exact h3 x hx

theorem insertCall_split {v c : Nat} {ins : List Nat} {o : Op} {post : List Op}
    (ho : o.res = some v) : ∀ {pre : List Op}, (∀ o' ∈ pre, o'.res ≠ some v) →
    insertCall v c ins (pre ++ o :: post) = pre ++ o :: .call c ins :: post
  | [], _ => by simp [insertCall, ho]
  | x :: pre, h => by
    simp only [List.cons_append, insertCall, h x (by simp), if_false]
    rw [insertCall_split ho fun o' h' => h o' (by simp [h'])]

theorem rename_id {v c : Nat} {o : Op} (h : v ∉ o.args) : o.rename v c = o := by
  have : ∀ as : List Nat, v ∉ as → as.map (ren v c) = as := by
    intro as h
    conv_rhs => rw [← List.map_id as]
    exact List.map_congr_left fun x hx => by
      simp only [ren, id_eq, ite_eq_right_iff]
      rintro rfl
      exact absurd hx h
  cases o with
  | store f x as =>
    simp only [Op.args, List.mem_cons, not_or] at h
    simp only [Op.rename, this as h.2, ren, Ne.symm h.1, if_false]
  | load f x as => simp only [Op.rename, this as h]
  | op f x as => simp only [Op.rename, this as h]
  | call x as => simp only [Op.rename, this as h]

theorem rename_args (v c : Nat) (o : Op) : (o.rename v c).args = o.args.map (ren v c) := by
  cases o <;> rfl

theorem rename_res (v c : Nat) (o : Op) : (o.rename v c).res = o.res := by
  cases o <;> rfl

theorem inputs_mem {r : Nat} : ∀ {os : List Op}, r ∈ inputs os → ∃ f as, .load f r as ∈ os
  | .load f x as :: os, h => by
    simp only [inputs, List.mem_cons] at h
    rcases h with rfl | h
    · exact ⟨f, as, by simp⟩
    · obtain ⟨f, as, h⟩ := inputs_mem h
      exact ⟨f, as, by simp [h]⟩
  | .store _ _ _ :: os, h => by
    obtain ⟨f, as, h⟩ := inputs_mem (os := os) h
    exact ⟨f, as, by simp [h]⟩
  | .op _ _ _ :: os, h => by
    obtain ⟨f, as, h⟩ := inputs_mem (os := os) h
    exact ⟨f, as, by simp [h]⟩
  | .call _ _ :: os, h => by
    obtain ⟨f, as, h⟩ := inputs_mem (os := os) h
    exact ⟨f, as, by simp [h]⟩

theorem constOps_mem {L : Loop} {cs : List Op} {o : Op} (h : o ∈ constOps L cs) :
    ∃ c ∈ L.consts, o = .op c.2 c.1 [] := by
  simp only [constOps, List.mem_map, List.mem_filter] at h
  obtain ⟨c, hc, rfl⟩ := h
  exact ⟨c, hc.1, rfl⟩

theorem results_mem {v : Nat} : ∀ {os : List Op}, v ∈ results os → ∃ f as, .store f v as ∈ os
  | .store f x as :: os, h => by
    simp only [results, List.mem_cons] at h
    rcases h with rfl | h
    · exact ⟨f, as, by simp⟩
    · obtain ⟨f, as, h⟩ := results_mem h
      exact ⟨f, as, by simp [h]⟩
  | .load _ _ _ :: os, h => by
    obtain ⟨f, as, h⟩ := results_mem (os := os) h
    exact ⟨f, as, by simp [h]⟩
  | .op _ _ _ :: os, h => by
    obtain ⟨f, as, h⟩ := results_mem (os := os) h
    exact ⟨f, as, by simp [h]⟩
  | .call _ _ :: os, h => by
    obtain ⟨f, as, h⟩ := results_mem (os := os) h
    exact ⟨f, as, by simp [h]⟩

theorem wf_args : ∀ {os : List Op} {sc : List Nat}, wf sc os → ∀ o ∈ os, ∀ x ∈ o.args,
    x ∈ scope sc os
  | o :: os, sc, hw, o', ho, x, hx => by
    obtain ⟨hu, -, hw⟩ := hw
    rw [scope_cons]
    rcases List.mem_cons.1 ho with rfl | ho
    · exact (scope_mem _ _).2 (.inl (by simp [hu x hx]))
    · exact wf_args hw o' ho x hx

/-- The loop with its body replaced. -/
theorem extract_same {L : Loop} {c v : Nat} {F : Fun} {body : List Op} (hL : L.wf)
    (hnc : ∀ x as, .call x as ∉ L.body) (hc : c ∉ scope L.scope L.body)
    (h : extract L c = .ok (F, body)) (hF : F.wf) (hB : wf L.scope body)
    (hv : results L.body = [v]) (hret : F.ret = v) : SameEffect S L F body := by
  unfold extract at h
  simp only at h
  split at h
  · simp at h
  split at h
  · simp at h
  rotate_left
  · simp at h
  next last i is w hlast hins hres =>
  rw [hv] at hres
  simp only [List.cons.injEq, and_true] at hres
  subst hres
  split at h
  · simp at h
  next hany =>
  simp only [Bool.not_eq_true, Bool.not_eq_false] at hany
  split at h
  · simp at h
  next hdang =>
  simp only [Res.ok.injEq, Prod.mk.injEq] at h
  obtain ⟨hFe, hbody⟩ := h
  obtain ⟨hlm, f, r, as, rfl⟩ := toCopy_sub _ (List.mem_of_getLast? hlast)
  have hr : r = v := by rw [← hFe] at hret; simpa [Op.res] using hret
  subst hr
  obtain ⟨pre, o, post, hsplit, ho, hpre⟩ := split_res (v := r) ⟨_, hlm, rfl⟩
  have hw := hL
  unfold Loop.wf at hw
  rw [hsplit] at hw
  obtain ⟨hw1, hwo⟩ := (wf_append _ _ _).1 hw
  obtain ⟨hou, hod, hw2⟩ := hwo
  have hrsc : r ∉ scope L.scope pre := hod r ho
  have hpost : ∀ o' ∈ post, o'.res ≠ some r := wf_fresh hw2 (by simp [ho])
  have ho' : o = .op f r as := by
    rw [hsplit] at hlm
    rcases List.mem_append.1 hlm with h | h
    · exact absurd rfl (hpre _ h)
    · rcases List.mem_cons.1 h with h | h
      · exact h.symm
      · exact absurd rfl (hpost _ h)
  subst ho'
  -- nothing is copied after the result
  have hcpa : toCopy L.body L.body = toCopy L.body pre ++
      (toCopy L.body [Op.op f r as] ++ toCopy L.body post) := by
    have := congrArg (toCopy L.body) hsplit
    rw [toCopy_append, show (Op.op f r as :: post) = [Op.op f r as] ++ post from rfl,
      toCopy_append] at this
    exact this
  have hcp : toCopy L.body post = [] := by
    by_contra hne
    obtain ⟨z, hz⟩ := Option.isSome_iff_exists.1 (List.getLast?_isSome.2 hne)
    rw [hcpa, List.getLast?_append, List.getLast?_append, hz] at hlast
    simp only [Option.some.injEq, Option.some_or] at hlast
    exact hpost _ (toCopy_sub _ (List.mem_of_getLast? hz)).1 (by rw [hlast]; rfl)
  generalize hE : erased ((toCopy L.body L.body).map (Op.rename r c))
    ((insertCall r c (i :: is) L.body).map (Op.rename r c)) = er at hbody hdang
  have herop : ∀ o, er o = true → ∃ f x as, o = .op f x as := by
    intro o h
    rw [← hE] at h
    cases o with
    | op f x as => exact ⟨f, x, as, rfl⟩
    | _ => simp [erased] at h
  have hcsc : ∀ o ∈ L.body, o.res ≠ some c := fun o ho h =>
    hc ((scope_mem _ _).2 (.inr ⟨o, ho, h⟩))
  have hcarg : ∀ o ∈ L.body, c ∉ o.args := fun o ho h => hc (wf_args hL o ho c h)
  -- the new body
  have hB' : (insertCall r c (i :: is) L.body).map (Op.rename r c) =
      (pre ++ [Op.op f r as]).map (Op.rename r c) ++ Op.call c ((i :: is).map (ren r c)) ::
        post.map (Op.rename r c) := by
    rw [hsplit, insertCall_split ho hpre]
    simp [Op.rename]
  have hkeep : ∀ o ∈ (insertCall r c (i :: is) L.body).map (Op.rename r c), er o = false →
      ∀ y ∈ o.args, ∀ o' ∈ (insertCall r c (i :: is) L.body).map (Op.rename r c), er o' = true →
        o'.res ≠ some y := by
    intro o ho hk y hy o' ho' hk' hres
    refine hdang (List.any_eq_true.2 ⟨o', ho', ?_⟩)
    rw [Bool.and_eq_true]
    refine ⟨hk', List.any_eq_true.2 ⟨o, List.mem_filter.2 ⟨ho, by simp [hk]⟩, ?_⟩⟩
    rw [hres]
    simpa using hy
  have hbody' : body = ((pre ++ [Op.op f r as]).map (Op.rename r c)).filter (fun o => !er o) ++
      Op.call c ((i :: is).map (ren r c)) :: (post.map (Op.rename r c)).filter fun o => !er o := by
    rw [← hbody, hB', List.filter_append, List.filter_cons_of_pos]
    cases h : er (.call c ((i :: is).map (ren r c))) with
    | false => rfl
    | true => obtain ⟨f, x, as, h⟩ := herop _ h; simp at h
  rw [hB'] at hkeep
  have hA : pre ++ [Op.op f r as] ++ post = L.body := by rw [hsplit]; simp
  have hwA : wf L.scope (pre ++ [Op.op f r as]) := by
    have := hL
    unfold Loop.wf at this
    rw [← hA] at this
    exact ((wf_append _ _ _).1 this).1
  have hAr : ∀ o ∈ pre ++ [Op.op f r as], r ∉ o.args := by
    intro o ho h
    rcases List.mem_append.1 ho with ho | ho
    · exact hrsc (wf_args hw1 o ho r h)
    · rw [List.mem_singleton.1 ho] at h
      exact hrsc (hou r h)
  intro s s1 hcs hrun
  rw [← hA, run_append] at hrun
  obtain ⟨so, hso, hrun⟩ := Option.bind_eq_some_iff.1 hrun
  obtain ⟨hdef, heqs⟩ := run_eqs hwA hso
  -- up to the call
  obtain ⟨t, ht, htm, hte⟩ := sim (S := S) (F := some F) (er := er) (h := Op.rename r c)
    (g := ren r c) (s' := s)
    (P := fun x => x ≠ r ∧ x ≠ c ∧
      ∀ o ∈ (pre ++ [Op.op f r as]).map (Op.rename r c) ++ Op.call c ((i :: is).map (ren r c)) ::
        post.map (Op.rename r c), er o = true → o.res ≠ some x)
    (os := pre ++ [Op.op f r as])
    (by
      intro o ho
      have hob : o ∈ L.body := by rw [← hA]; exact List.mem_append_left _ ho
      refine ⟨fun x as h => hnc x as (h ▸ hob), fun h => ?_, fun h x hx => ⟨?_, ?_, ?_⟩, ?_⟩
      · obtain ⟨f', x, as', h'⟩ := herop _ h
        cases o with
        | op g y bs =>
          refine ⟨g, y, bs, rfl, fun hP => ?_⟩
          exact hP.2.2 _ (List.mem_append_left _ (List.mem_map_of_mem ho)) h rfl
        | _ => simp [Op.rename] at h'
      · rintro rfl
        exact hAr o ho hx
      · rintro rfl
        exact hcarg o hob hx
      · have hx' : x ≠ r := by rintro rfl; exact hAr o ho hx
        refine hkeep _ (List.mem_append_left _ (List.mem_map_of_mem ho)) h x ?_
        rw [rename_id (hAr o ho)]
        exact hx
      · intro y hy x hx
        simp [ren, hx.1])
    (fun _ _ _ => rfl) (fun _ _ _ => rfl) (fun _ _ _ => rfl) rfl
    (fun x hx => by simp [ren, hx.1]) hso
  -- the arguments of the call
  rw [hbody'] at hB
  obtain ⟨-, hcallw, -⟩ := (wf_append _ _ _).1 hB
  have hin : ∀ x ∈ i :: is, x ≠ r ∧ x ≠ c ∧ (so.env x).isSome ∧
      ∀ o ∈ (pre ++ [Op.op f r as]).map (Op.rename r c) ++ Op.call c ((i :: is).map (ren r c)) ::
        post.map (Op.rename r c), er o = true → o.res ≠ some x := by
    intro x hx
    have hxs := hcallw (ren r c x) (List.mem_map_of_mem hx)
    rw [scope_mem] at hxs
    have hcno : ¬ (c ∈ L.scope ∨ ∃ o ∈ ((pre ++ [Op.op f r as]).map (Op.rename r c)).filter
        (fun o => !er o), o.res = some c) := by
      rintro (h | ⟨o, ho, h⟩)
      · exact hc ((scope_mem _ _).2 (.inl h))
      · obtain ⟨o', ho', rfl⟩ := List.mem_map.1 (List.mem_filter.1 ho).1
        rw [rename_res] at h
        exact hcsc o' (by rw [← hA]; exact List.mem_append_left _ ho') h
    have hxr : x ≠ r := by
      rintro rfl
      exact hcno (by simpa [ren] using hxs)
    have hren : ren r c x = x := by simp [ren, hxr]
    rw [hren] at hxs
    have hxc : x ≠ c := by rintro rfl; exact hcno hxs
    obtain ⟨lf, las, hld⟩ := inputs_mem (hins ▸ hx)
    refine ⟨hxr, hxc, ?_, ?_⟩
    · rcases hxs with h | ⟨o, ho, h⟩
      · exact absurd rfl (wf_fresh hL h _ hld)
      · obtain ⟨o', ho', rfl⟩ := List.mem_map.1 (List.mem_filter.1 ho).1
        rw [rename_res] at h
        exact hdef o' ho' x h
    · refine hkeep (.call c ((i :: is).map (ren r c))) (by simp) ?_ x ?_
      · cases h : er (.call c ((i :: is).map (ren r c))) with
        | false => rfl
        | true => obtain ⟨f, x, as, h⟩ := herop _ h; simp at h
      · have := List.mem_map_of_mem (f := ren r c) hx
        rwa [hren] at this
  obtain ⟨vs, hvs⟩ := vals_some fun x hx => (hin x hx).2.2.1
  have hvt : vals t.env ((i :: is).map (ren r c)) = some vs := by
    rw [vals_map, ← hvs]
    exact vals_congr fun x hx => hte x ⟨(hin x hx).1, (hin x hx).2.1, (hin x hx).2.2.2⟩
  -- the function
  have hcopied : ∀ o ∈ toCopy L.body L.body, o ∈ pre ++ [Op.op f r as] := by
    intro o ho
    rw [hcpa, hcp, List.append_nil] at ho
    rcases List.mem_append.1 ho with ho | ho
    · exact List.mem_append_left _ (toCopy_sub _ ho).1
    · exact List.mem_append_right _ (toCopy_sub _ ho).1
  obtain ⟨hF1, hF2⟩ := hF
  rw [← hFe] at hF1 hF2
  obtain ⟨fe, hfe1, hfe2⟩ := evalOps_eq (S := S) (e := so.env) hF1
    (bindL_spec hvs) (by
      intro o ho
      rcases List.mem_append.1 ho with ho | ho
      · obtain ⟨k, hk, rfl⟩ := constOps_mem ho
        have : so.env k.1 = some (S.op k.2 []) := by
          rw [← hcs k hk]
          refine run_env hso (wf_fresh hwA ?_)
          simp only [Loop.scope, List.mem_append, List.mem_map]
          exact .inl (.inr ⟨k, hk, rfl⟩)
        exact ⟨_, _, _, rfl, by rw [this]; rfl, by rw [this]; rfl⟩
      · obtain ⟨-, f', x, as', rfl⟩ := toCopy_sub _ ho
        have := hcopied _ ho
        exact ⟨f', x, as', rfl, hdef _ this x rfl, heqs f' x as' this⟩)
  have hrdef := hdef (.op f r as) (by simp) r rfl
  obtain ⟨y, hy⟩ := Option.isSome_iff_exists.1 hrdef
  have hcall : evalFun S F vs = some y := by
    rw [← hFe]
    simp only [evalFun, hfe1, Option.bind_some]
    rw [hfe2 _ hF2]
    exact hy
  -- after the call
  obtain ⟨t2, ht2, htm2, -⟩ := sim (S := S) (F := some F) (er := er) (h := Op.rename r c)
    (g := ren r c) (s := so) (s' := ⟨bindE t.env c y, t.mem⟩)
    (P := fun x => x ≠ c ∧
      ∀ o ∈ (pre ++ [Op.op f r as]).map (Op.rename r c) ++ Op.call c ((i :: is).map (ren r c)) ::
        post.map (Op.rename r c), er o = true → o.res ≠ some (ren r c x))
    (os := post)
    (by
      intro o ho
      have hob : o ∈ L.body := by rw [← hA]; exact List.mem_append_right _ ho
      have hmem : o.rename r c ∈ (pre ++ [Op.op f r as]).map (Op.rename r c) ++
          Op.call c ((i :: is).map (ren r c)) :: post.map (Op.rename r c) :=
        List.mem_append_right _ (List.mem_cons_of_mem _ (List.mem_map_of_mem ho))
      refine ⟨fun x as h => hnc x as (h ▸ hob), fun h => ?_, fun h x hx => ⟨?_, ?_⟩, ?_⟩
      · obtain ⟨f', x, as', h'⟩ := herop _ h
        cases o with
        | op g y bs =>
          refine ⟨g, y, bs, rfl, fun hP => ?_⟩
          have hyr : y ≠ r := fun e => hpost _ ho (by rw [← e]; rfl)
          refine hP.2 _ hmem h ?_
          simp [ren, hyr, Op.rename, Op.res]
        | _ => simp [Op.rename] at h'
      · rintro rfl
        exact hcarg o hob hx
      · refine hkeep _ hmem h _ ?_
        rw [rename_args]
        exact List.mem_map_of_mem hx
      · intro y hy x hx
        have hyr : y ≠ r := fun e => hpost o ho (by rw [← e]; exact hy)
        have hyc : y ≠ c := by rintro rfl; exact hcsc o hob hy
        unfold ren
        split
        · next e => rw [e]; exact ⟨fun h => absurd h.symm hyc, fun h => absurd h.symm hyr⟩
        · exact Iff.rfl)
    (fun _ _ _ => rfl) (fun _ _ _ => rfl) (fun _ _ _ => rfl) htm
    (by
      intro x hx
      by_cases hxr : x = r
      · simp [ren, hxr, bindE, hy]
      · have hren : ren r c x = x := by simp [ren, hxr]
        have := hte x ⟨hxr, hx.1, by simpa [hren] using hx.2⟩
        rw [hren] at this ⊢
        simp [bindE, hx.1, this])
    hrun
  refine ⟨t2, ?_, htm2⟩
  rw [hbody', run_append, ht]
  simp only [Option.bind_some, run, step, hvt, hcall, Option.map_some]
  exact ht2

end Heir.Memref.Extract
