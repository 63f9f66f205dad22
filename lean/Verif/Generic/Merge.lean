import Verif.Generic.Local

/-! # Capturing, merging, and operands that were concealed -/

namespace Heir.Generic

variable {K α : Type} {sem : K → List α → List α → List α}

/-- What operations use and do not define had a value before them. -/
theorem ops_use_defined : ∀ {l : List (Op K)} {e e' : Env α}, runOps sem e l = some e' → ∀ {x : Nat},
    x ∈ l.flatMap Op.uses → x ∉ l.flatMap Op.results → ∃ v, e x = some v
  | [], _, _, _, _, hx, _ => by simp at hx
  | o :: l, e, e', h, x, hx, hn => by
    simp only [runOps, Option.bind_eq_some_iff] at h
    obtain ⟨em, he, h⟩ := h
    simp only [List.flatMap_cons, List.mem_append, not_or] at hx hn
    rcases hx with hx | hx
    · obtain ⟨a, c, ha, hc, -, -⟩ := op_run_eq.mp he
      simp only [Op.uses, List.mem_append] at hx
      exact hx.elim (readAll_defined ha x) (readAll_defined hc x)
    · obtain ⟨v, hv⟩ := ops_use_defined h hx hn.2
      exact ⟨v, by rw [← op_stable he hn.1]; exact hv⟩

/-- A value used in a generic and not defined in it had a value before it. -/
theorem ambient_defined {e e₁ : Env α} {g : Gen K} (h : g.run sem e = some e₁) {x : Nat}
    (hx : x ∈ g.bodyUses) (hn : x ∉ g.inner) : ∃ v, e x = some v := by
  obtain ⟨eb, -, hb, ho, -⟩ := gen_run_eq.mp h
  simp only [Gen.inner, List.mem_append, not_or] at hn
  have : ∃ v, assign e e g.ins x = some v := by
    simp only [Gen.bodyUses, List.mem_append] at hx
    rcases hx with hx | hx
    · exact ops_use_defined hb hx hn.2
    · obtain ⟨q, hq, rfl⟩ := List.mem_map.mp hx
      obtain ⟨v, hv⟩ := ho q hq
      exact ⟨v, by rw [← ops_stable hb hn.2]; exact hv⟩
  rwa [assign_of_notMem hn.1] at this

theorem captureAmbient_local {next : Nat} {e e₁ : Env α} {g g' : Gen K}
    (hc : captureAmbient next g = some g') (hf : Fresh e g) (h : g.run sem e = some e₁)
    (hlt : ∀ x v, e x = some v → x < next) (hb : ∀ b ∈ g.inner, b < next) :
    ∃ e₂, g'.run sem e = some e₂ ∧ Sim (fun _ => True) id e₁ e₂ := by
  obtain ⟨-, hd, -, -, -⟩ := gen_run_eq.mp h
  unfold captureAmbient at hc
  simp only [Option.map_eq_some_iff] at hc
  obtain ⟨x, hx, rfl⟩ := hc
  have hxu := List.mem_of_find?_eq_some hx
  have hxi : x ∉ g.inner := by simpa using List.find?_some hx
  obtain ⟨w, hw⟩ := ambient_defined h hxu hxi
  have hni : next ∉ g.ins.map Prod.fst := fun hm =>
    absurd (hb next (by simp only [Gen.inner, List.mem_append]; exact Or.inl hm)) (by omega)
  have hnd : ((g.ins ++ [(next, x)]).map Prod.fst).Nodup := by
    rw [List.map_append, List.nodup_append]
    refine ⟨hf.ins_nodup, by simp, ?_⟩
    intro a ha b hb' hab
    simp only [List.map_cons, List.map_nil, List.mem_singleton] at hb'
    exact hni (hb' ▸ hab ▸ ha)
  have hin : Sim (fun _ => True) (sub [(x, next)]) (assign e e g.ins)
      (assign e e (g.ins ++ [(next, x)])) := by
    intro y _ v hv
    rcases assign_cases e e g.ins y with ⟨p, hp, rfl, ha⟩ | ⟨hm, ha⟩
    · have : p.1 ≠ x := fun hpx => hxi (by
        simp only [Gen.inner, List.mem_append]; exact Or.inl (hpx ▸ List.mem_map_of_mem hp))
      rw [sub_of_notMem (by simpa using this), assign_of_mem hnd (by simp [hp]), ← ha, hv]
    · by_cases hyx : y = x
      · subst hyx
        rw [sub_of_mem (p := (y, next)) (by simp) (by simp),
          assign_of_mem (p := (next, y)) hnd (by simp), ← ha, hv]
      · rw [sub_of_notMem (by simpa using hyx), assign_of_notMem, ← ha, hv]
        simp only [List.map_append, List.map_cons, List.map_nil, List.mem_append, List.mem_singleton,
          not_or]
        exact ⟨hm, fun hyn => absurd (hlt y v (ha ▸ hv)) (by omega)⟩
  obtain ⟨eb, eb', hbd, hbd', hs, ho, rfl, hr, hfin⟩ := gen_refine
    (g' := ⟨g.ins ++ [(next, x)], g.body.map (Op.rename (sub [(x, next)])),
      renameSnd (sub [(x, next)]) g.outs⟩)
    (ρ := sub [(x, next)]) (fun _ => True) h rfl
    (by
      intro p hp
      rcases List.mem_append.mp hp with hp | hp
      · exact hd p hp
      · obtain rfl := List.mem_singleton.mp hp
        exact ⟨w, hw⟩) hin (fun x hx => trivial)
    (by
      intro b hbr
      have hbi : b ∈ g.inner := by simp only [Gen.inner, List.mem_append]; exact Or.inr hbr
      refine ⟨sub_of_notMem (by simpa using fun hbx : b = x => hxi (hbx ▸ hbi)), fun y _ hy => ?_⟩
      rcases sub_cases [(x, next)] y with ⟨p, hp, -, hs⟩ | ⟨-, hs⟩
      · obtain rfl := List.mem_singleton.mp hp
        have := hb b hbi
        rw [hy] at hs
        simp only at hs
        omega
      · rw [← hs, hy])
    (fun q hq => by obtain ⟨q', hq', rfl⟩ := List.mem_map.mp hq; exact ⟨q', hq', rfl⟩)
  refine ⟨_, hr, final_sim (by rw [renameSnd_fst]; exact fun r hr => hr) (fun x _ => rfl)
    fun q hq hu v hv => ?_⟩
  exact hfin (by rw [renameSnd_fst]; exact hf.outs_nodup) q hq (List.mem_map.mpr ⟨q, hq, rfl⟩) v hv

/-! ## Concealed operands -/

theorem concealed_value : ∀ {pre : List (Stmt K)} {e₀ e : Env α} {x c : Nat},
    runAll sem e₀ pre = some e → (bindersOf pre).Nodup → (∀ b ∈ bindersOf pre, e₀ b = none) →
    concealed pre x = some c → e x = e c
  | [], _, _, _, _, _, _, _, hc => by simp [concealed] at hc
  | s :: l, e₀, e, x, c, h, hn, hb, hc => by
    simp only [runAll, Option.bind_eq_some_iff] at h
    obtain ⟨e₁, h₁, h⟩ := h
    simp only [bindersOf, List.flatMap_cons, List.nodup_append, List.mem_append] at hn hb
    have hb' : ∀ b ∈ bindersOf l, e₁ b = none := fun b hbl => by
      rw [stmt_stable h₁ fun hs => hn.2.2 b hs b hbl rfl]
      exact hb b (Or.inr hbl)
    have hrec : concealed l x = some c → e x = e c := concealed_value h hn.2.1 hb'
    cases s with
    | op o => exact hrec hc
    | generic g => exact hrec hc
    | conceal r y =>
      simp only [concealed] at hc
      split at hc
      · rename_i hrx
        simp only [Option.some.injEq] at hc
        subst hrx hc
        obtain ⟨hd, rfl⟩ := bindAll_eq.mp h₁
        obtain ⟨v, hv⟩ := hd (r, y) (by simp)
        have hy : y ≠ r := fun hyr => by
          rw [hyr, hb r (Or.inl (by simp [Stmt.binders]))] at hv; simp at hv
        have hyl : y ∉ bindersOf l := fun hm => by rw [hb y (Or.inr hm)] at hv; simp at hv
        have hrl : r ∉ bindersOf l := fun hm => hn.2.2 r (by simp [Stmt.binders]) r hm rfl
        have h₂ : assign e₀ e₀ [(r, y)] y = e₀ y := assign_of_notMem (by simpa using hy)
        rw [all_stable h hyl, all_stable h hrl, h₂]
        exact assign_of_mem (l := [(r, y)]) (p := (r, y)) (by simp) (by simp)
      · exact hrec hc

theorem assign_map {base src : Env α} {l : List (Nat × Nat)} {f : Nat × Nat → Nat × Nat}
    (hf : ∀ a ∈ l, (f a).1 = a.1 ∧ src (f a).2 = src a.2) :
    assign base src (l.map f) = assign base src l := by
  funext y
  induction l with
  | nil => rfl
  | cons a l ih =>
    have ih := ih fun b hb => hf b (by simp [hb])
    obtain ⟨h₁, h₂⟩ := hf a (by simp)
    simp only [assign, List.map_cons] at ih ⊢
    by_cases hy : a.1 = y
    · rw [List.find?_cons_of_pos (by rw [h₁]; simpa using hy),
        List.find?_cons_of_pos (by simpa using hy)]
      exact h₂
    · rw [List.find?_cons_of_neg (by rw [h₁]; simpa using hy),
        List.find?_cons_of_neg (by simpa using hy)]
      exact ih

theorem concealThen_local {insert : K → Bool} {pre : List (Stmt K)} {e₀ e e₁ : Env α} {g g' : Gen K}
    (hc : concealThen insert pre g = some g') (hpre : runAll sem e₀ pre = some e)
    (hn : (bindersOf pre).Nodup) (hb : ∀ b ∈ bindersOf pre, e₀ b = none)
    (h : g.run sem e = some e₁) : g'.run sem e = some e₁ := by
  unfold concealThen at hc
  split at hc
  · simp at hc
  simp only [Option.some.injEq] at hc
  subst hc
  have hu : ∀ a ∈ g.ins, (unconceal insert pre g a).1 = a.1 ∧
      e (unconceal insert pre g a).2 = e a.2 := by
    intro a _
    unfold unconceal
    cases hcc : concealed pre a.2 with
    | none => exact ⟨rfl, rfl⟩
    | some c =>
      simp only
      split
      · exact ⟨rfl, rfl⟩
      · exact ⟨rfl, (concealed_value hpre hn hb hcc).symm⟩
  obtain ⟨eb, hd, hbd, ho, rfl⟩ := gen_run_eq.mp h
  refine gen_run_eq.mpr ⟨eb, ?_, by rw [assign_map hu]; exact hbd, ho, rfl⟩
  intro p hp
  obtain ⟨a, ha, rfl⟩ := List.mem_map.mp hp
  rw [(hu a ha).2]
  exact hd a ha

/-! ## Merging -/

theorem mergeIns_extra (g : Gen K) : ∀ (l acc : List (Nat × Nat)),
    ∃ extra, mergeIns g acc l = acc ++ extra ∧ extra.Sublist l
  | [], acc => ⟨[], by simp [mergeIns], List.Sublist.refl _⟩
  | a :: l, acc => by
    unfold mergeIns
    split
    · obtain ⟨x, h, hs⟩ := mergeIns_extra g l acc
      exact ⟨x, h, hs.cons _⟩
    · obtain ⟨x, h, hs⟩ := mergeIns_extra g l (acc ++ [a])
      exact ⟨a :: x, by rw [h]; simp, hs.cons_cons _⟩

theorem mergeIns_covers (g : Gen K) : ∀ (l acc : List (Nat × Nat)), ∀ a ∈ l,
    a.2 ∈ g.outs.map Prod.fst ∨ a.2 ∈ (mergeIns g acc l).map Prod.snd
  | [], _, _, h => by simp at h
  | b :: l, acc, a, ha => by
    unfold mergeIns
    split
    · rename_i hc
      rcases List.mem_cons.mp ha with rfl | ha
      · simp only [Bool.or_eq_true, List.contains_iff_mem] at hc
        refine hc.imp id fun hm => ?_
        obtain ⟨x, h, -⟩ := mergeIns_extra g l acc
        rw [h, List.map_append]
        exact List.mem_append_left _ hm
      · exact mergeIns_covers g l acc a ha
    · rcases List.mem_cons.mp ha with rfl | ha
      · right
        obtain ⟨x, h, -⟩ := mergeIns_extra g l (acc ++ [a])
        rw [h]
        simp
      · exact mergeIns_covers g l _ a ha

theorem mergeArg_cases (g : Gen K) (ins : List (Nat × Nat)) (a : Nat × Nat)
    (h : a.2 ∈ g.outs.map Prod.fst ∨ a.2 ∈ ins.map Prod.snd) :
    (∃ q ∈ g.outs, q.1 = a.2 ∧ mergeArg g ins a = q.2) ∨
      (a.2 ∉ g.outs.map Prod.fst ∧ ∃ p ∈ ins, p.2 = a.2 ∧ mergeArg g ins a = p.1) := by
  unfold mergeArg
  cases hf : g.outs.find? (fun q => q.1 == a.2) with
  | some q =>
    exact Or.inl ⟨q, List.mem_of_find?_eq_some hf, by simpa using List.find?_some hf, rfl⟩
  | none =>
    have hno : a.2 ∉ g.outs.map Prod.fst := fun hm => by
      obtain ⟨q, hq, hqa⟩ := List.mem_map.mp hm
      have := List.find?_eq_none.mp hf q hq
      simp [hqa] at this
    right
    refine ⟨hno, ?_⟩
    have hm := h.resolve_left hno
    cases hf' : ins.find? (fun p => p.2 == a.2) with
    | some p => exact ⟨p, List.mem_of_find?_eq_some hf', by simpa using List.find?_some hf', rfl⟩
    | none =>
      obtain ⟨q, hq, hqa⟩ := List.mem_map.mp hm
      have := List.find?_eq_none.mp hf' q hq
      simp [hqa] at this

theorem merge_local {e e₁ e₂ : Env α} {g h : Gen K} (hf : Fresh e g) (hfh : Fresh e h)
    (hdis : ∀ x, x ∈ (Stmt.generic g).binders → x ∈ (Stmt.generic h).binders → False)
    (hty : ∀ x ∈ g.outs.map Prod.fst, x ∉ h.bodyUses)
    (hg : g.run sem e = some e₁) (hh : h.run sem e₁ = some e₂) :
    ∃ e₃, (merge g h).run sem e = some e₃ ∧ Sim (fun _ => True) id e₂ e₃ := by
  obtain ⟨eb, hd, hb, ho, rfl⟩ := gen_run_eq.mp hg
  obtain ⟨ehb, hdh, hbh, hoh, rfl⟩ := gen_run_eq.mp hh
  obtain ⟨extra, hex, hxs⟩ := mergeIns_extra g h.ins g.ins
  have hcov := mergeIns_covers g h.ins g.ins
  simp only [Stmt.binders, Gen.inner, List.mem_append] at hdis
  set ins := mergeIns g g.ins h.ins with hins
  set ρl := h.ins.map fun a => (a.1, mergeArg g ins a) with hρl
  -- numbers of `h` have no value in `e` nor in `eb`
  have hehn : ∀ x, x ∈ h.ins.map Prod.fst ∨ x ∈ h.body.flatMap Op.results ∨ x ∈ h.outs.map Prod.fst →
      e x = none := fun x hx => hfh.none x (by simp only [List.mem_append]; tauto)
  have hxf : ∀ x ∈ extra.map Prod.fst, x ∈ h.ins.map Prod.fst := fun x hx => (hxs.map _).subset hx
  have hinn : (ins.map Prod.fst).Nodup := by
    rw [hex, List.map_append, List.nodup_append]
    refine ⟨hf.ins_nodup, hfh.ins_nodup.sublist (hxs.map _), ?_⟩
    rintro a ha b hb' rfl
    exact hdis a (Or.inl (Or.inl ha)) (Or.inl (Or.inl (hxf a hb')))
  -- the first body
  have hs₁ : Sim (fun _ => True) id (assign e e g.ins) (assign e e ins) := by
    intro x _ v hv
    rcases assign_cases e e g.ins x with ⟨p, hp, rfl, ha⟩ | ⟨hm, ha⟩
    · rw [id, assign_of_mem hinn (by rw [hex]; simp [hp]), ← ha, hv]
    · rw [id, assign_of_notMem, ← ha, hv]
      rw [hex, List.map_append, List.mem_append]
      rintro (hc | hc)
      · exact hm hc
      · rw [ha, hehn x (Or.inl (hxf x hc))] at hv
        simp at hv
  obtain ⟨em, hmb, hsm⟩ := ops_sim hs₁ (fun _ _ => trivial) (fun b _ => ⟨rfl, fun _ _ h => h⟩) hb
  rw [op_rename_id, List.map_id] at hmb
  have hstab : ∀ x, x ∉ g.body.flatMap Op.results → eb x = assign e e g.ins x := fun x hx =>
    ops_stable hb hx
  -- values defined inside the first generic or before it
  have hebdom : ∀ x v, eb x = some v → x ∈ h.body.flatMap Op.results → False := by
    intro x v hv hx
    have h₁ : x ∉ g.body.flatMap Op.results := fun hc => hdis x (Or.inl (Or.inr hc)) (Or.inl (Or.inr hx))
    have h₂ : x ∉ g.ins.map Prod.fst := fun hc => hdis x (Or.inl (Or.inl hc)) (Or.inl (Or.inr hx))
    rw [hstab x h₁, assign_of_notMem h₂, hehn x (Or.inr (Or.inl hx))] at hv
    simp at hv
  have hρn : (ρl.map Prod.fst).Nodup := by
    rw [hρl, List.map_map]
    exact hfh.ins_nodup
  -- the second body
  have hs₂ : Sim (fun x => x ∉ g.outs.map Prod.fst) (sub ρl)
      (assign (assign e eb g.outs) (assign e eb g.outs) h.ins) em := by
    intro x hx v hv
    rcases assign_cases (assign e eb g.outs) (assign e eb g.outs) h.ins x with ⟨a, ha, rfl, hav⟩ | ⟨hm, hav⟩
    · rw [hav] at hv
      have hsub : sub ρl a.1 = mergeArg g ins a :=
        sub_of_mem (p := (a.1, mergeArg g ins a)) hρn (List.mem_map.mpr ⟨a, ha, rfl⟩)
      rw [hsub]
      rcases mergeArg_cases g ins a (hcov a ha) with ⟨q, hq, hqa, hma⟩ | ⟨hno, p, hp, hpa, hma⟩
      · rw [hma]
        rw [← hqa, assign_of_mem hf.outs_nodup hq] at hv
        exact hsm q.2 trivial v hv
      · rw [hma]
        rw [assign_of_notMem hno] at hv
        have hpb : p.1 ∉ g.body.flatMap Op.results := by
          intro hc
          rw [hex, List.mem_append] at hp
          rcases hp with hp | hp
          · exact hf.ins_body (List.mem_map_of_mem hp) hc
          · exact hdis p.1 (Or.inl (Or.inr hc)) (Or.inl (Or.inl (hxf _ (List.mem_map_of_mem hp))))
        rw [ops_stable hmb hpb, assign_of_mem hinn hp, hpa, hv]
    · rw [hav, assign_of_notMem hx] at hv
      rw [sub_of_notMem (by rw [hρl, List.map_map]; exact hm)]
      have hxb : x ∉ g.body.flatMap Op.results := fun hc => by rw [hf.body_none hc] at hv; simp at hv
      have hxi : x ∉ ins.map Prod.fst := by
        rw [hex, List.map_append, List.mem_append]
        rintro (hc | hc)
        · rw [hf.ins_none hc] at hv; simp at hv
        · exact hm (hxf x hc)
      rw [ops_stable hmb hxb, assign_of_notMem hxi, hv]
  have hfix : ∀ b ∈ h.body.flatMap Op.results, Fixes (fun x => x ∉ g.outs.map Prod.fst) (sub ρl) b := by
    intro b hbr
    refine ⟨sub_of_notMem (by rw [hρl, List.map_map]; exact fun hc => hfh.ins_body hc hbr),
      fun x _ hx => ?_⟩
    rcases sub_cases ρl x with ⟨p, hp, -, hs⟩ | ⟨-, hs⟩
    · exfalso
      obtain ⟨a, ha, rfl⟩ := List.mem_map.mp hp
      rw [hx] at hs
      rcases mergeArg_cases g ins a (hcov a ha) with ⟨q, hq, hqa, hma⟩ | ⟨hno, p, hp, hpa, hma⟩
      · simp only [hma] at hs
        obtain ⟨v, hv⟩ := ho q hq
        exact hebdom q.2 v hv (hs ▸ hbr)
      · simp only [hma] at hs
        rw [hex, List.mem_append] at hp
        rcases hp with hp | hp
        · exact hdis p.1 (Or.inl (Or.inl (List.mem_map_of_mem hp))) (Or.inl (Or.inr (hs ▸ hbr)))
        · exact hfh.ins_body (hxf _ (List.mem_map_of_mem hp)) (hs ▸ hbr)
    · rw [← hs, hx]
  have huse : ∀ x ∈ h.bodyUses, x ∉ g.outs.map Prod.fst := fun x hx hc => hty x hc hx
  obtain ⟨emh, hmh, hsmh⟩ := ops_sim hs₂ (fun x hx => huse x (by
    simp only [Gen.bodyUses, List.mem_append]; exact Or.inl hx)) hfix hbh
  have hmhs : ∀ x v, em x = some v → eb x = some v → emh x = some v := by
    intro x v hm hv
    rw [ops_stable hmh, hm]
    intro hc
    refine hebdom x v hv ?_
    simp only [List.mem_flatMap, List.mem_map] at hc ⊢
    obtain ⟨o, ⟨o', ho', rfl⟩, hr⟩ := hc
    exact ⟨o', ho', hr⟩
  have houn : ((g.outs ++ renameSnd (sub ρl) h.outs).map Prod.fst).Nodup := by
    rw [List.map_append, renameSnd_fst, List.nodup_append]
    refine ⟨hf.outs_nodup, hfh.outs_nodup, ?_⟩
    rintro a ha b hb' rfl
    exact hdis a (Or.inr ha) (Or.inr hb')
  have hov : ∀ q ∈ h.outs, ∀ v, ehb q.2 = some v → emh (sub ρl q.2) = some v := fun q hq v hv =>
    hsmh q.2 (huse q.2 (by
      simp only [Gen.bodyUses, List.mem_append]; exact Or.inr (List.mem_map_of_mem hq))) v hv
  refine ⟨assign e emh (g.outs ++ renameSnd (sub ρl) h.outs), gen_run_eq.mpr ⟨emh, ?_, ?_, ?_, rfl⟩, ?_⟩
  · intro p hp
    change p ∈ ins at hp
    rw [hex, List.mem_append] at hp
    rcases hp with hp | hp
    · exact hd p hp
    · have hpi := hxs.subset hp
      obtain ⟨v, hv⟩ := hdh p hpi
      rcases mergeArg_cases g ins p (hcov p hpi) with ⟨q, hq, hqa, hma⟩ | ⟨hno, -⟩
      · -- a result of `g` is not made an operand
        exfalso
        have : ∀ (l acc : List (Nat × Nat)) (x : List (Nat × Nat)), mergeIns g acc l = acc ++ x →
            ∀ p ∈ x, p.2 ∉ g.outs.map Prod.fst := by
          intro l
          induction l with
          | nil =>
            intro acc x hx p hp
            simp only [mergeIns] at hx
            rw [show x = [] by simpa using hx.symm] at hp
            simp at hp
          | cons a l ih =>
            intro acc x hx p hp
            unfold mergeIns at hx
            split at hx
            · exact ih acc x hx p hp
            · rename_i hc
              obtain ⟨x', hx', -⟩ := mergeIns_extra g l (acc ++ [a])
              rw [hx', List.append_assoc, List.append_cancel_left_eq] at hx
              rw [← hx] at hp
              simp only [List.singleton_append, List.mem_cons] at hp
              rcases hp with rfl | hp
              · simp only [Bool.or_eq_true, List.contains_iff_mem, not_or] at hc
                exact hc.1
              · exact ih _ x' hx' p hp
        exact this h.ins g.ins extra (hins ▸ hex) p hp (List.mem_map.mpr ⟨q, hq, hqa⟩)
      · exact ⟨v, by rw [assign_of_notMem hno] at hv; exact hv⟩
  · change runOps sem (assign e e ins) (g.body ++ h.body.map (Op.rename (sub ρl))) = some emh
    rw [runOps_append, hmb]
    exact hmh
  · intro q hq
    change q ∈ g.outs ++ renameSnd (sub ρl) h.outs at hq
    rcases List.mem_append.mp hq with hq | hq
    · obtain ⟨v, hv⟩ := ho q hq
      exact ⟨v, hmhs _ v (hsm q.2 trivial v hv) hv⟩
    · obtain ⟨q', hq', rfl⟩ := List.mem_map.mp hq
      obtain ⟨v, hv⟩ := hoh q' hq'
      exact ⟨v, hov q' hq' v hv⟩
  · intro x _ v hv
    rcases assign_cases (assign e eb g.outs) ehb h.outs x with ⟨q, hq, rfl, ha⟩ | ⟨hm, ha⟩
    · have := assign_of_mem (base := e) (src := emh) (p := (q.1, sub ρl q.2)) houn
        (List.mem_append_right _ (List.mem_map.mpr ⟨q, hq, rfl⟩))
      rw [id, this]
      exact hov q hq v (ha ▸ hv)
    · rw [ha] at hv
      rcases assign_cases e eb g.outs x with ⟨q, hq, rfl, ha'⟩ | ⟨hm', ha'⟩
      · rw [id, assign_of_mem (p := q) houn (List.mem_append_left _ hq)]
        rw [ha'] at hv
        exact hmhs _ v (hsm q.2 trivial v hv) hv
      · rw [id, assign_of_notMem, ← ha', hv]
        rw [List.map_append, renameSnd_fst, List.mem_append]
        exact fun hc => hc.elim hm' hm

end Heir.Generic
