import Verif.Generic.Extract

/-! # Patterns that replace uses elsewhere -/

namespace Heir.Generic

variable {K α : Type} {sem : K → List α → List α → List α}

/-! ## Insertions into concealed tensors -/

theorem renameInsert_sim {insert : K → Bool} {ρ : Nat → Nat} : ∀ {l : List (Op K)} {e₁ e₂ e₁' : Env α},
    Sim (fun _ => True) id e₁ e₂ → Sim (fun _ => True) ρ e₁ e₂ →
    (∀ b ∈ l.flatMap Op.results, Fixes (fun _ => True) ρ b) →
    runOps sem e₁ l = some e₁' →
    ∃ e₂', runOps sem e₂ (l.map (Op.renameInsert insert ρ)) = some e₂' ∧
      Sim (fun _ => True) id e₁' e₂'
  | [], e₁, e₂, e₁', hs, _, _, h => by
    simp only [runOps, Option.some.injEq] at h
    exact ⟨e₂, rfl, h ▸ hs⟩
  | o :: l, e₁, e₂, e₁', hs, hsρ, hf, h => by
    simp only [runOps, Option.bind_eq_some_iff] at h
    obtain ⟨e, he, h⟩ := h
    simp only [List.flatMap_cons, List.mem_append] at hf
    obtain ⟨a, c, ha, hc, hl, rfl⟩ := op_run_eq.mp he
    have ha₁ : readAll e₂ (o.args.map id) = some a := readAll_sim (fun x _ => hs x trivial) ha
    have ha₂ : readAll e₂ (o.args.map ρ) = some a := readAll_sim (fun x _ => hsρ x trivial) ha
    have hc₁ : readAll e₂ (o.captured.map id) = some c := readAll_sim (fun x _ => hs x trivial) hc
    rw [List.map_id] at ha₁ hc₁
    have hrun : (o.renameInsert insert ρ).run sem e₂ = some (define e₂ o.results (sem o.kind a c)) := by
      unfold Op.renameInsert
      split
      · exact op_run_eq.mpr ⟨a, c, ha₂, hc₁, hl, rfl⟩
      · exact op_run_eq.mpr ⟨a, c, ha₁, hc₁, hl, rfl⟩
    have hdef : ∀ τ : Nat → Nat, (∀ b ∈ o.results, Fixes (fun _ => True) τ b) →
        Sim (fun _ => True) τ e₁ e₂ →
        Sim (fun _ => True) τ (define e₁ o.results (sem o.kind a c)) (define e₂ o.results (sem o.kind a c)) := by
      intro τ hτ hsτ x _ v hv
      by_cases hm : x ∈ o.results
      · rw [(hτ x hm).1]
        rw [(define_of_mem hl hm e₂).1] at hv
        exact hv
      · rw [define_of_notMem hm] at hv
        rw [define_of_notMem]
        · exact hsτ x trivial v hv
        · intro hcc
          apply hm
          have := (hτ _ hcc).2 x trivial rfl
          rw [← this] at hcc
          exact hcc
    obtain ⟨e₂', h₂', hs'⟩ := renameInsert_sim (insert := insert) (hdef id (fun b _ => ⟨rfl, fun _ _ h => h⟩) hs)
      (hdef ρ (fun b hb => hf b (Or.inl hb)) hsρ) (fun b hb => hf b (Or.inr hb)) h
    exact ⟨e₂', by simp [runOps, hrun, h₂'], hs'⟩

theorem plainDest_spec {insert : K → Bool} {secret : Nat → Bool} {g : Gen K} :
    ∀ {l : List (Op K)} {d : Nat}, plainDest insert secret g l = some d →
      (∃ o ∈ l, insert o.kind = true ∧ o.args[1]? = some d) ∧ d ∉ g.inner
  | [], d, h => by simp [plainDest] at h
  | o :: l, d, h => by
    have hrec : plainDest insert secret g l = some d →
        (∃ o' ∈ o :: l, insert o'.kind = true ∧ o'.args[1]? = some d) ∧ d ∉ g.inner := fun h => by
      obtain ⟨⟨o', ho', hi⟩, hn⟩ := plainDest_spec h
      exact ⟨⟨o', by simp [ho'], hi⟩, hn⟩
    unfold plainDest at h
    split at h
    · rename_i s d' hi hs hd
      split at h
      · rename_i hcond
        simp only [Option.some.injEq] at h
        subst h
        simp only [Bool.and_eq_true, Bool.not_eq_true', List.contains_eq_mem,
          decide_eq_false_iff_not] at hcond
        exact ⟨⟨o, by simp, hi, hd⟩, hcond.2⟩
      · exact hrec h
    · exact hrec h

theorem concealInsert_local {insert : K → Bool} {next d : Nat} {e e₁ : Env α} {g : Gen K}
    (hdu : d ∈ g.bodyUses) (hdi : d ∉ g.inner) (hf : Fresh e g)
    (hlt : ∀ x v, e x = some v → x < next) (hb : ∀ b ∈ (Stmt.generic g).binders, b < next)
    (h : g.run sem e = some e₁) :
    ∃ e₂, runAll sem e [.conceal next d, .generic ⟨g.ins ++ [(next + 1, next)],
        g.body.map (Op.renameInsert insert (sub [(d, next + 1)])), g.outs⟩] = some e₂ ∧
      Sim (fun _ => True) id e₁ e₂ := by
  obtain ⟨w, hw⟩ := ambient_defined h hdu hdi
  obtain ⟨eb, hd, hbd, ho, rfl⟩ := gen_run_eq.mp h
  set ec := assign e e [(next, d)] with hec
  have hecn : ec next = some w := by
    rw [← hw]; exact assign_of_mem (l := [(next, d)]) (p := (next, d)) (by simp) (by simp)
  have hece : ∀ x, x < next → ec x = e x := fun x hx => assign_of_notMem (by
    simp only [List.map_cons, List.map_nil, List.mem_singleton]; omega)
  have hinlt : ∀ x ∈ g.ins.map Prod.fst, x < next := fun x hx => hb x (by
    simp only [Stmt.binders, Gen.inner, List.mem_append]; exact Or.inl (Or.inl hx))
  have hnd : ((g.ins ++ [(next + 1, next)]).map Prod.fst).Nodup := by
    rw [List.map_append, List.nodup_append]
    refine ⟨hf.ins_nodup, by simp, ?_⟩
    intro a ha b hb' hab
    simp only [List.map_cons, List.map_nil, List.mem_singleton] at hb'
    have := hinlt a ha
    omega
  have hsid : Sim (fun _ => True) id (assign e e g.ins) (assign ec ec (g.ins ++ [(next + 1, next)])) := by
    intro x _ v hv
    rcases assign_cases e e g.ins x with ⟨p, hp, rfl, ha⟩ | ⟨hm, ha⟩
    · rw [ha] at hv
      rw [id, assign_of_mem hnd (by simp [hp]), hece _ (hlt _ v hv), hv]
    · rw [ha] at hv
      have := hlt _ v hv
      rw [id, assign_of_notMem, hece _ this, hv]
      simp only [List.map_append, List.map_cons, List.map_nil, List.mem_append, List.mem_singleton, not_or]
      exact ⟨hm, by omega⟩
  have hdlt := hlt d w hw
  have hsρ : Sim (fun _ => True) (sub [(d, next + 1)]) (assign e e g.ins)
      (assign ec ec (g.ins ++ [(next + 1, next)])) := by
    intro x _ v hv
    by_cases hxd : x = d
    · subst hxd
      rw [sub_of_mem (p := (x, next + 1)) (by simp) (by simp),
        assign_of_mem (p := (next + 1, next)) hnd (by simp), hecn]
      rw [assign_of_notMem fun hc => hdi (by
        simp only [Gen.inner, List.mem_append]; exact Or.inl hc), hw] at hv
      exact hv
    · rw [sub_of_notMem (by simpa using hxd)]
      exact hsid x trivial v hv
  obtain ⟨eb', hb', hs⟩ := renameInsert_sim (insert := insert) hsid hsρ (by
    intro b hbr
    have hbi : b ∈ g.inner := by simp only [Gen.inner, List.mem_append]; exact Or.inr hbr
    refine ⟨sub_of_notMem (by simpa using fun hbx : b = d => hdi (hbx ▸ hbi)), fun y _ hy => ?_⟩
    rcases sub_cases [(d, next + 1)] y with ⟨p, hp, -, hs⟩ | ⟨-, hs⟩
    · obtain rfl := List.mem_singleton.mp hp
      have := hb b (by simp only [Stmt.binders, List.mem_append]; exact Or.inl hbi)
      rw [hy] at hs
      simp only at hs
      omega
    · rw [← hs, hy]) hbd
  refine ⟨assign ec eb' g.outs, ?_, ?_⟩
  · simp only [runAll]
    rw [show (Stmt.conceal next d : Stmt K).run sem e = some ec from
      bindAll_eq.mpr ⟨fun p hp => by obtain rfl := List.mem_singleton.mp hp; exact ⟨w, hw⟩, hec⟩]
    rw [Option.bind_some]
    have : (⟨g.ins ++ [(next + 1, next)], g.body.map (Op.renameInsert insert (sub [(d, next + 1)])),
        g.outs⟩ : Gen K).run sem ec = some (assign ec eb' g.outs) := by
      refine gen_run_eq.mpr ⟨eb', ?_, hb', ?_, rfl⟩
      · intro p hp
        rcases List.mem_append.mp hp with hp | hp
        · obtain ⟨v, hv⟩ := hd p hp
          exact ⟨v, by rw [hece _ (hlt _ v hv), hv]⟩
        · obtain rfl := List.mem_singleton.mp hp
          exact ⟨w, hecn⟩
      · intro q hq
        obtain ⟨v, hv⟩ := ho q hq
        exact ⟨v, hs q.2 trivial v hv⟩
    simp only [Stmt.run]
    rw [this]
    rfl
  · intro x _ v hv
    rcases assign_cases e eb g.outs x with ⟨q, hq, rfl, ha⟩ | ⟨hm, ha⟩
    · rw [id, assign_of_mem hf.outs_nodup hq]
      exact hs q.2 trivial v (ha ▸ hv)
    · rw [ha] at hv
      rw [id, assign_of_notMem hm, hece _ (hlt _ v hv), hv]

/-! ## Constants -/

theorem constant_value {isConst : K → Bool} : ∀ {pre : List (Stmt K)} {e₀ e : Env α} {x : Nat} {k : K},
    runAll sem e₀ pre = some e → (bindersOf pre).Nodup →
    constantOf isConst pre x = some k → ∃ v, sem k [] [] = [v] ∧ e x = some v
  | [], _, _, _, _, _, _, hc => by simp [constantOf] at hc
  | s :: l, e₀, e, x, k, h, hn, hc => by
    simp only [runAll, Option.bind_eq_some_iff] at h
    obtain ⟨e₁, h₁, h⟩ := h
    simp only [bindersOf, List.flatMap_cons, List.nodup_append] at hn
    have hrec : constantOf isConst l x = some k → ∃ v, sem k [] [] = [v] ∧ e x = some v :=
      constant_value h hn.2.1
    cases s with
    | conceal r c => exact hrec hc
    | generic g => exact hrec hc
    | op o =>
      simp only [constantOf] at hc
      split at hc
      · rename_i hcond
        simp only [Option.some.injEq] at hc
        simp only [Bool.and_eq_true, beq_iff_eq] at hcond
        obtain ⟨⟨⟨-, ha⟩, hcp⟩, hr⟩ := hcond
        obtain ⟨a, c, hra, hrc, hl, rfl⟩ := op_run_eq.mp h₁
        rw [ha] at hra
        rw [hcp] at hrc
        simp only [readAll, Option.some.injEq] at hra hrc
        subst hra hrc hc
        rw [hr] at hl
        obtain ⟨v, hv⟩ := List.length_eq_one_iff.mp hl.symm
        refine ⟨v, hv, ?_⟩
        rw [all_stable h fun hm => hn.2.2 x (by simp [Stmt.binders, hr]) x hm rfl, hv, hr]
        simp [define]
      · exact hrec hc

theorem absorbArg_local {isConst : K → Bool} {pre : List (Stmt K)} {e₀ e e₁ : Env α} {g g' : Gen K}
    {a : Nat × Nat} (ha : a ∈ g.ins) (hc : absorbArg isConst pre g a = some g')
    (hpre : runAll sem e₀ pre = some e) (hn : (bindersOf pre).Nodup) (hf : Fresh e g)
    (h : g.run sem e = some e₁) :
    ∃ e₂, g'.run sem e = some e₂ ∧ Sim (fun _ => True) id e₁ e₂ := by
  unfold absorbArg at hc
  split at hc
  swap
  · simp at hc
  simp only [Option.map_eq_some_iff] at hc
  obtain ⟨k, hk, rfl⟩ := hc
  obtain ⟨v, hv, hev⟩ := constant_value hpre hn hk
  obtain ⟨eb, hd, hbd, ho, rfl⟩ := gen_run_eq.mp h
  have hsub : (g.ins.filter fun p => p.1 != a.1).Sublist g.ins := List.filter_sublist
  have hs : Sim (fun _ => True) id (assign e e g.ins)
      (define (assign e e (g.ins.filter fun p => p.1 != a.1)) [a.1] [v]) := by
    intro x _ w hw
    rw [id]
    by_cases hx : x = a.1
    · subst hx
      rw [assign_of_mem hf.ins_nodup ha, hev] at hw
      rw [← hw]
      simp [define]
    · rw [define_of_notMem (by simpa using hx)]
      rcases assign_cases e e g.ins x with ⟨p, hp, rfl, hav⟩ | ⟨hm, hav⟩
      · rw [assign_of_mem (hf.ins_nodup.sublist (hsub.map _))
          (List.mem_filter.mpr ⟨hp, by simpa using hx⟩), ← hav, hw]
      · rw [assign_of_notMem fun hc => hm ((hsub.map _).subset hc), ← hav, hw]
  obtain ⟨eb', hb', hs'⟩ := ops_sim hs (fun _ _ => trivial) (fun b _ => ⟨rfl, fun _ _ h => h⟩) hbd
  rw [op_rename_id, List.map_id] at hb'
  refine ⟨assign e eb' g.outs, gen_run_eq.mpr ⟨eb', fun p hp => hd p (hsub.subset hp), ?_, ?_, rfl⟩, ?_⟩
  · have : (⟨k, [], [], [a.1]⟩ : Op K).run sem (assign e e (g.ins.filter fun p => p.1 != a.1)) =
        some (define (assign e e (g.ins.filter fun p => p.1 != a.1)) [a.1] [v]) :=
      op_run_eq.mpr ⟨[], [], rfl, rfl, by rw [hv]; rfl, by rw [hv]⟩
    simp only [runOps]
    rw [this]
    exact hb'
  · intro q hq
    obtain ⟨w, hw⟩ := ho q hq
    exact ⟨w, hs' q.2 trivial w hw⟩
  · exact final_sim (fun r hr => hr) (fun _ _ => rfl) fun q hq _ w hw => by
      rw [id, assign_of_mem hf.outs_nodup hq]
      exact hs' q.2 trivial w hw

theorem absorbAmbient_local {isConst : K → Bool} {pre : List (Stmt K)} {e₀ e e₁ : Env α} {g : Gen K}
    {next x : Nat} {k : K} (hxi : x ∉ g.inner)
    (hk : constantOf isConst pre x = some k)
    (hpre : runAll sem e₀ pre = some e) (hn : (bindersOf pre).Nodup) (hf : Fresh e g)
    (hlt : ∀ x v, e x = some v → x < next) (hb : ∀ b ∈ (Stmt.generic g).binders, b < next)
    (h : g.run sem e = some e₁) :
    ∃ e₂, (⟨g.ins, ⟨k, [], [], [next]⟩ :: g.body.map (Op.rename (sub [(x, next)])),
        renameSnd (sub [(x, next)]) g.outs⟩ : Gen K).run sem e = some e₂ ∧
      Sim (fun _ => True) id e₁ e₂ := by
  obtain ⟨v, hv, hev⟩ := constant_value hpre hn hk
  obtain ⟨eb, hd, hbd, ho, rfl⟩ := gen_run_eq.mp h
  have hinlt : ∀ y ∈ g.ins.map Prod.fst, y < next := fun y hy => hb y (by
    simp only [Stmt.binders, Gen.inner, List.mem_append]; exact Or.inl (Or.inl hy))
  have hs : Sim (fun _ => True) (sub [(x, next)]) (assign e e g.ins)
      (define (assign e e g.ins) [next] [v]) := by
    intro y _ w hw
    by_cases hyx : y = x
    · subst hyx
      rw [sub_of_mem (p := (y, next)) (by simp) (by simp)]
      rw [assign_of_notMem fun hc => hxi (by simp only [Gen.inner, List.mem_append]; exact Or.inl hc),
        hev] at hw
      rw [← hw]
      simp [define]
    · rw [sub_of_notMem (by simpa using hyx), define_of_notMem, hw]
      simp only [List.mem_singleton]
      rintro rfl
      rcases assign_cases e e g.ins y with ⟨p, hp, hpy, -⟩ | ⟨-, hav⟩
      · have := hinlt p.1 (List.mem_map_of_mem hp)
        omega
      · have := hlt y w (hav ▸ hw)
        omega
  obtain ⟨eb', hb', hs'⟩ := ops_sim hs (fun _ _ => trivial) (by
    intro b hbr
    have hbi : b ∈ g.inner := by simp only [Gen.inner, List.mem_append]; exact Or.inr hbr
    refine ⟨sub_of_notMem (by simpa using fun hbx : b = x => hxi (hbx ▸ hbi)), fun y _ hy => ?_⟩
    rcases sub_cases [(x, next)] y with ⟨p, hp, -, hs⟩ | ⟨-, hs⟩
    · obtain rfl := List.mem_singleton.mp hp
      have := hb b (by simp only [Stmt.binders, List.mem_append]; exact Or.inl hbi)
      rw [hy] at hs
      simp only at hs
      omega
    · rw [← hs, hy]) hbd
  refine ⟨assign e eb' (renameSnd (sub [(x, next)]) g.outs), gen_run_eq.mpr ⟨eb', hd, ?_, ?_, rfl⟩, ?_⟩
  · have : (⟨k, [], [], [next]⟩ : Op K).run sem (assign e e g.ins) =
        some (define (assign e e g.ins) [next] [v]) :=
      op_run_eq.mpr ⟨[], [], rfl, rfl, by rw [hv]; rfl, by rw [hv]⟩
    simp only [runOps]
    rw [this]
    exact hb'
  · intro q hq
    obtain ⟨q', hq', rfl⟩ := List.mem_map.mp hq
    obtain ⟨w, hw⟩ := ho q' hq'
    exact ⟨w, hs' q'.2 trivial w hw⟩
  · exact final_sim (by rw [renameSnd_fst]; exact fun r hr => hr) (fun _ _ => rfl) fun q hq _ w hw => by
      have : assign e eb' (renameSnd (sub [(x, next)]) g.outs) q.1 = eb' (sub [(x, next)] q.2) :=
        assign_of_mem (p := (q.1, sub [(x, next)] q.2)) (by rw [renameSnd_fst]; exact hf.outs_nodup)
          (List.mem_map.mpr ⟨q, hq, rfl⟩)
      rw [id, this]
      exact hs' q.2 trivial w hw

end Heir.Generic
