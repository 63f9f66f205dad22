import Verif.Generic.Lemmas

/-! # Each pattern at its place -/

namespace Heir.Generic

variable {K α : Type} {sem : K → List α → List α → List α}

/-- A generic with the operations renamed and some of the yields. -/
theorem gen_refine {e e₁ : Env α} {g g' : Gen K} {ρ : Nat → Nat} (P : Nat → Prop)
    (h : g.run sem e = some e₁)
    (hbody : g'.body = g.body.map (Op.rename ρ))
    (hins : ∀ p ∈ g'.ins, ∃ v, e p.2 = some v)
    (hsim : Sim P ρ (assign e e g.ins) (assign e e g'.ins))
    (huse : ∀ x ∈ g.bodyUses, P x)
    (hfix : ∀ b ∈ g.body.flatMap Op.results, Fixes P ρ b)
    (houts : ∀ q' ∈ g'.outs, ∃ q ∈ g.outs, q' = (q.1, ρ q.2)) :
    ∃ eb eb', runOps sem (assign e e g.ins) g.body = some eb ∧
      runOps sem (assign e e g'.ins) g'.body = some eb' ∧ Sim P ρ eb eb' ∧
      (∀ q ∈ g.outs, ∃ v, eb q.2 = some v) ∧
      e₁ = assign e eb g.outs ∧ g'.run sem e = some (assign e eb' g'.outs) ∧
      ((g'.outs.map Prod.fst).Nodup → ∀ q ∈ g.outs, (q.1, ρ q.2) ∈ g'.outs → ∀ v, eb q.2 = some v →
        assign e eb' g'.outs q.1 = some v) := by
  obtain ⟨eb, hd, hb, ho, rfl⟩ := gen_run_eq.mp h
  have hbu : ∀ x ∈ g.body.flatMap Op.uses, P x := fun x hx => huse x (by
    simp only [Gen.bodyUses, List.mem_append]; exact Or.inl hx)
  have hou : ∀ q ∈ g.outs, P q.2 := fun q hq => huse q.2 (by
    simp only [Gen.bodyUses, List.mem_append]; exact Or.inr (List.mem_map_of_mem hq))
  obtain ⟨eb', hb', hs⟩ := ops_sim hsim hbu hfix hb
  refine ⟨eb, eb', hb, hbody ▸ hb', hs, ho, rfl, gen_run_eq.mpr ⟨eb', hins, hbody ▸ hb', ?_, rfl⟩, ?_⟩
  · intro q' hq'
    obtain ⟨q, hq, rfl⟩ := houts q' hq'
    obtain ⟨v, hv⟩ := ho q hq
    exact ⟨v, hs _ (hou q hq) v hv⟩
  · intro hn q hq hq' v hv
    have := assign_of_mem (base := e) (src := eb') hn hq'
    rw [this]
    exact hs _ (hou q hq) v hv

/-- The states after two generics. -/
theorem final_sim {P : Nat → Prop} {ρ : Nat → Nat} {e eb eb' : Env α} {outs outs' : List (Nat × Nat)}
    (hsub : ∀ r ∈ outs'.map Prod.fst, r ∈ outs.map Prod.fst)
    (hρ : ∀ x, x ∉ outs.map Prod.fst → ρ x = x)
    (hout : ∀ q ∈ outs, P q.1 → ∀ v, eb q.2 = some v → assign e eb' outs' (ρ q.1) = some v) :
    Sim P ρ (assign e eb outs) (assign e eb' outs') := by
  intro x hx v hv
  rcases assign_cases e eb outs x with ⟨q, hq, rfl, ha⟩ | ⟨hm, ha⟩
  · exact hout q hq hx v (ha ▸ hv)
  · rw [hρ x hm, assign_of_notMem fun hc => hm (hsub x hc), ← ha, hv]

/-- Distinct numbers in a generic that are not yet defined. -/
structure Fresh (e : Env α) (g : Gen K) : Prop where
  nodup : (g.ins.map Prod.fst ++ g.body.flatMap Op.results ++ g.outs.map Prod.fst).Nodup
  none : ∀ b ∈ g.ins.map Prod.fst ++ g.body.flatMap Op.results ++ g.outs.map Prod.fst, e b = none

namespace Fresh

variable {e : Env α} {g : Gen K}

theorem ins_nodup (h : Fresh e g) : (g.ins.map Prod.fst).Nodup :=
  (List.nodup_append.mp (List.nodup_append.mp h.nodup).1).1

theorem outs_nodup (h : Fresh e g) : (g.outs.map Prod.fst).Nodup := (List.nodup_append.mp h.nodup).2.1

theorem ins_body (h : Fresh e g) {x : Nat} (h₁ : x ∈ g.ins.map Prod.fst)
    (h₂ : x ∈ g.body.flatMap Op.results) : False :=
  (List.nodup_append.mp (List.nodup_append.mp h.nodup).1).2.2 x h₁ x h₂ rfl

theorem ins_none (h : Fresh e g) {x : Nat} (hx : x ∈ g.ins.map Prod.fst) : e x = .none :=
  h.none x (by simp only [List.mem_append]; tauto)

theorem body_none (h : Fresh e g) {x : Nat} (hx : x ∈ g.body.flatMap Op.results) : e x = .none :=
  h.none x (by simp only [List.mem_append]; tauto)

theorem outs_none (h : Fresh e g) {x : Nat} (hx : x ∈ g.outs.map Prod.fst) : e x = .none :=
  h.none x (by simp only [List.mem_append]; tauto)

end Fresh

/-! ## Inlining -/

theorem run_conceals : ∀ {l : List (Nat × Nat)} {e : Env α},
    (∀ q ∈ l, ∃ v, e q.2 = some v) → (∀ q ∈ l, e q.1 = none) → (l.map Prod.fst).Nodup →
    ∃ e', runAll sem e (l.map fun q => (Stmt.conceal q.1 q.2 : Stmt K)) = some e' ∧
      ∀ x, e' x = assign e e l x
  | [], e, _, _, _ => ⟨e, rfl, fun x => rfl⟩
  | q :: l, e, hd, hn, hnd => by
    simp only [List.map_cons, List.nodup_cons] at hnd
    set e₁ := assign e e [(q.1, q.2)] with he₁
    have h₁ : ∀ x, x ≠ q.1 → e₁ x = e x := fun x hx => assign_of_notMem (by simpa using hx)
    have hq : e₁ q.1 = e q.2 := assign_of_mem (p := (q.1, q.2)) (by simp) (by simp)
    have hne : ∀ p ∈ q :: l, p.2 ≠ q.1 := by
      intro p hp he
      obtain ⟨v, hv⟩ := hd p hp
      rw [he, hn q (by simp)] at hv
      simp at hv
    have hd' : ∀ p ∈ l, ∃ v, e₁ p.2 = some v := fun p hp => by
      rw [h₁ _ (hne p (by simp [hp]))]; exact hd p (by simp [hp])
    have hn' : ∀ p ∈ l, e₁ p.1 = none := fun p hp => by
      rw [h₁ _ fun he => hnd.1 (List.mem_map.mpr ⟨p, hp, he⟩)]; exact hn p (by simp [hp])
    obtain ⟨e', hr, he'⟩ := run_conceals hd' hn' hnd.2
    refine ⟨e', ?_, fun x => ?_⟩
    · simp only [List.map_cons, runAll]
      rw [show (Stmt.conceal q.1 q.2 : Stmt K).run sem e = some e₁ from
        bindAll_eq.mpr ⟨fun p hp => by obtain rfl := List.mem_singleton.mp hp; exact hd q (by simp), he₁⟩]
      exact hr
    · rw [he' x]
      rcases assign_cases e₁ e₁ l x with ⟨p, hp, rfl, ha⟩ | ⟨hm, ha⟩
      · rw [ha, h₁ _ (hne p (by simp [hp]))]
        exact (assign_of_mem (l := q :: l) (by simp [List.nodup_cons, hnd]) (by simp [hp])).symm
      · rw [ha]
        by_cases hx : x = q.1
        · subst hx
          rw [hq]
          exact (assign_of_mem (l := q :: l) (by simp [List.nodup_cons, hnd]) (by simp)).symm
        · rw [h₁ x hx, assign_of_notMem]
          simp only [List.map_cons, List.mem_cons, not_or]
          exact ⟨hx, hm⟩

theorem runAll_ops {e : Env α} (l : List (Op K)) :
    runAll sem e (l.map Stmt.op) = runOps sem e l := by
  induction l generalizing e with
  | nil => rfl
  | cons o l ih =>
    simp only [List.map_cons, runAll, runOps, Stmt.run]
    cases o.run sem e with
    | none => rfl
    | some e' => simp [ih]

theorem sub_sim_self {e : Env α} {l : List (Nat × Nat)} : Sim (fun _ => True) (sub l) (assign e e l) e := by
  intro x _ v hv
  unfold assign at hv
  unfold sub
  cases hf : l.find? (fun p => p.1 == x) with
  | none => rw [hf] at hv; exact hv
  | some p => rw [hf] at hv; exact hv

/-- A substitution by defined numbers fixes the numbers not yet defined. -/
theorem fixes_sub {e : Env α} {P : Nat → Prop} {l : List (Nat × Nat)} {b : Nat}
    (hl : b ∉ l.map Prod.fst) (hd : ∀ p ∈ l, ∃ v, e p.2 = some v) (hb : e b = none) :
    Fixes P (sub l) b := by
  refine ⟨sub_of_notMem hl, fun x _ hx => ?_⟩
  rcases sub_cases l x with ⟨p, hp, rfl, hs⟩ | ⟨-, hs⟩
  · obtain ⟨v, hv⟩ := hd p hp
    rw [← hs, hx, hb] at hv
    simp at hv
  · rw [← hs, hx]

theorem collapse_local {alloc : K → Bool} {secret : Nat → Bool} {e e₁ : Env α} {g : Gen K}
    {l : List (Stmt K)} (hc : collapse alloc secret g = some l) (hf : Fresh e g)
    (h : g.run sem e = some e₁) : ∃ e₂, runAll sem e l = some e₂ ∧ Sim (fun _ => True) id e₁ e₂ := by
  unfold collapse at hc
  split at hc
  · simp at hc
  split at hc
  · simp at hc
  simp only [Option.some.injEq] at hc
  subst hc
  obtain ⟨eb, hd, hb, ho, rfl⟩ := gen_run_eq.mp h
  obtain ⟨eb', hb', hs⟩ := ops_sim (ρ := sub g.ins) sub_sim_self (fun _ _ => trivial)
    (fun b hbr => fixes_sub (fun hi => hf.ins_body hi hbr) hd (hf.body_none hbr)) hb
  have hst : ∀ x, x ∉ g.body.flatMap Op.results → eb' x = e x := fun x hx => ops_stable hb' (by
    intro hc
    apply hx
    simp only [List.mem_flatMap, List.mem_map] at hc ⊢
    obtain ⟨o, ⟨o', ho', rfl⟩, hr⟩ := hc
    exact ⟨o', ho', hr⟩)
  have hnd := List.nodup_append.mp hf.nodup
  obtain ⟨e', hr, he'⟩ := run_conceals (sem := sem) (K := K) (e := eb') (l := renameSnd (sub g.ins) g.outs)
    (by
      intro q hq
      obtain ⟨q', hq', rfl⟩ := List.mem_map.mp hq
      obtain ⟨v, hv⟩ := ho q' hq'
      exact ⟨v, hs q'.2 trivial v hv⟩)
    (by
      intro q hq
      obtain ⟨q', hq', rfl⟩ := List.mem_map.mp hq
      have hm : q'.1 ∈ g.outs.map Prod.fst := List.mem_map_of_mem hq'
      rw [hst]
      · exact hf.outs_none hm
      · exact fun hc => hnd.2.2 q'.1 (by simp only [List.mem_append]; exact Or.inr hc) q'.1 hm rfl)
    (by rw [renameSnd_fst]; exact hf.outs_nodup)
  refine ⟨e', ?_, ?_⟩
  · rw [runAll_append, show (g.body.map fun o => Stmt.op (o.rename (sub g.ins))) =
      (g.body.map (Op.rename (sub g.ins))).map Stmt.op by simp, runAll_ops, hb', Option.bind_some]
    rw [show (g.outs.map fun q => (Stmt.conceal q.1 (sub g.ins q.2) : Stmt K)) =
      (renameSnd (sub g.ins) g.outs).map fun q => Stmt.conceal q.1 q.2 by simp [renameSnd]]
    exact hr
  · intro x _ v hv
    rw [id, he']
    rcases assign_cases e eb g.outs x with ⟨q, hq, rfl, ha⟩ | ⟨hm, ha⟩
    · have hq' : (q.1, sub g.ins q.2) ∈ renameSnd (sub g.ins) g.outs := List.mem_map.mpr ⟨q, hq, rfl⟩
      have := assign_of_mem (base := eb') (src := eb') (by rw [renameSnd_fst]; exact hf.outs_nodup) hq'
      rw [this]
      exact hs q.2 trivial v (ha ▸ hv)
    · rw [assign_of_notMem (by rw [renameSnd_fst]; exact hm), hst, ← ha, hv]
      intro hc
      rw [ha, hf.body_none hc] at hv
      simp at hv

/-! ## Arguments and yields -/

theorem op_rename_id : (Op.rename id : Op K → Op K) = id := funext fun o => by simp [Op.rename]

/-- A sublist of the block arguments that contains those used. -/
theorem kept_sim {e : Env α} {P : Nat → Prop} {l kept : List (Nat × Nat)} (hn : (l.map Prod.fst).Nodup)
    (hsub : kept.Sublist l) (hk : ∀ p ∈ l, P p.1 → p ∈ kept) :
    Sim P id (assign e e l) (assign e e kept) := by
  intro x hx v hv
  rcases assign_cases e e l x with ⟨p, hp, rfl, ha⟩ | ⟨hm, ha⟩
  · rw [id, assign_of_mem (hn.sublist (hsub.map _)) (hk p hp hx), ← ha, hv]
  · rw [id, assign_of_notMem fun hc => hm ((hsub.map _).subset hc), ← ha, hv]

theorem scanArgs_sublist (g : Gen K) : ∀ l, (scanArgs g l).1.Sublist l
  | [] => by simp [scanArgs]
  | a :: l => by
    unfold scanArgs
    split
    · exact (scanArgs_sublist g l).cons _
    · split
      · exact List.Sublist.refl _
      · exact (scanArgs_sublist g l).cons_cons _

theorem scanArgs_kept (g : Gen K) : ∀ l, ∀ p ∈ l, p.1 ∈ g.bodyUses → p ∈ (scanArgs g l).1
  | [], _, h, _ => by simp at h
  | a :: l, p, hp, hu => by
    unfold scanArgs
    split
    · rename_i hc
      rcases List.mem_cons.mp hp with rfl | hp
      · simp at hc; exact absurd hu hc
      · exact scanArgs_kept g l p hp hu
    · split
      · exact hp
      · rcases List.mem_cons.mp hp with rfl | hp
        · simp
        · exact List.mem_cons_of_mem _ (scanArgs_kept g l p hp hu)

theorem scanArgs_passed (g : Gen K) : ∀ l a, (scanArgs g l).2 = some a → a ∈ l
  | [], a, h => by simp [scanArgs] at h
  | b :: l, a, h => by
    unfold scanArgs at h
    split at h
    · exact List.mem_cons_of_mem _ (scanArgs_passed g l a h)
    · split at h
      · simp only [Option.some.injEq] at h; simp [h]
      · exact List.mem_cons_of_mem _ (scanArgs_passed g l a h)

theorem filter_fst_sub {l : List (Nat × Nat)} {f : Nat × Nat → Bool} :
    ∀ r ∈ (l.filter f).map Prod.fst, r ∈ l.map Prod.fst := fun _ hr =>
  (List.filter_sublist.map _).subset hr

theorem removeUnusedArgs_local {e e₁ : Env α} {g g' : Gen K} {ρl : List (Nat × Nat)}
    (hc : removeUnusedArgs g = some (g', ρl)) (hf : Fresh e g) (h : g.run sem e = some e₁) :
    ∃ e₂, g'.run sem e = some e₂ ∧ Sim (fun _ => True) (sub ρl) e₁ e₂ := by
  obtain ⟨-, hd, -, -, -⟩ := gen_run_eq.mp h
  have hsub := scanArgs_sublist g g.ins
  have hks := kept_sim (e := e) (P := (· ∈ g.bodyUses)) hf.ins_nodup hsub
    (fun p hp hu => scanArgs_kept g g.ins p hp hu)
  have hpass := scanArgs_passed g g.ins
  unfold removeUnusedArgs at hc
  generalize hsc : scanArgs g g.ins = sc at *
  obtain ⟨kept, pa⟩ := sc
  cases pa with
  | none =>
    simp only at hc hsub hks
    split at hc
    · simp only [Option.some.injEq, Prod.mk.injEq] at hc
      obtain ⟨rfl, rfl⟩ := hc
      obtain ⟨eb, eb', hb, hb', hs, ho, rfl, hr, hfin⟩ := gen_refine (g' := ⟨kept, g.body, g.outs⟩)
        (ρ := id) (· ∈ g.bodyUses) h (by simp [op_rename_id]) (fun p hp => hd p (hsub.subset hp)) hks
        (fun x hx => hx) (fun b _ => ⟨rfl, fun x _ h => h⟩) (fun q hq => ⟨q, hq, rfl⟩)
      refine ⟨_, hr, final_sim (fun r hr => hr) (fun x _ => by simp [sub]) fun q hq _ v hv => ?_⟩
      rw [show sub [] q.1 = q.1 from rfl]
      exact hfin hf.outs_nodup q hq hq v hv
    · simp at hc
  | some a =>
    simp only [Option.some.injEq, Prod.mk.injEq] at hc hsub hks
    obtain ⟨rfl, rfl⟩ := hc
    have ha := hpass a rfl
    have hsubo : (g.outs.filter fun q => q.2 != a.1).Sublist g.outs := List.filter_sublist
    obtain ⟨eb, eb', hb, hb', hs, ho, rfl, hr, hfin⟩ := gen_refine
      (g' := ⟨kept, g.body, g.outs.filter fun q => q.2 != a.1⟩)
      (ρ := id) (· ∈ g.bodyUses) h (by simp [op_rename_id]) (fun p hp => hd p (hsub.subset hp)) hks
      (fun x hx => hx) (fun b _ => ⟨rfl, fun x _ h => h⟩) (fun q hq => ⟨q, hsubo.subset hq, rfl⟩)
    have hρn : (((g.outs.filter fun q => q.2 == a.1).map fun q => (q.1, a.2)).map Prod.fst).Nodup := by
      rw [List.map_map, show (Prod.fst ∘ fun q : Nat × Nat => (q.1, a.2)) = Prod.fst from rfl]
      exact hf.outs_nodup.sublist (List.filter_sublist.map _)
    refine ⟨_, hr, final_sim filter_fst_sub (fun x hx => sub_of_notMem fun hm => hx ?_)
      fun q hq _ v hv => ?_⟩
    · simp only [List.map_map, List.mem_map, List.mem_filter, Function.comp_apply] at hm ⊢
      obtain ⟨q, ⟨hq, -⟩, rfl⟩ := hm
      exact ⟨q, hq, rfl⟩
    · by_cases hqa : q.2 = a.1
      · rw [sub_of_mem (p := (q.1, a.2)) hρn
          (List.mem_map.mpr ⟨q, List.mem_filter.mpr ⟨hq, by simpa using hqa⟩, rfl⟩)]
        obtain ⟨w, hw⟩ := hd a ha
        have hao : a.2 ∉ (g.outs.filter fun q => q.2 != a.1).map Prod.fst := fun hm => by
          rw [hf.outs_none (filter_fst_sub _ hm)] at hw; simp at hw
        have hab : a.1 ∉ g.body.flatMap Op.results := fun hm =>
          hf.ins_body (List.mem_map_of_mem ha) hm
        rw [hqa, ops_stable hb hab, assign_of_mem hf.ins_nodup ha] at hv
        rw [assign_of_notMem hao, hv]
      · rw [sub_of_notMem]
        · exact hfin (hf.outs_nodup.sublist (hsubo.map _)) q hq
            (List.mem_filter.mpr ⟨hq, by simpa using hqa⟩) v hv
        · intro hm
          simp only [List.map_map, List.mem_map, List.mem_filter, Function.comp_apply] at hm
          obtain ⟨q', ⟨hq', hqa'⟩, hqq⟩ := hm
          have : q' = q := by
            have h₁ := find_of_mem hf.outs_nodup hq'
            have h₂ := find_of_mem hf.outs_nodup hq
            rw [hqq, h₂] at h₁
            exact (Option.some.inj h₁).symm
          rw [this] at hqa'
          exact hqa (by simpa using hqa')

theorem removeUnusedYields_local {used : Nat → Bool} {e e₁ : Env α} {g g' : Gen K}
    (hc : removeUnusedYields used g = some g') (hf : Fresh e g) (h : g.run sem e = some e₁) :
    ∃ e₂, g'.run sem e = some e₂ ∧
      Sim (fun x => x ∈ g.outs.map Prod.fst → used x = true) id e₁ e₂ := by
  obtain ⟨-, hd, -, -, -⟩ := gen_run_eq.mp h
  unfold removeUnusedYields at hc
  split at hc
  · simp at hc
  simp only [Option.some.injEq] at hc
  subst hc
  obtain ⟨eb, eb', hb, hb', hs, ho, rfl, hr, hfin⟩ := gen_refine
    (g' := ⟨g.ins, g.body, g.outs.filter fun q => used q.1⟩)
    (ρ := id) (fun _ => True) h (by simp [op_rename_id]) hd (fun x _ v hv => hv)
    (fun x hx => trivial) (fun b _ => ⟨rfl, fun x _ h => h⟩)
    (fun q hq => ⟨q, List.filter_sublist.subset hq, rfl⟩)
  refine ⟨_, hr, final_sim filter_fst_sub (fun x _ => rfl) fun q hq hu v hv => ?_⟩
  exact hfin (hf.outs_nodup.sublist (List.filter_sublist.map _)) q hq
    (List.mem_filter.mpr ⟨hq, by simpa using hu (List.mem_map_of_mem hq)⟩) v hv

theorem filter_notMem {l : List (Nat × Nat)} {f : Nat × Nat → Bool} {p : Nat × Nat}
    (hn : (l.map Prod.fst).Nodup) (hp : p ∈ l) (hfp : f p = false) :
    p.1 ∉ (l.filter f).map Prod.fst := by
  intro hm
  obtain ⟨q, hq, hqp⟩ := List.mem_map.mp hm
  obtain ⟨hq, hfq⟩ := List.mem_filter.mp hq
  have h₁ := find_of_mem hn hq
  rw [hqp, find_of_mem hn hp] at h₁
  rw [Option.some.inj h₁, hfq] at hfp
  simp at hfp

theorem removeNonSecretArgs_local {secret : Nat → Bool} {e e₁ : Env α} {g g' : Gen K}
    (hc : removeNonSecretArgs secret g = some g') (hf : Fresh e g) (h : g.run sem e = some e₁) :
    ∃ e₂, g'.run sem e = some e₂ ∧ Sim (fun _ => True) id e₁ e₂ := by
  obtain ⟨-, hd, -, -, -⟩ := gen_run_eq.mp h
  unfold removeNonSecretArgs at hc
  split at hc
  · simp at hc
  simp only [Option.some.injEq] at hc
  subst hc
  have hsubl : (g.ins.filter fun p => !secret p.2).Sublist g.ins := List.filter_sublist
  have hcn := hf.ins_nodup.sublist (hsubl.map Prod.fst)
  have hin : Sim (fun _ => True) (sub (g.ins.filter fun p => !secret p.2)) (assign e e g.ins)
      (assign e e (g.ins.filter fun p => secret p.2)) := by
    intro x _ v hv
    rcases assign_cases e e g.ins x with ⟨p, hp, rfl, ha⟩ | ⟨hm, ha⟩
    · by_cases hsec : secret p.2
      · rw [sub_of_notMem (filter_notMem (f := fun p => !secret p.2) hf.ins_nodup hp (by simp [hsec])),
          assign_of_mem (hf.ins_nodup.sublist (List.filter_sublist.map _))
            (List.mem_filter.mpr ⟨hp, hsec⟩), ← ha, hv]
      · rw [sub_of_mem hcn (List.mem_filter.mpr ⟨hp, by simpa using hsec⟩), assign_of_notMem, ← ha, hv]
        intro hm
        obtain ⟨w, hw⟩ := hd p hp
        rw [hf.ins_none (filter_fst_sub _ hm)] at hw
        simp at hw
    · rw [sub_of_notMem fun hc => hm ((hsubl.map _).subset hc),
        assign_of_notMem fun hc => hm (filter_fst_sub _ hc), ← ha, hv]
  obtain ⟨eb, eb', hb, hb', hs, ho, rfl, hr, hfin⟩ := gen_refine
    (g' := ⟨g.ins.filter fun p => secret p.2, g.body.map (Op.rename (sub (g.ins.filter fun p => !secret p.2))),
      renameSnd (sub (g.ins.filter fun p => !secret p.2)) g.outs⟩)
    (ρ := sub (g.ins.filter fun p => !secret p.2)) (fun _ => True) h rfl
    (fun p hp => hd p (List.filter_sublist.subset hp)) hin
    (fun x hx => trivial)
    (fun b hb => fixes_sub (fun hi => hf.ins_body ((hsubl.map _).subset hi) hb)
      (fun p hp => hd p (hsubl.subset hp)) (hf.body_none hb))
    (fun q hq => by obtain ⟨q', hq', rfl⟩ := List.mem_map.mp hq; exact ⟨q', hq', rfl⟩)
  refine ⟨_, hr, final_sim (by rw [renameSnd_fst]; exact fun r hr => hr) (fun x _ => rfl)
    fun q hq hu v hv => ?_⟩
  exact hfin (by rw [renameSnd_fst]; exact hf.outs_nodup) q hq (List.mem_map.mpr ⟨q, hq, rfl⟩) v hv

theorem dupYield_spec : ∀ {l seen l' : List (Nat × Nat)} {rr : Nat × Nat},
    dupYield seen l = some (l', rr) → ((seen ++ l).map Prod.fst).Nodup →
    l'.Sublist (seen ++ l) ∧ (∀ q ∈ seen ++ l, q.1 ≠ rr.1 → q ∈ l') ∧
      ∃ q s, q ∈ seen ++ l ∧ s ∈ l' ∧ q.1 = rr.1 ∧ s.1 = rr.2 ∧ s.2 = q.2 ∧ s.1 ≠ q.1
  | [], _, _, _, h, _ => by simp [dupYield] at h
  | q :: l, seen, l', rr, h, hn => by
    unfold dupYield at h
    cases hf : seen.find? (fun s => s.2 == q.2) with
    | none =>
      rw [hf] at h
      have := dupYield_spec h (by simpa using hn)
      simpa using this
    | some s =>
      rw [hf] at h
      simp only [Option.some.injEq, Prod.mk.injEq] at h
      obtain ⟨rfl, rfl⟩ := h
      have hs := List.mem_of_find?_eq_some hf
      refine ⟨?_, ?_, q, s, by simp, by simp [hs], rfl, rfl, by simpa using List.find?_some hf, ?_⟩
      · exact (List.sublist_cons_self q l).append_left seen
      · intro p hp hne
        simp only [List.mem_append, List.mem_cons] at hp ⊢
        rcases hp with hp | rfl | hp
        · exact Or.inl hp
        · exact absurd rfl hne
        · exact Or.inr hp
      · intro hsq
        rw [List.map_append, List.nodup_append] at hn
        exact hn.2.2 s.1 (List.mem_map_of_mem hs) q.1 (by simp) hsq

theorem dedupe_local {e e₁ : Env α} {g g' : Gen K} {ρl : List (Nat × Nat)}
    (hc : dedupe g = some (g', ρl)) (hf : Fresh e g) (h : g.run sem e = some e₁) :
    ∃ e₂, g'.run sem e = some e₂ ∧ Sim (fun _ => True) (sub ρl) e₁ e₂ := by
  obtain ⟨-, hd, -, -, -⟩ := gen_run_eq.mp h
  unfold dedupe at hc
  simp only [Option.map_eq_some_iff, Prod.mk.injEq] at hc
  obtain ⟨⟨outs', rr⟩, hdup, rfl, rfl⟩ := hc
  obtain ⟨hsub, hkeep, q₀, s, hq₀, hs₀, hq₁, hs₁, hsq, hne⟩ := dupYield_spec hdup
    (by simpa using hf.outs_nodup)
  simp only [List.nil_append] at hsub hkeep hq₀
  obtain ⟨eb, eb', hb, hb', hs, ho, rfl, hr, hfin⟩ := gen_refine (g' := ⟨g.ins, g.body, outs'⟩)
    (ρ := id) (fun _ => True) h (by simp [op_rename_id]) hd (fun x _ v hv => hv)
    (fun x hx => trivial) (fun b _ => ⟨rfl, fun x _ h => h⟩) (fun q hq => ⟨q, hsub.subset hq, rfl⟩)
  refine ⟨_, hr, final_sim (fun r hr => (hsub.map _).subset hr) (fun x hx => sub_of_notMem fun hm => ?_)
    fun q hq _ v hv => ?_⟩
  · simp only [List.map_cons, List.map_nil, List.mem_singleton] at hm
    exact hx (hm ▸ hq₁ ▸ List.mem_map_of_mem hq₀)
  · have hn' := hf.outs_nodup.sublist (hsub.map Prod.fst)
    by_cases hqr : q.1 = rr.1
    · have hqq : q = q₀ := by
        have h₁ := find_of_mem hf.outs_nodup hq
        rw [hqr, ← hq₁, find_of_mem hf.outs_nodup hq₀] at h₁
        exact (Option.some.inj h₁).symm
      have : sub [rr] q.1 = s.1 := by
        rw [hqr, hs₁]
        exact sub_of_mem (p := rr) (by simp) (by simp)
      rw [this]
      exact hfin hn' s (hsub.subset hs₀) hs₀ v (by rw [hsq, ← hqq]; exact hv)
    · rw [sub_of_notMem (by simpa using hqr)]
      exact hfin hn' q hq (hkeep q hq hqr) v hv

end Heir.Generic
