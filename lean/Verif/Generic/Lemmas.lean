import Verif.Generic.Spec
import Mathlib.Data.List.Nodup
import Mathlib.Tactic.Tauto

/-! # Simulation between runs -/

namespace Heir.Generic

variable {K α : Type} {sem : K → List α → List α → List α}

/-! ## Reading and assigning -/

/-- Variables with a property have, renamed, the same values. -/
def Sim (P : Nat → Prop) (ρ : Nat → Nat) (e₁ e₂ : Env α) : Prop :=
  ∀ x, P x → ∀ v, e₁ x = some v → e₂ (ρ x) = some v

/-- A number that a renaming neither changes nor makes of another. -/
def Fixes (P : Nat → Prop) (ρ : Nat → Nat) (b : Nat) : Prop := ρ b = b ∧ ∀ x, P x → ρ x = b → x = b

theorem readAll_sim {ρ : Nat → Nat} {e₁ e₂ : Env α} : ∀ {l : List Nat} {vs : List α},
    (∀ x ∈ l, ∀ v, e₁ x = some v → e₂ (ρ x) = some v) → readAll e₁ l = some vs →
      readAll e₂ (l.map ρ) = some vs
  | [], vs, _, h => h
  | x :: l, vs, hs, h => by
    simp only [readAll, Option.bind_eq_some_iff, Option.map_eq_some_iff] at h
    obtain ⟨v, hv, vs', hvs, rfl⟩ := h
    have ih := readAll_sim (fun y hy => hs y (List.mem_cons_of_mem _ hy)) hvs
    simp only [List.map_cons, readAll, hs x (by simp) v hv, Option.bind_some, ih, Option.map_some]

theorem readAll_defined {e : Env α} : ∀ {l : List Nat} {vs : List α}, readAll e l = some vs →
    ∀ x ∈ l, ∃ v, e x = some v
  | [], _, _, _, hx => by simp at hx
  | y :: l, vs, h, x, hx => by
    simp only [readAll, Option.bind_eq_some_iff, Option.map_eq_some_iff] at h
    obtain ⟨v, hv, vs', hvs, rfl⟩ := h
    rcases List.mem_cons.mp hx with rfl | hx
    · exact ⟨v, hv⟩
    · exact readAll_defined hvs x hx

theorem assign_of_notMem {base src : Env α} {l : List (Nat × Nat)} {y : Nat}
    (h : y ∉ l.map Prod.fst) : assign base src l y = base y := by
  have : l.find? (fun p => p.1 == y) = none := by
    rw [List.find?_eq_none]
    intro p hp hpy
    exact h (List.mem_map.mpr ⟨p, hp, by simpa using hpy⟩)
  simp [assign, this]

theorem find_of_mem {l : List (Nat × Nat)} (hn : (l.map Prod.fst).Nodup) {p : Nat × Nat} (hp : p ∈ l) :
    l.find? (fun q => q.1 == p.1) = some p := by
  induction l with
  | nil => simp at hp
  | cons q l ih =>
    simp only [List.map_cons, List.nodup_cons] at hn
    rcases List.mem_cons.mp hp with rfl | hp
    · simp
    · have : q.1 ≠ p.1 := fun e => hn.1 (List.mem_map.mpr ⟨p, hp, e.symm⟩)
      rw [List.find?_cons_of_neg (by simpa using this)]
      exact ih hn.2 hp

theorem assign_of_mem {base src : Env α} {l : List (Nat × Nat)} (hn : (l.map Prod.fst).Nodup)
    {p : Nat × Nat} (hp : p ∈ l) : assign base src l p.1 = src p.2 := by
  simp [assign, find_of_mem hn hp]

theorem sub_of_mem {l : List (Nat × Nat)} (hn : (l.map Prod.fst).Nodup) {p : Nat × Nat} (hp : p ∈ l) :
    sub l p.1 = p.2 := by
  simp [sub, find_of_mem hn hp]

theorem sub_of_notMem {l : List (Nat × Nat)} {y : Nat} (h : y ∉ l.map Prod.fst) : sub l y = y := by
  have : l.find? (fun p => p.1 == y) = none := by
    rw [List.find?_eq_none]
    intro p hp hpy
    exact h (List.mem_map.mpr ⟨p, hp, by simpa using hpy⟩)
  simp [sub, this]

/-- A substituted number is unchanged or one of the targets. -/
theorem sub_cases (l : List (Nat × Nat)) (y : Nat) :
    (∃ p ∈ l, p.1 = y ∧ sub l y = p.2) ∨ (y ∉ l.map Prod.fst ∧ sub l y = y) := by
  by_cases h : y ∈ l.map Prod.fst
  · left
    unfold sub
    cases hf : l.find? (fun p => p.1 == y) with
    | none =>
      obtain ⟨p, hp, hpy⟩ := List.mem_map.mp h
      have := List.find?_eq_none.mp hf p hp
      simp [hpy] at this
    | some p => exact ⟨p, List.mem_of_find?_eq_some hf, by simpa using List.find?_some hf, rfl⟩
  · exact Or.inr ⟨h, sub_of_notMem h⟩

theorem assign_cases (base src : Env α) (l : List (Nat × Nat)) (y : Nat) :
    (∃ p ∈ l, p.1 = y ∧ assign base src l y = src p.2) ∨
      (y ∉ l.map Prod.fst ∧ assign base src l y = base y) := by
  by_cases h : y ∈ l.map Prod.fst
  · left
    unfold assign
    cases hf : l.find? (fun p => p.1 == y) with
    | none =>
      obtain ⟨p, hp, hpy⟩ := List.mem_map.mp h
      have := List.find?_eq_none.mp hf p hp
      simp [hpy] at this
    | some p => exact ⟨p, List.mem_of_find?_eq_some hf, by simpa using List.find?_some hf, rfl⟩
  · exact Or.inr ⟨h, assign_of_notMem h⟩

theorem bindAll_eq {base src e : Env α} {l : List (Nat × Nat)} :
    bindAll base src l = some e ↔ (∀ p ∈ l, ∃ v, src p.2 = some v) ∧ e = assign base src l := by
  unfold bindAll
  constructor
  · intro h
    split at h
    · rename_i ha
      simp only [Option.some.injEq] at h
      exact ⟨fun p hp => Option.isSome_iff_exists.mp (List.all_eq_true.mp ha p hp), h.symm⟩
    · simp at h
  · rintro ⟨h, rfl⟩
    rw [if_pos (List.all_eq_true.mpr fun p hp => Option.isSome_iff_exists.mpr (h p hp))]

theorem renameSnd_fst (ρ : Nat → Nat) (l : List (Nat × Nat)) :
    (renameSnd ρ l).map Prod.fst = l.map Prod.fst := by
  simp [renameSnd]

theorem find_renameSnd (ρ : Nat → Nat) (l : List (Nat × Nat)) (y : Nat) :
    (renameSnd ρ l).find? (fun p => p.1 == y) =
      (l.find? (fun p => p.1 == y)).map fun p => (p.1, ρ p.2) := by
  induction l with
  | nil => rfl
  | cons p l ih =>
    simp only [renameSnd, List.map_cons]
    by_cases h : p.1 = y
    · simp [h]
    · rw [List.find?_cons_of_neg (by simpa using h), List.find?_cons_of_neg (by simpa using h)]
      exact ih

theorem assign_sim {P : Nat → Prop} {ρ : Nat → Nat} {b₁ b₂ s₁ s₂ : Env α} {l : List (Nat × Nat)}
    (hb : Sim P ρ b₁ b₂)
    (hs : ∀ p ∈ l, ∀ v, s₁ p.2 = some v → s₂ (ρ p.2) = some v)
    (hf : ∀ b ∈ l.map Prod.fst, Fixes P ρ b) :
    Sim P ρ (assign b₁ s₁ l) (assign b₂ s₂ (renameSnd ρ l)) := by
  intro x hx v hv
  by_cases hm : x ∈ l.map Prod.fst
  · rw [(hf x hm).1]
    unfold assign at hv ⊢
    rw [find_renameSnd]
    cases hfd : l.find? (fun p => p.1 == x) with
    | none =>
      obtain ⟨p, hp, hpy⟩ := List.mem_map.mp hm
      have := List.find?_eq_none.mp hfd p hp
      simp [hpy] at this
    | some p =>
      rw [hfd] at hv
      exact hs p (List.mem_of_find?_eq_some hfd) v hv
  · rw [assign_of_notMem hm] at hv
    rw [assign_of_notMem]
    · exact hb x hx v hv
    · rw [renameSnd_fst]
      intro hc
      exact hm (by rw [← (hf _ hc).2 x hx rfl] at hc; exact hc)

/-! ## Operations -/

theorem define_of_notMem {env : Env α} {rs : List Nat} {vs : List α} {y : Nat} (h : y ∉ rs) :
    define env rs vs y = env y := by
  have : (rs.zip vs).find? (fun p => p.1 == y) = none := by
    rw [List.find?_eq_none]
    intro p hp hpy
    have := (List.of_mem_zip (a := p.1) (b := p.2) hp).1
    rw [show p.1 = y by simpa using hpy] at this
    exact h this
  simp [define, this]

theorem define_of_mem {env : Env α} {rs : List Nat} {vs : List α} (hl : rs.length = vs.length)
    {y : Nat} (h : y ∈ rs) (env' : Env α) : define env rs vs y = define env' rs vs y ∧
      ∃ v, define env rs vs y = some v := by
  have hm : y ∈ (rs.zip vs).map Prod.fst := by rw [List.map_fst_zip (by omega)]; exact h
  unfold define
  cases hf : (rs.zip vs).find? (fun p => p.1 == y) with
  | none =>
    obtain ⟨p, hp, hpy⟩ := List.mem_map.mp hm
    have := List.find?_eq_none.mp hf p hp
    simp [hpy] at this
  | some p => exact ⟨rfl, _, rfl⟩

theorem op_run_eq {e e' : Env α} {o : Op K} : o.run sem e = some e' ↔
    ∃ a c, readAll e o.args = some a ∧ readAll e o.captured = some c ∧
      o.results.length = (sem o.kind a c).length ∧ e' = define e o.results (sem o.kind a c) := by
  simp only [Op.run, Option.bind_eq_some_iff]
  constructor
  · rintro ⟨a, ha, c, hc, h⟩
    split at h
    · exact ⟨a, c, ha, hc, by assumption, by simpa using h.symm⟩
    · simp at h
  · rintro ⟨a, c, ha, hc, hl, rfl⟩
    exact ⟨a, ha, c, hc, by rw [if_pos hl]⟩

theorem op_sim {P : Nat → Prop} {ρ : Nat → Nat} {e₁ e₂ e₁' : Env α} {o : Op K} (hs : Sim P ρ e₁ e₂)
    (hu : ∀ x ∈ o.uses, P x) (hf : ∀ b ∈ o.results, Fixes P ρ b) (h : o.run sem e₁ = some e₁') :
    ∃ e₂', (o.rename ρ).run sem e₂ = some e₂' ∧ Sim P ρ e₁' e₂' := by
  obtain ⟨a, c, ha, hc, hl, rfl⟩ := op_run_eq.mp h
  have ha' := readAll_sim (e₂ := e₂) (fun x hx => hs x (hu x (by simp [Op.uses, hx]))) ha
  have hc' := readAll_sim (e₂ := e₂) (fun x hx => hs x (hu x (by simp [Op.uses, hx]))) hc
  refine ⟨_, op_run_eq.mpr ⟨a, c, ha', hc', hl, rfl⟩, ?_⟩
  intro x hx v hv
  by_cases hm : x ∈ o.results
  · rw [(hf x hm).1]
    rw [(define_of_mem hl hm e₂).1] at hv
    exact hv
  · rw [define_of_notMem hm] at hv
    have : ρ x ∉ o.results := fun hc => hm (by
      have := (hf _ hc).2 x hx rfl
      rw [← this] at hc; exact hc)
    rw [show (o.rename ρ).results = o.results from rfl, define_of_notMem this]
    exact hs x hx v hv

theorem ops_sim {P : Nat → Prop} {ρ : Nat → Nat} : ∀ {l : List (Op K)} {e₁ e₂ e₁' : Env α},
    Sim P ρ e₁ e₂ → (∀ x ∈ l.flatMap Op.uses, P x) → (∀ b ∈ l.flatMap Op.results, Fixes P ρ b) →
    runOps sem e₁ l = some e₁' →
    ∃ e₂', runOps sem e₂ (l.map (Op.rename ρ)) = some e₂' ∧ Sim P ρ e₁' e₂'
  | [], e₁, e₂, e₁', hs, _, _, h => by
    simp only [runOps, Option.some.injEq] at h
    exact ⟨e₂, rfl, h ▸ hs⟩
  | o :: l, e₁, e₂, e₁', hs, hu, hf, h => by
    simp only [runOps, Option.bind_eq_some_iff] at h
    obtain ⟨e, he, h⟩ := h
    simp only [List.flatMap_cons, List.mem_append] at hu hf
    obtain ⟨e₂m, h₂, hs'⟩ := op_sim hs (fun x hx => hu x (Or.inl hx)) (fun x hx => hf x (Or.inl hx)) he
    obtain ⟨e₂', h₂', hs''⟩ := ops_sim hs' (fun x hx => hu x (Or.inr hx))
      (fun x hx => hf x (Or.inr hx)) h
    exact ⟨e₂', by simp [runOps, h₂, h₂'], hs''⟩

theorem op_stable {e e' : Env α} {o : Op K} (h : o.run sem e = some e') {x : Nat}
    (hx : x ∉ o.results) : e' x = e x := by
  obtain ⟨a, c, -, -, -, rfl⟩ := op_run_eq.mp h
  exact define_of_notMem hx

theorem ops_stable : ∀ {l : List (Op K)} {e e' : Env α}, runOps sem e l = some e' → ∀ {x : Nat},
    x ∉ l.flatMap Op.results → e' x = e x
  | [], e, e', h, x, _ => by simp only [runOps, Option.some.injEq] at h; rw [h]
  | o :: l, e, e', h, x, hx => by
    simp only [runOps, Option.bind_eq_some_iff] at h
    obtain ⟨em, he, h⟩ := h
    simp only [List.flatMap_cons, List.mem_append, not_or] at hx
    rw [ops_stable h hx.2, op_stable he hx.1]

theorem runOps_append {e : Env α} (l l' : List (Op K)) :
    runOps sem e (l ++ l') = (runOps sem e l).bind fun e' => runOps sem e' l' := by
  induction l generalizing e with
  | nil => rfl
  | cons o l ih =>
    simp only [List.cons_append, runOps]
    cases o.run sem e with
    | none => rfl
    | some e' => simp [ih]

/-! ## Generics -/

theorem gen_run_eq {e e' : Env α} {g : Gen K} : g.run sem e = some e' ↔
    ∃ eb, (∀ p ∈ g.ins, ∃ v, e p.2 = some v) ∧ runOps sem (assign e e g.ins) g.body = some eb ∧
      (∀ q ∈ g.outs, ∃ v, eb q.2 = some v) ∧ e' = assign e eb g.outs := by
  simp only [Gen.run, Option.bind_eq_some_iff]
  constructor
  · rintro ⟨e₁, h₁, eb, hb, h⟩
    obtain ⟨hd, rfl⟩ := bindAll_eq.mp h₁
    obtain ⟨ho, rfl⟩ := bindAll_eq.mp h
    exact ⟨eb, hd, hb, ho, rfl⟩
  · rintro ⟨eb, hd, hb, ho, rfl⟩
    exact ⟨_, bindAll_eq.mpr ⟨hd, rfl⟩, eb, hb, bindAll_eq.mpr ⟨ho, rfl⟩⟩

theorem gen_sim {P : Nat → Prop} {ρ : Nat → Nat} {e₁ e₂ e₁' : Env α} {g : Gen K} (hs : Sim P ρ e₁ e₂)
    (hu : ∀ x ∈ (Stmt.generic g).uses, P x) (hf : ∀ b ∈ (Stmt.generic g).binders, Fixes P ρ b)
    (h : g.run sem e₁ = some e₁') :
    ∃ e₂', (g.rename ρ).run sem e₂ = some e₂' ∧ Sim P ρ e₁' e₂' := by
  obtain ⟨eb, hd, hb, ho, rfl⟩ := gen_run_eq.mp h
  simp only [Stmt.uses, Gen.bodyUses, List.mem_append] at hu
  simp only [Stmt.binders, Gen.inner, List.mem_append] at hf
  have hin : Sim P ρ (assign e₁ e₁ g.ins) (assign e₂ e₂ (renameSnd ρ g.ins)) :=
    assign_sim hs (fun p hp => hs p.2 (hu _ (Or.inl (List.mem_map_of_mem hp))))
      fun b hb => hf b (Or.inl (Or.inl hb))
  obtain ⟨eb₂, hb₂, hsb⟩ := ops_sim hin (fun x hx => hu x (Or.inr (Or.inl hx)))
    (fun x hx => hf x (Or.inl (Or.inr hx))) hb
  have hso : ∀ q ∈ g.outs, ∀ v, eb q.2 = some v → eb₂ (ρ q.2) = some v := fun q hq =>
    hsb q.2 (hu _ (Or.inr (Or.inr (List.mem_map_of_mem hq))))
  refine ⟨assign e₂ eb₂ (renameSnd ρ g.outs), gen_run_eq.mpr ⟨eb₂, ?_, hb₂, ?_, rfl⟩,
    assign_sim hs hso fun b hb => hf b (Or.inr hb)⟩
  · intro p hp
    obtain ⟨p', hp', rfl⟩ := List.mem_map.mp hp
    obtain ⟨v, hv⟩ := hd p' hp'
    exact ⟨v, hs _ (hu _ (Or.inl (List.mem_map_of_mem hp'))) v hv⟩
  · intro q hq
    obtain ⟨q', hq', rfl⟩ := List.mem_map.mp hq
    obtain ⟨v, hv⟩ := ho q' hq'
    exact ⟨v, hso q' hq' v hv⟩

theorem gen_stable {e e' : Env α} {g : Gen K} (h : g.run sem e = some e') {x : Nat}
    (hx : x ∉ g.outs.map Prod.fst) : e' x = e x := by
  obtain ⟨eb, -, -, -, rfl⟩ := gen_run_eq.mp h
  exact assign_of_notMem hx

/-! ## Statements -/

theorem stmt_sim {P : Nat → Prop} {ρ : Nat → Nat} {e₁ e₂ e₁' : Env α} {s : Stmt K} (hs : Sim P ρ e₁ e₂)
    (hu : ∀ x ∈ s.uses, P x) (hf : ∀ b ∈ s.binders, Fixes P ρ b) (h : s.run sem e₁ = some e₁') :
    ∃ e₂', (s.rename ρ).run sem e₂ = some e₂' ∧ Sim P ρ e₁' e₂' := by
  cases s with
  | op o => exact op_sim hs hu hf h
  | conceal r x =>
    obtain ⟨hd, rfl⟩ := bindAll_eq.mp h
    refine ⟨_, bindAll_eq.mpr ⟨?_, rfl⟩, assign_sim (l := [(r, x)]) hs ?_ (by simpa [Stmt.binders] using hf)⟩
    · intro p hp
      obtain rfl := List.mem_singleton.mp hp
      obtain ⟨v, hv⟩ := hd (r, x) (by simp)
      exact ⟨v, hs x (hu x (by simp [Stmt.uses])) v hv⟩
    · intro p hp
      obtain rfl := List.mem_singleton.mp hp
      exact hs x (hu x (by simp [Stmt.uses]))
  | generic g => exact gen_sim hs hu hf h

theorem all_sim {P : Nat → Prop} {ρ : Nat → Nat} : ∀ {l : List (Stmt K)} {e₁ e₂ e₁' : Env α},
    Sim P ρ e₁ e₂ → (∀ x ∈ l.flatMap Stmt.uses, P x) → (∀ b ∈ bindersOf l, Fixes P ρ b) →
    runAll sem e₁ l = some e₁' →
    ∃ e₂', runAll sem e₂ (l.map (Stmt.rename ρ)) = some e₂' ∧ Sim P ρ e₁' e₂'
  | [], e₁, e₂, e₁', hs, _, _, h => by
    simp only [runAll, Option.some.injEq] at h
    exact ⟨e₂, rfl, h ▸ hs⟩
  | s :: l, e₁, e₂, e₁', hs, hu, hf, h => by
    simp only [runAll, Option.bind_eq_some_iff] at h
    obtain ⟨e, he, h⟩ := h
    simp only [List.flatMap_cons, List.mem_append, bindersOf] at hu hf
    obtain ⟨e₂m, h₂, hs'⟩ := stmt_sim hs (fun x hx => hu x (Or.inl hx)) (fun x hx => hf x (Or.inl hx)) he
    obtain ⟨e₂', h₂', hs''⟩ := all_sim hs' (fun x hx => hu x (Or.inr hx))
      (fun x hx => hf x (Or.inr hx)) h
    exact ⟨e₂', by simp [runAll, h₂, h₂'], hs''⟩

theorem stmt_stable {e e' : Env α} {s : Stmt K} (h : s.run sem e = some e') {x : Nat}
    (hx : x ∉ s.binders) : e' x = e x := by
  cases s with
  | op o => exact op_stable h hx
  | conceal r y =>
    obtain ⟨-, rfl⟩ := bindAll_eq.mp h
    exact assign_of_notMem (by simpa [Stmt.binders] using hx)
  | generic g =>
    simp only [Stmt.binders, List.mem_append, not_or] at hx
    exact gen_stable h hx.2

theorem all_stable : ∀ {l : List (Stmt K)} {e e' : Env α}, runAll sem e l = some e' → ∀ {x : Nat},
    x ∉ bindersOf l → e' x = e x
  | [], e, e', h, x, _ => by simp only [runAll, Option.some.injEq] at h; rw [h]
  | o :: l, e, e', h, x, hx => by
    simp only [runAll, Option.bind_eq_some_iff] at h
    obtain ⟨em, he, h⟩ := h
    simp only [bindersOf, List.flatMap_cons, List.mem_append, not_or] at hx
    rw [all_stable h hx.2, stmt_stable he hx.1]

theorem runAll_append {e : Env α} (l l' : List (Stmt K)) :
    runAll sem e (l ++ l') = (runAll sem e l).bind fun e' => runAll sem e' l' := by
  induction l generalizing e with
  | nil => rfl
  | cons o l ih =>
    simp only [List.cons_append, runAll]
    cases o.run sem e with
    | none => rfl
    | some e' => simp [ih]

/-! ## One place of a function -/

/-- Statements `mid` replaced by `mid'`, and uses after them renamed. -/
theorem splice {params pre mid mid' post rets secret secret' next next'} {P : Nat → Prop} {ρ : Nat → Nat}
    (hw : Ssa (K := K) ⟨params, pre ++ mid ++ post, rets, secret, next⟩)
    (hu : ∀ x ∈ post.flatMap Stmt.uses ++ rets, P x)
    (hm : ∀ (α : Type) (sem : K → List α → List α → List α) (e₀ e e₁ : Env α),
      (∀ x, (e₀ x).isSome ↔ x ∈ params) → runAll sem e₀ pre = some e →
      (∀ b ∈ bindersOf mid ++ bindersOf post, e b = none) →
      (∀ x v, e x = some v → x < next) →
      runAll sem e mid = some e₁ → (∃ e₂, runAll sem e mid' = some e₂ ∧ Sim P ρ e₁ e₂) ∧
        ∀ b ∈ bindersOf post, Fixes P ρ b) :
    Sound ⟨params, pre ++ mid ++ post, rets, secret, next⟩
      ⟨params, pre ++ mid' ++ post.map (Stmt.rename ρ), rets.map ρ, secret', next'⟩ := by
  intro α sem env hi vs h
  simp only [Prog.eval, runAll_append, Option.bind_eq_some_iff] at h
  obtain ⟨e₃, ⟨e₁, ⟨e, he, hmid⟩, hpost⟩, hr⟩ := h
  have hdom : ∀ x v, e x = some v → x ∈ params ++ bindersOf pre := by
    intro x v hv
    by_contra hc
    simp only [List.mem_append, not_or] at hc
    rw [all_stable he hc.2] at hv
    exact hc.1 ((hi x).mp (by simp [hv]))
  have hnd := hw.nodup
  simp only [bindersOf, List.flatMap_append] at hnd
  have hnone : ∀ b ∈ bindersOf mid ++ bindersOf post, e b = none := by
    intro b hb
    cases hv : e b with
    | none => rfl
    | some v =>
      exfalso
      have hd := hdom b v hv
      rw [show params ++ (List.flatMap Stmt.binders pre ++ List.flatMap Stmt.binders mid ++
        List.flatMap Stmt.binders post) = (params ++ bindersOf pre) ++ (bindersOf mid ++ bindersOf post)
        by simp [bindersOf]] at hnd
      exact (List.nodup_append.mp hnd).2.2 b hd b hb rfl
  obtain ⟨⟨e₂, h₂, hs⟩, hf⟩ := hm α sem env e e₁ hi he hnone (fun x v hv => hw.below x (by
    have := hdom x v hv
    simp only [bindersOf, List.flatMap_append, List.mem_append] at this ⊢
    tauto)) hmid
  obtain ⟨e₄, h₄, hs'⟩ := all_sim hs (fun x hx => hu x (by simp [hx])) hf hpost
  simp only [Prog.eval, runAll_append, h₂, he, Option.bind_some, h₄]
  exact readAll_sim (fun x hx v hv => hs' x (hu x (by simp [hx])) v hv) hr

theorem stmt_rename_id (s : Stmt K) : s.rename id = s := by
  cases s <;> simp [Stmt.rename, Op.rename, Gen.rename, renameSnd, show (Op.rename id : Op K → Op K) = id
    from funext fun o => by simp [Op.rename]]

theorem map_rename_id (l : List (Stmt K)) : l.map (Stmt.rename id) = l := by
  rw [show (Stmt.rename id : Stmt K → Stmt K) = id from funext stmt_rename_id]; simp

/-- `splice` without renaming. -/
theorem splice_id {params pre mid mid' post rets secret secret' next next'} {P : Nat → Prop}
    (hw : Ssa (K := K) ⟨params, pre ++ mid ++ post, rets, secret, next⟩)
    (hu : ∀ x ∈ post.flatMap Stmt.uses ++ rets, P x)
    (hm : ∀ (α : Type) (sem : K → List α → List α → List α) (e₀ e e₁ : Env α),
      (∀ x, (e₀ x).isSome ↔ x ∈ params) → runAll sem e₀ pre = some e →
      (∀ b ∈ bindersOf mid ++ bindersOf post, e b = none) →
      (∀ x v, e x = some v → x < next) →
      runAll sem e mid = some e₁ → ∃ e₂, runAll sem e mid' = some e₂ ∧ Sim P id e₁ e₂) :
    Sound ⟨params, pre ++ mid ++ post, rets, secret, next⟩
      ⟨params, pre ++ mid' ++ post, rets, secret', next'⟩ := by
  have := splice (ρ := id) (secret' := secret') (next' := next') hw hu
    (fun α sem e₀ e e₁ h₀ h₁ h₂ h₃ h₄ => ⟨hm α sem e₀ e e₁ h₀ h₁ h₂ h₃ h₄,
      fun b _ => ⟨rfl, fun x _ h => h⟩⟩)
  rw [map_rename_id, List.map_id] at this
  exact this

theorem runAll_single {e : Env α} (s : Stmt K) : runAll sem e [s] = s.run sem e := by
  simp only [runAll]; cases s.run sem e <;> rfl

end Heir.Generic
