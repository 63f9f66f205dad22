import Verif.Generic.Absorb

/-! # Patterns in a function -/

namespace Heir.Generic

variable {K α : Type} {sem : K → List α → List α → List α}

theorem sub_nil : sub [] = id := by
  funext x; simp [sub]

theorem fresh_of {p : Prog K} {pre post : List (Stmt K)} {g : Gen K} {e : Env α} (hs : Ssa p)
    (hb : p.body = pre ++ [.generic g] ++ post)
    (hn : ∀ b ∈ bindersOf [.generic g] ++ bindersOf post, e b = none) : Fresh e g := by
  have hnd := hs.nodup
  rw [hb] at hnd
  simp only [bindersOf, List.flatMap_append, List.flatMap_cons, List.flatMap_nil, List.append_nil] at hnd hn
  have h₁ := (List.nodup_append.mp (List.nodup_append.mp (List.nodup_append.mp hnd).2.1).1).2.1
  simp only [Stmt.binders, Gen.inner] at h₁ hn
  exact ⟨h₁, fun b hb => hn b (List.mem_append_left _ hb)⟩

theorem binders_below {p : Prog K} {pre mid post : List (Stmt K)} (hs : Ssa p)
    (hb : p.body = pre ++ mid ++ post) : ∀ b ∈ bindersOf mid, b < p.next := fun b hm =>
  hs.below b (by rw [hb]; simp only [bindersOf, List.flatMap_append, List.mem_append] at hm ⊢; tauto)

theorem pre_nodup {p : Prog K} {pre mid post : List (Stmt K)} (hs : Ssa p)
    (hb : p.body = pre ++ mid ++ post) : (bindersOf pre).Nodup := by
  have hnd := hs.nodup
  rw [hb] at hnd
  simp only [bindersOf, List.flatMap_append] at hnd
  exact (List.nodup_append.mp (List.nodup_append.mp (List.nodup_append.mp hnd).2.1).1).1

theorem mid_post {p : Prog K} {pre mid post : List (Stmt K)} (hs : Ssa p)
    (hb : p.body = pre ++ mid ++ post) : (bindersOf mid ++ bindersOf post).Nodup := by
  have hnd := hs.nodup
  rw [hb] at hnd
  simp only [bindersOf, List.flatMap_append, List.append_assoc] at hnd
  exact (List.nodup_append.mp (List.nodup_append.mp hnd).2.1).2.1

/-- A replacement without renaming. -/
theorem replace_id {p : Prog K} {pre mid post stmts : List (Stmt K)} {secrets : List Nat} {next : Nat}
    {P : Nat → Prop} (hs : Ssa p) (hb : p.body = pre ++ mid ++ post)
    (hu : ∀ x ∈ post.flatMap Stmt.uses ++ p.rets, P x)
    (hm : ∀ (α : Type) (sem : K → List α → List α → List α) (e₀ e e₁ : Env α),
      (∀ x, (e₀ x).isSome ↔ x ∈ p.params) → runAll sem e₀ pre = some e →
      (∀ b ∈ bindersOf mid ++ bindersOf post, e b = none) →
      (∀ x v, e x = some v → x < p.next) →
      runAll sem e mid = some e₁ → ∃ e₂, runAll sem e stmts = some e₂ ∧ Sim P id e₁ e₂) :
    Sound p (p.replace pre post ⟨stmts, [], secrets, next⟩) := by
  obtain ⟨params, body, rets, secret, n⟩ := p
  simp only at hb hu hm
  subst hb
  simp only [Prog.replace, sub_nil, map_rename_id, List.map_id]
  exact splice_id hs hu hm

/-- A generic replaced by another. -/
theorem replace_gen {p : Prog K} {pre post : List (Stmt K)} {g g' : Gen K} {secrets : List Nat}
    {next : Nat} (hs : Ssa p) (hb : p.body = pre ++ [.generic g] ++ post)
    (hm : ∀ (α : Type) (sem : K → List α → List α → List α) (e₀ e e₁ : Env α),
      (∀ x, (e₀ x).isSome ↔ x ∈ p.params) → runAll sem e₀ pre = some e → Fresh e g →
      (∀ x v, e x = some v → x < p.next) →
      g.run sem e = some e₁ → ∃ e₂, g'.run sem e = some e₂ ∧ Sim (fun _ => True) id e₁ e₂) :
    Sound p (p.replace pre post ⟨[.generic g'], [], secrets, next⟩) :=
  replace_id (P := fun _ => True) hs hb (fun _ _ => trivial) fun α sem e₀ e e₁ h₀ h₁ h₂ h₃ h₄ => by
    rw [runAll_single] at h₄ ⊢
    exact hm α sem e₀ e e₁ h₀ h₁ (fresh_of hs hb h₂) h₃ h₄

/-- A generic replaced by another, and results by values. -/
theorem replace_subst {p : Prog K} {pre post : List (Stmt K)} {g g' : Gen K} {secrets : List Nat}
    {next : Nat} {ρ : List (Nat × Nat)} (hs : Ssa p) (hb : p.body = pre ++ [.generic g] ++ post)
    (hρ : ∀ q ∈ ρ, q.1 ∈ g.outs.map Prod.fst ∧ (q.2 ∈ g.outs.map Prod.fst ∨ q.2 ∈ g.ins.map Prod.snd))
    (hm : ∀ (α : Type) (sem : K → List α → List α → List α) (e e₁ : Env α), Fresh e g →
      g.run sem e = some e₁ → ∃ e₂, g'.run sem e = some e₂ ∧ Sim (fun _ => True) (sub ρ) e₁ e₂) :
    Sound p (p.replace pre post ⟨[.generic g'], ρ, secrets, next⟩) := by
  have hmp := mid_post hs hb
  obtain ⟨params, body, rets, secret, n⟩ := p
  simp only at hb
  subst hb
  refine splice (P := fun _ => True) hs (fun _ _ => trivial) fun α sem e₀ e e₁ h₀ h₁ h₂ h₃ h₄ => ?_
  rw [runAll_single] at h₄ ⊢
  refine ⟨hm α sem e e₁ (fresh_of hs rfl h₂) h₄, fun b hbp => ?_⟩
  have hbo : b ∉ g.outs.map Prod.fst := fun hc => (List.nodup_append.mp hmp).2.2 b (by
    simp only [bindersOf, List.flatMap_cons, List.flatMap_nil, List.append_nil, Stmt.binders,
      List.mem_append]
    exact Or.inr hc) b hbp rfl
  have hbi : b ∉ g.ins.map Prod.snd := fun hc => by
    obtain ⟨a, ha, rfl⟩ := List.mem_map.mp hc
    obtain ⟨-, hd, -, -, -⟩ := gen_run_eq.mp h₄
    obtain ⟨v, hv⟩ := hd a ha
    rw [h₂ a.2 (List.mem_append_right _ hbp)] at hv
    exact absurd hv (by simp)
  constructor
  · exact sub_of_notMem fun hc => by
      obtain ⟨q, hq, rfl⟩ := List.mem_map.mp hc
      exact hbo (hρ q hq).1
  · intro y _ hy
    rcases sub_cases ρ y with ⟨q, hq, -, hq'⟩ | ⟨-, hq⟩
    · rcases (hρ q hq).2 with h | h
      · exact absurd (by rw [← hq', hy] at h; exact h) hbo
      · exact absurd (by rw [← hq', hy] at h; exact h) hbi
    · rw [← hq, hy]

theorem removeUnusedArgs_subst {g g' : Gen K} {ρ : List (Nat × Nat)}
    (h : removeUnusedArgs g = some (g', ρ)) : ∀ q ∈ ρ, q.1 ∈ g.outs.map Prod.fst ∧
      q.2 ∈ g.ins.map Prod.snd := by
  unfold removeUnusedArgs at h
  have hp := scanArgs_passed g g.ins
  split at h
  · rename_i kept a hsc
    rw [hsc] at hp
    simp only [Option.some.injEq, Prod.mk.injEq] at h
    obtain ⟨-, rfl⟩ := h
    intro q hq
    obtain ⟨q', hq', rfl⟩ := List.mem_map.mp hq
    exact ⟨List.mem_map.mpr ⟨q', (List.mem_filter.mp hq').1, rfl⟩, List.mem_map.mpr ⟨a, hp a rfl, rfl⟩⟩
  · split at h
    · simp only [Option.some.injEq, Prod.mk.injEq] at h
      obtain ⟨-, rfl⟩ := h
      simp
    · simp at h

theorem dedupe_subst {g g' : Gen K} {ρ : List (Nat × Nat)} (hn : (g.outs.map Prod.fst).Nodup)
    (h : dedupe g = some (g', ρ)) : ∀ q ∈ ρ, q.1 ∈ g.outs.map Prod.fst ∧
      q.2 ∈ g.outs.map Prod.fst := by
  simp only [dedupe, Option.map_eq_some_iff, Prod.mk.injEq] at h
  obtain ⟨⟨l', rr⟩, hd, rfl, rfl⟩ := h
  obtain ⟨hsub, -, q, s, hq, hs, h₁, h₂, -, -⟩ := dupYield_spec hd (by simpa using hn)
  intro x hx
  obtain rfl := List.mem_singleton.mp hx
  exact ⟨h₁ ▸ List.mem_map_of_mem (by simpa using hq), h₂ ▸ List.mem_map_of_mem (by simpa using hsub.subset hs)⟩

theorem gen_outs_nodup {p : Prog K} {pre post : List (Stmt K)} {g : Gen K} (hs : Ssa p)
    (hb : p.body = pre ++ [.generic g] ++ post) : (g.outs.map Prod.fst).Nodup :=
  (fresh_of (α := Unit) (e := fun _ => none) hs hb fun _ _ => rfl).outs_nodup

/-! ## Soundness -/

theorem collapse_sound {p : Prog K} {pre post l : List (Stmt K)} {alloc : K → Bool} {g : Gen K}
    (hs : Ssa p) (hb : p.body = pre ++ [.generic g] ++ post)
    (h : collapse alloc p.secret g = some l) : Sound p (p.replace pre post ⟨l, [], [], p.next⟩) :=
  replace_id (P := fun _ => True) hs hb (fun _ _ => trivial) fun α sem e₀ e e₁ h₀ h₁ h₂ h₃ h₄ => by
    rw [runAll_single] at h₄
    exact collapse_local h (fresh_of hs hb h₂) h₄

theorem unusedYields_sound {p : Prog K} {pre post : List (Stmt K)} {g g' : Gen K}
    (hs : Ssa p) (hb : p.body = pre ++ [.generic g] ++ post)
    (h : removeUnusedYields (fun x => (post.flatMap Stmt.uses ++ p.rets).contains x) g = some g') :
    Sound p (p.replace pre post ⟨[.generic g'], [], [], p.next⟩) :=
  replace_id (P := fun x => x ∈ g.outs.map Prod.fst →
      (post.flatMap Stmt.uses ++ p.rets).contains x = true) hs hb
    (fun x hx _ => List.contains_iff_mem.mpr hx) fun α sem e₀ e e₁ h₀ h₁ h₂ h₃ h₄ => by
    rw [runAll_single] at h₄ ⊢
    exact removeUnusedYields_local h (fresh_of hs hb h₂) h₄

theorem merge_sound {p : Prog K} {pre post : List (Stmt K)} {g h : Gen K} (hv : Valid p)
    (hb : p.body = pre ++ [.generic g, .generic h] ++ post) :
    Sound p (p.replace pre post ⟨[.generic (merge g h)], [], [], p.next⟩) :=
  replace_id (P := fun _ => True) hv.toSsa hb (fun _ _ => trivial) fun α sem e₀ e e₁ h₀ h₁ h₂ h₃ h₄ => by
    have hmp := (List.nodup_append.mp (mid_post hv.toSsa hb)).1
    simp only [bindersOf, List.flatMap_cons, List.flatMap_nil, List.append_nil] at hmp h₂
    have hnd := List.nodup_append.mp hmp
    simp only [runAll, Option.bind_eq_some_iff, Option.some.injEq] at h₄
    obtain ⟨em, hg, em', hh, rfl⟩ := h₄
    rw [runAll_single]
    have htg := hv.typed (.generic g) (by rw [hb]; simp)
    have hth := hv.typed (.generic h) (by rw [hb]; simp)
    refine merge_local ⟨hnd.1, fun b hb => h₂ b (by
        simp only [Stmt.binders, Gen.inner, List.mem_append] at hb ⊢; tauto)⟩
      ⟨hnd.2.1, fun b hb => h₂ b (by simp only [Stmt.binders, Gen.inner, List.mem_append] at hb ⊢; tauto)⟩
      (fun x hx hx' => hnd.2.2 x hx x hx' rfl) (fun x hx hx' => ?_) hg hh
    have h₁ := htg.2 x hx
    have h₂ := hth.1 x (List.mem_append_right _ hx')
    rw [h₁] at h₂
    exact absurd h₂ (by simp)

theorem extractBefore_sound {p : Prog K} {pre post : List (Stmt K)} {ins outs : List (Nat × Nat)}
    {b₁ b₂ : List (Op K)} {o : Op K} {h g' : Gen K} {n : Nat} {secrets : List Nat} (hs : Ssa p)
    (hb : p.body = pre ++ [.generic ⟨ins, b₁ ++ o :: b₂, outs⟩] ++ post)
    (hho : ∀ x ∈ o.uses, x ∉ (b₁ ++ o :: b₂).flatMap Op.results)
    (hx : extractBefore p.next ins b₁ o b₂ outs = (h, g', n)) :
    Sound p (p.replace pre post ⟨[.generic h, .generic g'], [], secrets, n⟩) :=
  replace_id (P := fun _ => True) hs hb (fun _ _ => trivial) fun α sem e₀ e e₁ h₀ h₁ h₂ h₃ h₄ => by
    rw [runAll_single] at h₄
    obtain ⟨e₂, e₃, hh, hg, hsim⟩ := extractBefore_local hx (fresh_of hs hb h₂) h₃
      (fun b hbb => binders_below hs hb b (by simpa [bindersOf] using hbb)) hho h₄
    exact ⟨e₃, by simp [runAll, Stmt.run, hh, hg], hsim⟩

theorem extractAfter_sound {p : Prog K} {pre post : List (Stmt K)} {ins outs : List (Nat × Nat)}
    {b₁ b₂ : List (Op K)} {o : Op K} {h g' : Gen K} {n : Nat} {secrets : List Nat} (hs : Ssa p)
    (hb : p.body = pre ++ [.generic ⟨ins, b₁ ++ o :: b₂, outs⟩] ++ post)
    (hho : canHoistAfter (⟨ins, b₁ ++ o :: b₂, outs⟩ : Gen K) o = true)
    (hcap : ∀ x ∈ o.captured, x ∈ o.args ∨ x ∉ (⟨ins, b₁ ++ o :: b₂, outs⟩ : Gen K).inner)
    (honce : ∀ q ∈ outs, ∀ q' ∈ outs, q.2 ∈ o.results → q.2 = q'.2 → q = q')
    (hx : extractAfter p.next ins b₁ o b₂ outs = some (g', h, n)) :
    Sound p (p.replace pre post ⟨[.generic g', .generic h], [], secrets, n⟩) :=
  replace_id (P := fun _ => True) hs hb (fun _ _ => trivial) fun α sem e₀ e e₁ h₀ h₁ h₂ h₃ h₄ => by
    rw [runAll_single] at h₄
    obtain ⟨e₂, e₃, hh, hg, hsim⟩ := extractAfter_local hx (fresh_of hs hb h₂) h₃
      (fun b hbb => binders_below hs hb b (by simpa [bindersOf] using hbb)) hho hcap honce h₄
    exact ⟨e₃, by simp [runAll, Stmt.run, hh, hg], hsim⟩

theorem plain_not_result {secret : Nat → Bool} {g : Gen K} (hn : g.inner.Nodup) {x : Nat}
    (h : isPlain secret g x = true) : x ∉ g.body.flatMap Op.results := by
  unfold isPlain at h
  split at h
  · rename_i p hp
    intro hc
    have := List.find?_some hp
    simp only [beq_iff_eq] at this
    exact (List.nodup_append.mp hn).2.2 x (this ▸ List.mem_map_of_mem (List.mem_of_find?_eq_some hp)) x hc rfl
  · simpa using h

theorem gen_inner_nodup {p : Prog K} {pre post : List (Stmt K)} {g : Gen K} (hs : Ssa p)
    (hb : p.body = pre ++ [.generic g] ++ post) : g.inner.Nodup :=
  (List.nodup_append.mp (fresh_of (α := Unit) (e := fun _ => none) hs hb fun _ _ => rfl).nodup).1

theorem canHoistPlain_uses {p : Prog K} {pre post : List (Stmt K)} {g : Gen K} {o : Op K} (hs : Ssa p)
    (hb : p.body = pre ++ [.generic g] ++ post) (h : canHoistPlain p.secret g o = true) :
    ∀ x ∈ o.uses, x ∉ g.body.flatMap Op.results := by
  simp only [canHoistPlain, Bool.and_eq_true, List.all_eq_true] at h
  intro x hx
  rcases List.mem_append.mp hx with hx | hx
  · exact plain_not_result (gen_inner_nodup hs hb) (h.1 x hx)
  · exact plain_not_result (gen_inner_nodup hs hb) (h.2 x hx)

theorem applies_sound {p : Prog K} {pre mid post : List (Stmt K)} {r : Repl K} (hv : Valid p)
    (hb : p.body = pre ++ mid ++ post) (h : Applies p pre post mid r) : Sound p (p.replace pre post r) := by
  have hs := hv.toSsa
  cases h with
  | collapse h => exact collapse_sound hs hb h
  | unusedArgs h =>
    exact replace_subst hs hb (fun q hq => ⟨(removeUnusedArgs_subst h q hq).1,
      Or.inr (removeUnusedArgs_subst h q hq).2⟩) fun α sem e e₁ hf hr => removeUnusedArgs_local h hf hr
  | unusedYields h => exact unusedYields_sound hs hb h
  | nonSecretArgs h =>
    exact replace_gen hs hb fun α sem e₀ e e₁ _ _ hf _ hr => removeNonSecretArgs_local h hf hr
  | capture h =>
    exact replace_gen hs hb fun α sem e₀ e e₁ _ _ hf hlt hr => captureAmbient_local h hf hr hlt
      fun b hbb => binders_below hs hb b (by simp [bindersOf, Stmt.binders, hbb])
  | merge => exact merge_sound hv hb
  | dedupe h =>
    have := dedupe_subst (gen_outs_nodup hs hb) h
    exact replace_subst hs hb (fun q hq => ⟨(this q hq).1, Or.inl (this q hq).2⟩)
      fun α sem e e₁ hf hr => dedupe_local h hf hr
  | concealThen h =>
    exact replace_gen hs hb fun α sem e₀ e e₁ h₀ h₁ hf _ hr =>
      ⟨e₁, concealThen_local h h₁ (pre_nodup hs hb) (fun b hbp => by
        cases hx : e₀ b with
        | none => rfl
        | some v =>
          have hp := (h₀ b).mp (by simp [hx])
          have hnd := hs.nodup
          rw [hb] at hnd
          exact absurd rfl ((List.nodup_append.mp hnd).2.2 b hp b (by
            simp only [bindersOf, List.flatMap_append, List.mem_append] at hbp ⊢; tauto))) hr,
        fun _ _ _ h => h⟩
  | absorbArg ha h =>
    exact replace_gen hs hb fun α sem e₀ e e₁ _ h₁ hf _ hr =>
      absorbArg_local ha h h₁ (pre_nodup hs hb) hf hr
  | hoistPlain hc hx => exact extractBefore_sound hs hb (canHoistPlain_uses hs hb hc) hx

end Heir.Generic
