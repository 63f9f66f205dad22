import Verif.Generic.Place

/-! # Rewritten functions are valid -/

namespace Heir.Generic

variable {K : Type}

theorem retype_lt {next : Nat} {l : List Nat} {secret : Nat → Bool} {x : Nat} (h : x < next) :
    retype next l secret x = secret x := by simp [retype, h]

theorem retype_ge {next : Nat} {l : List Nat} {secret : Nat → Bool} {x : Nat} (h : next ≤ x) :
    retype next l secret x = l.contains x := by simp [retype, Nat.not_lt.mpr h]

theorem rename_binders (ρ : Nat → Nat) (s : Stmt K) : (s.rename ρ).binders = s.binders := by
  cases s with
  | op o => rfl
  | conceal r x => rfl
  | generic g =>
    simp only [Stmt.rename, Stmt.binders, Gen.rename, Gen.inner, renameSnd_fst, List.flatMap_map]
    rfl

theorem bindersOf_rename (ρ : Nat → Nat) (l : List (Stmt K)) :
    bindersOf (l.map (Stmt.rename ρ)) = bindersOf l := by
  simp only [bindersOf, List.flatMap_map, rename_binders]

theorem op_rename_uses (ρ : Nat → Nat) (o : Op K) : (o.rename ρ).uses = o.uses.map ρ := by
  simp [Op.uses, Op.rename]

theorem renameSnd_snd (ρ : Nat → Nat) (l : List (Nat × Nat)) :
    (renameSnd ρ l).map Prod.snd = (l.map Prod.snd).map ρ := by
  simp [renameSnd]

theorem body_rename_uses (ρ : Nat → Nat) (l : List (Op K)) :
    (l.map (Op.rename ρ)).flatMap Op.uses = (l.flatMap Op.uses).map ρ := by
  simp only [List.flatMap_map, op_rename_uses, List.map_flatMap]

theorem body_rename_results (ρ : Nat → Nat) (l : List (Op K)) :
    (l.map (Op.rename ρ)).flatMap Op.results = l.flatMap Op.results := by
  simp only [List.flatMap_map]
  rfl

theorem rename_uses (ρ : Nat → Nat) (s : Stmt K) : (s.rename ρ).uses = s.uses.map ρ := by
  cases s with
  | op o => exact op_rename_uses ρ o
  | conceal r x => rfl
  | generic g =>
    simp only [Stmt.rename, Stmt.uses, Gen.rename, Gen.bodyUses, renameSnd_snd, body_rename_uses,
      List.map_append]

theorem usesOf_rename (ρ : Nat → Nat) (l : List (Stmt K)) :
    (l.map (Stmt.rename ρ)).flatMap Stmt.uses = (l.flatMap Stmt.uses).map ρ := by
  simp only [List.flatMap_map, rename_uses, List.map_flatMap]

theorem op_rename_self {ρ : Nat → Nat} {o : Op K} (h : ∀ x ∈ o.uses, ρ x = x) : o.rename ρ = o := by
  obtain ⟨k, a, c, r⟩ := o
  simp only [Op.uses, List.mem_append] at h
  simp only [Op.rename, Op.mk.injEq, true_and, and_true]
  exact ⟨by conv_rhs => rw [← List.map_id a]
            exact List.map_congr_left fun x hx => h x (Or.inl hx),
    by conv_rhs => rw [← List.map_id c]
       exact List.map_congr_left fun x hx => h x (Or.inr hx)⟩

theorem typed_congr {secret secret' : Nat → Bool} {s : Stmt K}
    (h : ∀ x ∈ s.binders ++ s.uses, secret' x = secret x) (ht : s.typed secret) : s.typed secret' := by
  cases s with
  | op o =>
    intro x hx
    rw [h x (by simp only [Stmt.binders, Stmt.uses, List.mem_append] at hx ⊢; tauto)]
    exact ht x hx
  | conceal r x =>
    exact ⟨by rw [h x (by simp [Stmt.uses])]; exact ht.1, by rw [h r (by simp [Stmt.binders])]; exact ht.2⟩
  | generic g =>
    refine ⟨fun x hx => ?_, fun x hx => ?_⟩
    · rw [h x (by simp only [Stmt.binders, Stmt.uses, List.mem_append] at hx ⊢; tauto)]
      exact ht.1 x hx
    · rw [h x (by simp only [Stmt.binders, Stmt.uses, List.mem_append] at hx ⊢; tauto)]
      exact ht.2 x hx

/-- A replacement gives a valid function. -/
theorem valid_replace {p : Prog K} {pre mid post : List (Stmt K)} {r : Repl K} (hv : Valid p)
    (hb : p.body = pre ++ mid ++ post) (hnd : (bindersOf r.stmts).Nodup)
    (hsub : ∀ b ∈ bindersOf r.stmts, b ∈ bindersOf mid ∨ (p.next ≤ b ∧ b < r.next))
    (hn : p.next ≤ r.next)
    (hty : ∀ s ∈ r.stmts, s.typed (retype p.next r.secrets p.secret))
    (hkn : ∀ x ∈ r.stmts.flatMap Stmt.uses, x < r.next)
    (hsb : ∀ q ∈ r.subst, p.secret q.1 = true ∧ q.2 < r.next) :
    Valid (p.replace pre post r) := by
  have hnd₀ := hv.nodup
  have hlt₀ := hv.below
  have hkn₀ := hv.known
  have hty₀ := hv.typed
  rw [hb] at hnd₀ hlt₀ hkn₀ hty₀
  simp only [bindersOf, List.flatMap_append, List.mem_append] at hlt₀ hkn₀
  have hlt : ∀ x, (x ∈ p.params ∨ x ∈ bindersOf pre ∨ x ∈ bindersOf mid ∨ x ∈ bindersOf post) → x < p.next :=
    fun x hx => hlt₀ x (by simp only [bindersOf] at hx; tauto)
  have hρ : ∀ x, x < r.next → sub r.subst x < r.next := fun x hx => by
    rcases sub_cases r.subst x with ⟨q, hq, -, hs⟩ | ⟨-, hs⟩
    · rw [hs]; exact (hsb q hq).2
    · rw [hs]; exact hx
  refine ⟨⟨?_, ?_⟩, ?_, ?_⟩
  · simp only [Prog.replace]
    rw [show bindersOf (pre ++ r.stmts ++ post.map (Stmt.rename (sub r.subst))) =
      bindersOf pre ++ bindersOf r.stmts ++ bindersOf post by
        rw [← bindersOf_rename (sub r.subst) post]; simp [bindersOf]]
    rw [show p.params ++ bindersOf (pre ++ mid ++ post) = (p.params ++ bindersOf pre) ++ (bindersOf mid ++ bindersOf post)
      by simp [bindersOf]] at hnd₀
    rw [show p.params ++ (bindersOf pre ++ bindersOf r.stmts ++ bindersOf post) =
      (p.params ++ bindersOf pre) ++ (bindersOf r.stmts ++ bindersOf post) by simp]
    obtain ⟨h₁, h₂, h₃⟩ := List.nodup_append.mp hnd₀
    obtain ⟨h₄, h₅, h₆⟩ := List.nodup_append.mp h₂
    refine List.nodup_append.mpr ⟨h₁, List.nodup_append.mpr ⟨hnd, h₅, fun a ha b hb hab => ?_⟩,
      fun a ha b hb hab => ?_⟩
    · rcases hsub a ha with h | h
      · exact h₆ a h b hb hab
      · have := hlt b (by tauto)
        omega
    · rcases List.mem_append.mp hb with hb | hb
      · rcases hsub b hb with h | h
        · exact h₃ a ha b (List.mem_append_left _ h) hab
        · have := hlt a (by rcases List.mem_append.mp ha with h | h <;> tauto)
          omega
      · exact h₃ a ha b (List.mem_append_right _ hb) hab
  · intro x hx
    simp only [Prog.replace, bindersOf, List.flatMap_append, List.mem_append] at hx
    have hpost := bindersOf_rename (sub r.subst) post
    simp only [bindersOf] at hpost
    rw [hpost] at hx
    show x < r.next
    rcases hx with hx | (hx | hx) | hx
    · have := hlt x (Or.inl hx); omega
    · have := hlt x (Or.inr (Or.inl hx)); omega
    · rcases hsub x hx with h | h
      · have := hlt x (by tauto); omega
      · exact h.2
    · have := hlt x (Or.inr (Or.inr (Or.inr hx))); omega
  · have hold : ∀ s ∈ pre ++ mid ++ post, s.typed (retype p.next r.secrets p.secret) := fun s hs =>
      typed_congr (fun x hx => retype_lt (by
        rcases List.mem_append.mp hx with h | h
        · have hm : x ∈ (pre ++ mid ++ post).flatMap Stmt.binders := List.mem_flatMap.mpr ⟨s, hs, h⟩
          simp only [List.flatMap_append, List.mem_append] at hm
          exact hlt₀ x (by tauto)
        · have hm : x ∈ (pre ++ mid ++ post).flatMap Stmt.uses := List.mem_flatMap.mpr ⟨s, hs, h⟩
          simp only [List.flatMap_append, List.mem_append] at hm
          exact hkn₀ x (by tauto))) (hty₀ s hs)
    intro s hs
    simp only [Prog.replace, List.mem_append, List.mem_map] at hs
    rcases hs with (hs | hs) | ⟨s', hs, rfl⟩
    · exact hold s (by simp [hs])
    · exact hty s hs
    · have ht := hty₀ s' (by simp [hs])
      cases s' with
      | op o =>
        have hρo : o.rename (sub r.subst) = o := op_rename_self fun x hx => sub_of_notMem fun hc => by
          obtain ⟨q, hq, rfl⟩ := List.mem_map.mp hc
          have := ht q.1 (List.mem_append_left _ hx)
          rw [(hsb q hq).1] at this
          exact absurd this (by simp)
        simp only [Stmt.rename, hρo]
        exact hold _ (by simp [hs])
      | conceal a b =>
        have hb' : sub r.subst b = b := sub_of_notMem fun hc => by
          obtain ⟨q, hq, rfl⟩ := List.mem_map.mp hc
          have := ht.1
          rw [(hsb q hq).1] at this
          exact absurd this (by simp)
        simp only [Stmt.rename, hb']
        exact hold _ (by simp [hs])
      | generic g =>
        have hbu : ∀ x ∈ g.bodyUses, sub r.subst x = x := fun x hx => sub_of_notMem fun hc => by
          obtain ⟨q, hq, rfl⟩ := List.mem_map.mp hc
          have := ht.1 q.1 (List.mem_append_right _ hx)
          rw [(hsb q hq).1] at this
          exact absurd this (by simp)
        have hold' := hold (.generic g) (by simp [hs])
        refine ⟨fun x hx => ?_, fun x hx => ?_⟩
        · simp only [Gen.rename, Gen.inner, Gen.bodyUses, renameSnd_fst, renameSnd_snd, body_rename_uses,
            body_rename_results] at hx
          rw [← List.map_append] at hx
          rcases List.mem_append.mp hx with hx | hx
          · exact hold'.1 x (List.mem_append_left _ hx)
          · obtain ⟨y, hy, rfl⟩ := List.mem_map.mp hx
            rw [hbu y hy]
            exact hold'.1 y (List.mem_append_right _ hy)
        · rw [Gen.rename, renameSnd_fst] at hx
          exact hold'.2 x hx
  · intro x hx
    simp only [Prog.replace, List.flatMap_append, usesOf_rename, List.mem_append, List.mem_map] at hx
    show x < r.next
    rcases hx with ((hx | hx) | ⟨y, hy, rfl⟩) | ⟨y, hy, rfl⟩
    · have := hkn₀ x (by tauto); omega
    · exact hkn x hx
    · exact hρ y (by have := hkn₀ y (by tauto); omega)
    · exact hρ y (by have := hkn₀ y (by tauto); omega)

/-! ## The patterns -/

theorem gen_typed {p : Prog K} {pre post : List (Stmt K)} {g : Gen K} (hv : Valid p)
    (hb : p.body = pre ++ [.generic g] ++ post) : (Stmt.generic g).typed p.secret :=
  hv.typed _ (by rw [hb]; simp)

theorem gen_known {p : Prog K} {pre post : List (Stmt K)} {g : Gen K} (hv : Valid p)
    (hb : p.body = pre ++ [.generic g] ++ post) : ∀ x ∈ (Stmt.generic g).uses, x < p.next := fun x hx =>
  hv.known x (by
    rw [hb]; simp only [List.flatMap_append, List.flatMap_cons, List.flatMap_nil, List.mem_append]; tauto)

theorem gen_below {p : Prog K} {pre post : List (Stmt K)} {g : Gen K} (hv : Valid p)
    (hb : p.body = pre ++ [.generic g] ++ post) : ∀ x ∈ (Stmt.generic g).binders, x < p.next := fun x hx =>
  binders_below hv.toSsa hb x (by simpa [bindersOf] using hx)

theorem gen_nodup {p : Prog K} {pre post : List (Stmt K)} {g : Gen K} (hv : Valid p)
    (hb : p.body = pre ++ [.generic g] ++ post) : (Stmt.generic g).binders.Nodup := by
  have := (List.nodup_append.mp (mid_post hv.toSsa hb)).1
  simpa [bindersOf] using this

/-- A generic replaced by one with some of its values, and a new one if `next` grows. -/
theorem valid_gen {p : Prog K} {pre post : List (Stmt K)} {g g' : Gen K} {ρ : List (Nat × Nat)} {n : Nat}
    (hv : Valid p) (hb : p.body = pre ++ [.generic g] ++ post) (hn : p.next ≤ n)
    (hnd : (Stmt.generic g').binders.Nodup)
    (hin : ∀ x ∈ g'.inner, x ∈ g.inner ∨ (p.next ≤ x ∧ x < n))
    (hout : ∀ x ∈ g'.outs.map Prod.fst, x ∈ g.outs.map Prod.fst)
    (hop : ∀ x ∈ g'.ins.map Prod.snd, x < n)
    (huse : ∀ x ∈ g'.bodyUses, (x < p.next ∧ p.secret x = false) ∨ (p.next ≤ x ∧ x < n))
    (hsb : ∀ q ∈ ρ, q.1 ∈ g.outs.map Prod.fst ∧ q.2 < n) :
    Valid (p.replace pre post ⟨[.generic g'], ρ, [], n⟩) := by
  have ht := gen_typed hv hb
  have hbl := gen_below hv hb
  refine valid_replace hv hb (by simpa [bindersOf] using hnd) ?_ hn ?_ ?_ ?_
  · intro b hb
    simp only [bindersOf, List.flatMap_cons, List.flatMap_nil, List.append_nil, Stmt.binders,
      List.mem_append] at hb ⊢
    rcases hb with hb | hb
    · rcases hin b hb with h | h
      · exact Or.inl (Or.inl h)
      · exact Or.inr h
    · exact Or.inl (Or.inr (hout b hb))
  · intro s hs
    obtain rfl := List.mem_singleton.mp hs
    refine ⟨fun x hx => ?_, fun x hx => ?_⟩
    · rcases List.mem_append.mp hx with hx | hx
      · rcases hin x hx with h | h
        · rw [retype_lt (hbl x (List.mem_append_left _ h))]
          exact ht.1 x (List.mem_append_left _ h)
        · rw [retype_ge h.1]; rfl
      · rcases huse x hx with h | h
        · rw [retype_lt h.1]; exact h.2
        · rw [retype_ge h.1]; rfl
    · have := hout x hx
      rw [retype_lt (hbl x (List.mem_append_right _ this))]
      exact ht.2 x this
  · intro x hx
    simp only [List.flatMap_cons, List.flatMap_nil, List.append_nil, Stmt.uses, List.mem_append] at hx
    rcases hx with hx | hx
    · exact hop x hx
    · rcases huse x hx with h | h
      · exact Nat.lt_of_lt_of_le h.1 hn
      · exact h.2
  · exact fun q hq => ⟨ht.2 _ (hsb q hq).1, (hsb q hq).2⟩

theorem use_ok {p : Prog K} {pre post : List (Stmt K)} {g : Gen K} (hv : Valid p)
    (hb : p.body = pre ++ [.generic g] ++ post) {x : Nat} (hx : x ∈ g.bodyUses) :
    x < p.next ∧ p.secret x = false :=
  ⟨gen_known hv hb x (List.mem_append_right _ hx), (gen_typed hv hb).1 x (List.mem_append_right _ hx)⟩

theorem operand_ok {p : Prog K} {pre post : List (Stmt K)} {g : Gen K} (hv : Valid p)
    (hb : p.body = pre ++ [.generic g] ++ post) {x : Nat} (hx : x ∈ g.ins.map Prod.snd) : x < p.next :=
  gen_known hv hb x (List.mem_append_left _ hx)

/-- A generic replaced by one with fewer arguments and results. -/
theorem valid_sub {p : Prog K} {pre post : List (Stmt K)} {g g' : Gen K} {ρ : List (Nat × Nat)}
    (hv : Valid p) (hb : p.body = pre ++ [.generic g] ++ post) (hins : g'.ins.Sublist g.ins)
    (hbody : g'.body = g.body) (houts : g'.outs.Sublist g.outs)
    (hsb : ∀ q ∈ ρ, q.1 ∈ g.outs.map Prod.fst ∧ q.2 < p.next) :
    Valid (p.replace pre post ⟨[.generic g'], ρ, [], p.next⟩) := by
  refine valid_gen hv hb (Nat.le_refl _) ?_ ?_ ?_ ?_ ?_ hsb
  · refine (gen_nodup hv hb).sublist ?_
    simp only [Stmt.binders, Gen.inner, hbody]
    exact ((hins.map _).append (List.Sublist.refl _)).append (houts.map _)
  · intro x hx
    simp only [Gen.inner, hbody, List.mem_append] at hx ⊢
    exact Or.inl (hx.imp (fun h => (hins.map _).subset h) id)
  · exact fun x hx => (houts.map _).subset hx
  · exact fun x hx => operand_ok hv hb ((hins.map _).subset hx)
  · intro x hx
    refine Or.inl (use_ok hv hb ?_)
    simp only [Gen.bodyUses, hbody, List.mem_append] at hx ⊢
    exact hx.imp id (fun h => (houts.map _).subset h)

theorem removeUnusedArgs_shape {g g' : Gen K} {ρ : List (Nat × Nat)}
    (h : removeUnusedArgs g = some (g', ρ)) :
    g'.ins.Sublist g.ins ∧ g'.body = g.body ∧ g'.outs.Sublist g.outs := by
  have hs := scanArgs_sublist g g.ins
  unfold removeUnusedArgs at h
  split at h
  · rename_i kept a hsc
    rw [hsc] at hs
    simp only [Option.some.injEq, Prod.mk.injEq] at h
    obtain ⟨rfl, -⟩ := h
    exact ⟨hs, rfl, List.filter_sublist⟩
  · rename_i kept hsc
    rw [hsc] at hs
    split at h
    · simp only [Option.some.injEq, Prod.mk.injEq] at h
      obtain ⟨rfl, -⟩ := h
      exact ⟨hs, rfl, List.Sublist.refl _⟩
    · simp at h

theorem collapse_valid {p : Prog K} {pre post l : List (Stmt K)} {alloc : K → Bool} {g : Gen K}
    (hv : Valid p) (hb : p.body = pre ++ [.generic g] ++ post)
    (h : collapse alloc p.secret g = some l) : Valid (p.replace pre post ⟨l, [], [], p.next⟩) := by
  unfold collapse at h
  split at h
  · simp at h
  rename_i hsec
  split at h
  · simp at h
  simp only [Option.some.injEq] at h
  subst h
  have ht := gen_typed hv hb
  have hbl := gen_below hv hb
  have hρ : ∀ x ∈ g.bodyUses, sub g.ins x < p.next ∧ p.secret (sub g.ins x) = false := by
    intro x hx
    rcases sub_cases g.ins x with ⟨q, hq, -, hs⟩ | ⟨-, hs⟩
    · rw [hs]
      refine ⟨operand_ok hv hb (List.mem_map_of_mem hq), ?_⟩
      simp only [List.any_eq_true, not_exists, not_and, Bool.not_eq_true] at hsec
      exact hsec q hq
    · rw [hs]; exact use_ok hv hb hx
  have hbo : bindersOf (g.body.map (fun o => Stmt.op (o.rename (sub g.ins))) ++
      g.outs.map fun q => Stmt.conceal q.1 (sub g.ins q.2)) =
      g.body.flatMap Op.results ++ g.outs.map Prod.fst := by
    simp only [bindersOf, List.flatMap_append, List.flatMap_map, Stmt.binders, Op.rename]
    rw [List.map_eq_flatMap (l := g.outs)]
  refine valid_replace hv hb ?_ ?_ (Nat.le_refl _) ?_ ?_ (by simp)
  · rw [hbo]
    refine (gen_nodup hv hb).sublist ?_
    simp only [Stmt.binders, Gen.inner]
    exact (List.sublist_append_right _ _).append (List.Sublist.refl _)
  · rw [hbo]
    intro b hb
    simp only [bindersOf, List.flatMap_cons, List.flatMap_nil, List.append_nil, Stmt.binders, Gen.inner,
      List.mem_append] at hb ⊢
    tauto
  · intro s hs
    rcases List.mem_append.mp hs with hs | hs
    · obtain ⟨o, ho, rfl⟩ := List.mem_map.mp hs
      intro x hx
      rcases List.mem_append.mp hx with hx | hx
      · rw [op_rename_uses] at hx
        obtain ⟨y, hy, rfl⟩ := List.mem_map.mp hx
        have := hρ y (List.mem_append_left _ (List.mem_flatMap.mpr ⟨o, ho, hy⟩))
        rw [retype_lt this.1]; exact this.2
      · have hm : x ∈ g.inner := List.mem_append_right _ (List.mem_flatMap.mpr ⟨o, ho, hx⟩)
        rw [retype_lt (hbl x (List.mem_append_left _ hm))]
        exact ht.1 x (List.mem_append_left _ hm)
    · obtain ⟨q, hq, rfl⟩ := List.mem_map.mp hs
      have := hρ q.2 (List.mem_append_right _ (List.mem_map_of_mem hq))
      have hm : q.1 ∈ g.outs.map Prod.fst := List.mem_map_of_mem hq
      exact ⟨by rw [retype_lt this.1]; exact this.2,
        by rw [retype_lt (hbl _ (List.mem_append_right _ hm))]; exact ht.2 _ hm⟩
  · intro x hx
    simp only [List.flatMap_append, List.flatMap_map, List.mem_append, List.mem_flatMap, Stmt.uses,
      op_rename_uses, List.mem_map, List.mem_singleton] at hx
    rcases hx with ⟨o, ho, y, hy, rfl⟩ | ⟨q, hq, rfl⟩
    · exact (hρ y (List.mem_append_left _ (List.mem_flatMap.mpr ⟨o, ho, hy⟩))).1
    · exact (hρ q.2 (List.mem_append_right _ (List.mem_map_of_mem hq))).1

theorem nonSecretArgs_valid {p : Prog K} {pre post : List (Stmt K)} {g g' : Gen K}
    (hv : Valid p) (hb : p.body = pre ++ [.generic g] ++ post)
    (h : removeNonSecretArgs p.secret g = some g') :
    Valid (p.replace pre post ⟨[.generic g'], [], [], p.next⟩) := by
  unfold removeNonSecretArgs at h
  split at h
  · simp at h
  simp only [Option.some.injEq] at h
  subst h
  have hsubl : (g.ins.filter fun p' => p.secret p'.2).Sublist g.ins := List.filter_sublist
  refine valid_gen hv hb (Nat.le_refl _) ?_ ?_ ?_ ?_ ?_ (by simp)
  · refine (gen_nodup hv hb).sublist ?_
    simp only [Stmt.binders, Gen.inner, body_rename_results, renameSnd_fst]
    exact ((hsubl.map _).append (List.Sublist.refl _)).append (List.Sublist.refl _)
  · intro x hx
    simp only [Gen.inner, body_rename_results, List.mem_append] at hx ⊢
    exact Or.inl (hx.imp (fun h => (hsubl.map _).subset h) id)
  · intro x hx; rwa [renameSnd_fst] at hx
  · exact fun x hx => operand_ok hv hb ((hsubl.map _).subset hx)
  · intro x hx
    simp only [Gen.bodyUses, body_rename_uses, renameSnd_snd] at hx
    rw [← List.map_append] at hx
    obtain ⟨y, hy, rfl⟩ := List.mem_map.mp hx
    rcases sub_cases (g.ins.filter fun p' => !p.secret p'.2) y with ⟨q, hq, -, hs⟩ | ⟨-, hs⟩
    · rw [hs]
      obtain ⟨hq, hqs⟩ := List.mem_filter.mp hq
      exact Or.inl ⟨operand_ok hv hb (List.mem_map_of_mem hq), by simpa using hqs⟩
    · rw [hs]; exact Or.inl (use_ok hv hb hy)

theorem capture_valid {p : Prog K} {pre post : List (Stmt K)} {g g' : Gen K}
    (hv : Valid p) (hb : p.body = pre ++ [.generic g] ++ post)
    (h : captureAmbient p.next g = some g') :
    Valid (p.replace pre post ⟨[.generic g'], [], [], p.next + 1⟩) := by
  simp only [captureAmbient, Option.map_eq_some_iff] at h
  obtain ⟨x, hx, rfl⟩ := h
  have hxu := List.mem_of_find?_eq_some hx
  refine valid_gen hv hb (Nat.le_succ _) ?_ ?_ ?_ ?_ ?_ (by simp)
  · simp only [Stmt.binders, Gen.inner, body_rename_results, renameSnd_fst, List.map_append,
      List.map_cons, List.map_nil]
    have hn := gen_nodup hv hb
    have hbl := gen_below hv hb
    simp only [Stmt.binders, Gen.inner] at hn hbl
    rw [List.nodup_iff_count_le_one] at hn ⊢
    intro a
    have h₁ := hn a
    simp only [List.count_append, List.count_singleton] at h₁ ⊢
    split
    · rename_i hc
      have hz : a ∉ g.ins.map Prod.fst ++ g.body.flatMap Op.results ++ g.outs.map Prod.fst := fun hm => by
        have := hbl a hm
        simp only [beq_iff_eq] at hc
        omega
      have := List.count_eq_zero.mpr hz
      simp only [List.count_append] at this
      omega
    · omega
  · intro y hy
    simp only [Gen.inner, body_rename_results, List.map_append, List.map_cons, List.map_nil,
      List.mem_append, List.mem_singleton] at hy ⊢
    rcases hy with (hy | hy) | hy
    · exact Or.inl (Or.inl hy)
    · exact Or.inr (by omega)
    · exact Or.inl (Or.inr hy)
  · intro y hy; rwa [renameSnd_fst] at hy
  · intro y hy
    simp only [List.map_append, List.map_cons, List.map_nil, List.mem_append, List.mem_singleton] at hy
    rcases hy with hy | hy
    · have := operand_ok hv hb hy; omega
    · have := (use_ok hv hb hxu).1; omega
  · intro y hy
    simp only [Gen.bodyUses, body_rename_uses, renameSnd_snd] at hy
    rw [← List.map_append] at hy
    obtain ⟨z, hz, rfl⟩ := List.mem_map.mp hy
    rcases sub_cases [(x, p.next)] z with ⟨q, hq, -, hs⟩ | ⟨-, hs⟩
    · rw [hs]
      obtain rfl := List.mem_singleton.mp hq
      exact Or.inr ⟨Nat.le_refl _, Nat.lt_succ_self _⟩
    · rw [hs]; exact Or.inl (use_ok hv hb hz)

theorem concealed_mem : ∀ {pre : List (Stmt K)} {x c : Nat}, concealed pre x = some c →
    .conceal x c ∈ pre
  | [], _, _, h => by simp [concealed] at h
  | .conceal r d :: l, x, c, h => by
    simp only [concealed] at h
    split at h
    · rename_i hr
      simp only [Option.some.injEq] at h
      simp [hr, h]
    · exact List.mem_cons_of_mem _ (concealed_mem h)
  | .op _ :: l, x, c, h => List.mem_cons_of_mem _ (concealed_mem (pre := l) h)
  | .generic _ :: l, x, c, h => List.mem_cons_of_mem _ (concealed_mem (pre := l) h)

theorem unconceal_fst {insert : K → Bool} {pre : List (Stmt K)} {g : Gen K} (a : Nat × Nat) :
    (unconceal insert pre g a).1 = a.1 := by
  unfold unconceal
  split
  · split <;> rfl
  · rfl

theorem concealThen_valid {p : Prog K} {pre post : List (Stmt K)} {g g' : Gen K} {insert : K → Bool}
    (hv : Valid p) (hb : p.body = pre ++ [.generic g] ++ post)
    (h : concealThen insert pre g = some g') :
    Valid (p.replace pre post ⟨[.generic g'], [], [], p.next⟩) := by
  unfold concealThen at h
  split at h
  · simp at h
  simp only [Option.some.injEq] at h
  subst h
  have hfst : (g.ins.map (unconceal insert pre g)).map Prod.fst = g.ins.map Prod.fst := by
    rw [List.map_map]; exact List.map_congr_left fun a _ => unconceal_fst a
  refine valid_gen hv hb (Nat.le_refl _) ?_ ?_ ?_ ?_ ?_ (by simp)
  · simp only [Stmt.binders, Gen.inner, hfst]
    exact gen_nodup hv hb
  · intro x hx
    simp only [Gen.inner, hfst] at hx
    exact Or.inl hx
  · exact fun x hx => hx
  · intro x hx
    simp only [List.map_map, List.mem_map, Function.comp_apply] at hx
    obtain ⟨a, ha, rfl⟩ := hx
    have hop := operand_ok hv hb (List.mem_map_of_mem ha)
    unfold unconceal
    split
    · rename_i c hc
      split
      · exact hop
      · refine hv.known c ?_
        rw [hb]
        have := concealed_mem hc
        simp only [List.flatMap_append, List.mem_append, List.mem_flatMap]
        exact Or.inl (Or.inl (Or.inl ⟨_, this, by simp [Stmt.uses]⟩))
    · exact hop
  · exact fun x hx => Or.inl (use_ok hv hb hx)

theorem absorbArg_valid {p : Prog K} {pre post : List (Stmt K)} {g g' : Gen K} {isConst : K → Bool}
    {a : Nat × Nat} (hv : Valid p) (hb : p.body = pre ++ [.generic g] ++ post) (ha : a ∈ g.ins)
    (h : absorbArg isConst pre g a = some g') :
    Valid (p.replace pre post ⟨[.generic g'], [], [], p.next⟩) := by
  unfold absorbArg at h
  split at h
  swap
  · simp at h
  simp only [Option.map_eq_some_iff] at h
  obtain ⟨k, -, rfl⟩ := h
  have hsubl : (g.ins.filter fun p' => p'.1 != a.1).Sublist g.ins := List.filter_sublist
  have hn := gen_nodup hv hb
  simp only [Stmt.binders, Gen.inner] at hn
  refine valid_gen hv hb (Nat.le_refl _) ?_ ?_ ?_ ?_ ?_ (by simp)
  · simp only [Stmt.binders, Gen.inner, List.flatMap_cons]
    obtain ⟨h₁, h₂, h₃⟩ := List.nodup_append.mp hn
    obtain ⟨h₄, h₅, h₆⟩ := List.nodup_append.mp h₁
    have haf : a.1 ∈ g.ins.map Prod.fst := List.mem_map_of_mem ha
    refine List.nodup_append.mpr ⟨List.nodup_append.mpr ⟨h₄.sublist (hsubl.map _),
      List.nodup_append.mpr ⟨by simp, h₅, ?_⟩, ?_⟩, h₂, ?_⟩
    · intro x hx y hy hxy
      exact h₆ a.1 haf y hy (by rw [← hxy]; exact (List.mem_singleton.mp hx).symm)
    · intro x hx y hy hxy
      rcases List.mem_append.mp hy with hy | hy
      · obtain ⟨q, hq, rfl⟩ := List.mem_map.mp hx
        have := (List.mem_filter.mp hq).2
        rw [List.mem_singleton] at hy
        rw [hy] at hxy
        simp [hxy] at this
      · exact h₆ x ((hsubl.map _).subset hx) y hy hxy
    · intro x hx y hy hxy
      refine h₃ x ?_ y hy hxy
      simp only [List.mem_append, List.mem_singleton] at hx ⊢
      rcases hx with hx | hx | hx
      · exact Or.inl ((hsubl.map _).subset hx)
      · exact Or.inl (hx ▸ haf)
      · exact Or.inr hx
  · intro x hx
    simp only [Gen.inner, List.flatMap_cons, List.mem_append, List.mem_singleton] at hx ⊢
    rcases hx with hx | hx | hx
    · exact Or.inl (Or.inl ((hsubl.map _).subset hx))
    · exact Or.inl (Or.inl (hx ▸ List.mem_map_of_mem ha))
    · exact Or.inl (Or.inr hx)
  · exact fun x hx => hx
  · exact fun x hx => operand_ok hv hb ((hsubl.map _).subset hx)
  · intro x hx
    refine Or.inl (use_ok hv hb ?_)
    simpa only [Gen.bodyUses, List.flatMap_cons, Op.uses, List.append_nil, List.nil_append] using hx

end Heir.Generic
