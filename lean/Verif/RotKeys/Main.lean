import Verif.RotKeys.Forward

/-!
# Keys of a program
-/

namespace Heir.RotKeys

open Heir.Dag (Kind LoopNode Sem Heap Env Lit Ordered)

variable {cs : List (Nat × Cst)} {cls : Nat → Cls} {P : Int → Bool} {D : Heap ROp} {G : Sig}
  {W : World}

/-! ## Constant rotations -/

theorem constShifts_eq {ρ : Nat → RVal} {sc : List Nat} (hCV : CVal cs ρ sc) :
    ∀ {sh : List (Int ⊕ Nat)} {as as' : List Int}, (∀ v ∈ dynShifts sh, v ∈ sc) →
    constShifts cs sh = some as → shiftVals ρ sh = some as' → as = as'
  | [], as, as', _, h1, h2 => by
    simp only [constShifts, Option.some.injEq] at h1
    simp only [shiftVals, Option.some.injEq] at h2
    rw [← h1, ← h2]
  | .inl i :: sh, as, as', hv, h1, h2 => by
    simp only [constShifts] at h1
    obtain ⟨bs, hbs, h1⟩ := Option.bind_eq_some_iff.1 h1
    simp only [Option.some.injEq] at h1
    simp only [shiftVals] at h2
    obtain ⟨cs', hcs, rfl⟩ := Option.map_eq_some_iff.1 h2
    have hd : dynShifts (.inl i :: sh) = dynShifts sh := rfl
    rw [hd] at hv
    rw [← h1, constShifts_eq hCV hv hbs hcs]
  | .inr v :: sh, as, as', hv, h1, h2 => by
    have hd : dynShifts (.inr v :: sh) = v :: dynShifts sh := rfl
    rw [hd] at hv
    simp only [constShifts] at h1
    obtain ⟨a, ha, h1⟩ := Option.bind_eq_some_iff.1 h1
    obtain ⟨bs, hbs, h1⟩ := Option.bind_eq_some_iff.1 h1
    simp only [Option.some.injEq] at h1
    simp only [shiftVals] at h2
    split at h2
    case h_2 => simp at h2
    next b hb =>
    obtain ⟨cs', hcs, rfl⟩ := Option.map_eq_some_iff.1 h2
    have : a = b := by
      unfold intConst at ha
      split at ha
      · next i hi =>
        have := hCV v (hv v (by simp)) _ hi
        rw [hb] at this
        simp only [cstVal, RVal.int.injEq] at this
        simp only [Option.some.injEq] at ha
        rw [← ha, this]
      · next i hi =>
        have := hCV v (hv v (by simp)) _ hi
        rw [hb] at this
        simp [cstVal] at this
      · simp at ha
    rw [← h1, this, constShifts_eq hCV (fun v h => hv v (by simp [h])) hbs hcs]

/-- A property of the rotations of every round. -/
theorem rounds_forall {Q : Int → Prop}
    {f : Int → List RVal → Nat → Option (List RVal × List Int × Nat)}
    (hf : ∀ i vs p ys tr p', f i vs p = some (ys, tr, p') → ∀ x ∈ tr, Q x) :
    ∀ (is : List Int) (vs : List RVal) (p : Nat) (ys : List RVal) (tr : List Int) (p' : Nat),
    rounds f is vs p = some (ys, tr, p') → ∀ x ∈ tr, Q x
  | [], vs, p, ys, tr, p', h => by
    simp only [rounds, Option.some.injEq, Prod.mk.injEq] at h
    rw [← h.2.1]; simp
  | i :: is, vs, p, ys, tr, p', h => by
    simp only [rounds] at h
    obtain ⟨⟨v1, t1, p1⟩, h1, h⟩ := Option.bind_eq_some_iff.1 h
    obtain ⟨⟨v2, t2, p2⟩, h2, h⟩ := Option.map_eq_some_iff.1 h
    simp only [Prod.mk.injEq] at h
    rw [← h.2.1]
    intro x hx
    rcases List.mem_append.1 hx with hx | hx
    · exact hf _ _ _ _ _ _ h1 x hx
    · exact rounds_forall hf _ _ _ _ _ _ h2 x hx

/-- The rotations are among constants `Q`. -/
theorem exec_const {Q : Int → Prop} (b : Block) : ∀ {lo hi : Nat} {sc : List Nat} {ρ : Nat → RVal}
    {p : Nat} {ys : List RVal} {tr : List Int} {p' : Nat}, wf lo sc b = some hi →
    (∀ v ∈ sc, v < lo) → Cons cs b → CVal cs ρ sc →
    (∀ sh ∈ b.rots, ∃ as, constShifts cs sh = some as ∧ ∀ x ∈ as, Q x) →
    exec W b ρ p = some (ys, tr, p') → ∀ x ∈ tr, Q x := by
  induction b with
  | done y vs =>
    intro lo hi sc ρ p ys tr p' h hsc hC hCV hQ hex
    simp only [exec, Option.some.injEq, Prod.mk.injEq] at hex
    rw [← hex.2.1]; simp
  | op r k args rest ih =>
    intro lo hi sc ρ p ys tr p' h hsc hC hCV hQ hex
    obtain ⟨h1, h2, h3⟩ := wf_op h
    simp only [exec] at hex
    obtain ⟨v, hv, hex⟩ := Option.bind_eq_some_iff.1 hex
    obtain ⟨o, ho, hoc⟩ := defs_op r k args rest
    have hCr := hC (r, o) (by rw [ho]; simp)
    simp only at hCr
    refine ih h3 (fun v hv => ?_) (fun q hq => hC q (by rw [ho]; simp [hq]))
      (hCV.cons (fun hm => by have := hsc r hm; omega) fun c hc => ?_) hQ hex
    · rcases List.mem_cons.1 hv with rfl | hv
      · omega
      · have := hsc v hv; omega
    · rw [hCr] at hc
      rw [(hoc c).1 hc] at hv
      simp only [evalK, Option.some.injEq] at hv
      exact hv.symm
  | rot r t sh rest ih =>
    intro lo hi sc ρ p ys tr p' h hsc hC hCV hQ hex
    obtain ⟨h1, ht, h2, h3⟩ := wf_rot h
    simp only [exec] at hex
    obtain ⟨as, has, hex⟩ := Option.bind_eq_some_iff.1 hex
    obtain ⟨⟨y1, t1, p1⟩, hexr, he⟩ := Option.map_eq_some_iff.1 hex
    simp only [Prod.mk.injEq] at he
    obtain ⟨as', has', hQ'⟩ := hQ sh (by simp [Block.rots])
    have e := constShifts_eq hCV h2 has' has
    subst e
    rw [← he.2.1]
    intro x hx
    rcases List.mem_append.1 hx with hx | hx
    · exact hQ' x hx
    · refine ih h3 (fun v hv => ?_) (fun q hq => hC q (by simp [Block.defs, hq]))
        (hCV.cons (fun hm => by have := hsc r hm; omega) fun c hc => ?_)
        (fun sh hs => hQ sh (by simp [Block.rots, hs])) hexr x hx
      · rcases List.mem_cons.1 hv with rfl | hv
        · omega
        · have := hsc v hv; omega
      · have := hC (r, none) (by simp [Block.defs])
        simp only at this
        rw [this] at hc
        simp at hc
  | opq rs args rest ih =>
    intro lo hi sc ρ p ys tr p' h hsc hC hCV hQ hex
    obtain ⟨h1, m, h2, h3⟩ := wf_opq h
    simp only [exec] at hex
    refine ih h3 (fun v hv => ?_) (fun q hq => hC q (by simp [Block.defs, hq]))
      (hCV.append _ fun r hr => hC (r, none) (by simp [Block.defs, hr])) hQ hex
    have := (inc_asc h2).le
    rcases List.mem_append.1 hv with hv | hv
    · exact ((inc_asc h2).mem hv).2
    · have := hsc v hv; omega
  | region rs args ivs body rest ihb ih =>
    intro lo hi sc ρ p ys tr p' h hsc hC hCV hQ hex
    obtain ⟨h0, m1, m2, m3, h1, h2, h3, h4⟩ := wf_region h
    simp only [exec] at hex
    obtain ⟨⟨v1, t1, p1⟩, hr1, hex⟩ := Option.bind_eq_some_iff.1 hex
    obtain ⟨⟨v2, t2, p2⟩, hr2, hex⟩ := Option.map_eq_some_iff.1 hex
    simp only [Prod.mk.injEq] at hex
    have l1 := (inc_asc h1).le
    have l2 := wf_le h2
    have l3 := (inc_asc h3).le
    rw [← hex.2.1]
    intro x hx
    rcases List.mem_append.1 hx with hx | hx
    · refine rounds_forall (fun i vs p ys tr p' he => ihb h2 (fun v hv => ?_)
        (fun q hq => hC q (by simp [Block.defs, hq]))
        (hCV.append _ fun r hr => hC (r, none) (by simp [Block.defs, hr]))
        (fun sh hs => hQ sh (by simp [Block.rots, hs])) he) _ _ _ _ _ _ hr1 x hx
      rcases List.mem_append.1 hv with hv | hv
      · exact ((inc_asc h1).mem hv).2
      · have := hsc v hv; omega
    · refine ih h4 (fun v hv => ?_) (fun q hq => hC q (by simp [Block.defs, hq]))
        (hCV.append _ fun r hr => hC (r, none) (by simp [Block.defs, hr]))
        (fun sh hs => hQ sh (by simp [Block.rots, hs])) hr2 x hx
      rcases List.mem_append.1 hv with hv | hv
      · exact ((inc_asc h3).mem hv).2
      · have := hsc v hv; omega
  | loop n lb ub st iv inits args rs body rest ihb ih =>
    intro lo hi sc ρ p ys tr p' h hsc hC hCV hQ hex
    obtain ⟨hh, m1, m2, m3, h1, h2, h3, h4, h5⟩ := wf_loop h
    have l0 := hh.1
    have l1 := (inc_asc h1).le
    have l2 := wf_le h2
    have l3 := (inc_asc h4).le
    simp only [exec] at hex
    split at hex
    case h_2 => simp at hex
    split at hex
    · simp at hex
    obtain ⟨⟨v1, t1, p1⟩, hr1, hex⟩ := Option.bind_eq_some_iff.1 hex
    obtain ⟨⟨v2, t2, p2⟩, hr2, hex⟩ := Option.map_eq_some_iff.1 hex
    simp only [Prod.mk.injEq] at hex
    rw [← hex.2.1]
    intro x hx
    rcases List.mem_append.1 hx with hx | hx
    · refine rounds_forall (fun i vs p ys tr p' he => ihb h2 (fun v hv => ?_)
        (fun q hq => hC q (by simp [Block.defs, hq]))
        (CVal.append (hCV.cons (fun hm => by have := hsc iv hm; omega) fun c hc => ?_) _
          fun r hr => hC (r, none) (by simp [Block.defs, hr]))
        (fun sh hs => hQ sh (by simp [Block.rots, hs])) he) _ _ _ _ _ _ hr1 x hx
      · rcases List.mem_append.1 hv with hv | hv
        · exact ((inc_asc h1).mem hv).2
        · rcases List.mem_cons.1 hv with rfl | hv
          · omega
          · have := hsc v hv; omega
      · have := hC (iv, none) (by simp [Block.defs])
        simp only at this
        rw [this] at hc
        simp at hc
    · refine ih h5 (fun v hv => ?_) (fun q hq => hC q (by simp [Block.defs, hq]))
        (hCV.append _ fun r hr => hC (r, none) (by simp [Block.defs, hr]))
        (fun sh hs => hQ sh (by simp [Block.rots, hs])) hr2 x hx
      rcases List.mem_append.1 hv with hv | hv
      · exact ((inc_asc h4).mem hv).2
      · have := hsc v hv; omega
  | ite n c rs hasElse t e rest iht ihe ih =>
    intro lo hi sc ρ p ys tr p' h hsc hC hCV hQ hex
    obtain ⟨hh, m1, m2, m3, h1, h2, h3, h4, h5⟩ := wf_ite h
    have l1 := wf_le h1
    have l2 := wf_le h2
    have l3 := (inc_asc h4).le
    simp only [exec] at hex
    split at hex
    case h_2 => simp at hex
    obtain ⟨⟨v1, t1, p1⟩, hr1, hex⟩ := Option.bind_eq_some_iff.1 hex
    obtain ⟨⟨v2, t2, p2⟩, hr2, hex⟩ := Option.map_eq_some_iff.1 hex
    simp only [Prod.mk.injEq] at hex
    rw [← hex.2.1]
    intro x hx
    rcases List.mem_append.1 hx with hx | hx
    · split at hr1
      · exact iht h1 hsc (fun q hq => hC q (by simp [Block.defs, hq])) hCV
          (fun sh hs => hQ sh (by simp [Block.rots, hs])) hr1 x hx
      · exact ihe h2 (fun v hv => by have := hsc v hv; omega)
          (fun q hq => hC q (by simp [Block.defs, hq])) hCV
          (fun sh hs => hQ sh (by simp [Block.rots, hs])) hr1 x hx
    · refine ih h5 (fun v hv => ?_) (fun q hq => hC q (by simp [Block.defs, hq]))
        (hCV.append _ fun r hr => hC (r, none) (by simp [Block.defs, hr]))
        (fun sh hs => hQ sh (by simp [Block.rots, hs])) hr2 x hx
      rcases List.mem_append.1 hv with hv | hv
      · exact ((inc_asc h4).mem hv).2
      · have := hsc v hv; omega

theorem scan_const : ∀ {rs : List (List (Int ⊕ Nat))},
    (rs.all fun sh => (constShifts cs sh).isSome) = true → (scan cs rs).2 = false ∧
    ∀ sh ∈ rs, ∃ as, constShifts cs sh = some as ∧ ∀ x ∈ as, x ∈ (scan cs rs).1
  | [], _ => ⟨rfl, by simp⟩
  | sh :: rs, h => by
    simp only [List.all_cons, Bool.and_eq_true] at h
    obtain ⟨as, has⟩ := Option.isSome_iff_exists.1 h.1
    obtain ⟨h1, h2⟩ := scan_const h.2
    simp only [scan, has]
    refine ⟨h1, fun s hs => ?_⟩
    rcases List.mem_cons.1 hs with rfl | hs
    · exact ⟨as, has, fun x hx => List.mem_append_left _ hx⟩
    · obtain ⟨bs, hbs, h3⟩ := h2 s hs
      exact ⟨bs, hbs, fun x hx => List.mem_append_right _ (h3 x hx)⟩

theorem scan_dyn : ∀ {rs : List (List (Int ⊕ Nat))}, (scan cs rs).2 = false →
    (rs.all fun sh => (constShifts cs sh).isSome) = true
  | [], _ => rfl
  | sh :: rs, h => by
    simp only [scan] at h
    split at h
    · simp at h
    · next as has =>
      simp only [List.all_cons, has, Option.isSome_some, Bool.true_and]
      exact scan_dyn h

/-! ## An outermost loop -/

theorem agree_outer {ns : List (Nat × Kind ROp)} {sc : List Nat} {ρ : Nat → RVal}
    (hD : Ordered (heapOf cs ns)) (hn : ∀ v ∈ sc, v ∉ ns.map Prod.fst)
    (hCV : CVal cs ρ sc) (ho : outerOk G cs cls sc = true) :
    Agree G cls P (heapOf cs ns) G.env ρ sc := by
  intro v hv l hl
  have hok := List.all_eq_true.1 ho v hv
  rcases heapOf_other (cs := cs) (hn v hv) with ⟨h1, h2⟩ | ⟨c, h1, h2⟩
  · rw [den1_var h1] at hl
    have hdef := rep_default hl (ρ v)
    cases hc : cls v with
    | unk => trivial
    | num => rcases h2 with h2 | h2 <;> simp [hc, h2] at hok
    | bool => rcases h2 with h2 | h2 <;> simp [hc, h2] at hok
    | table => rcases h2 with h2 | h2 <;> simp [hc, h2] at hok
    | ct1 =>
      have : Cls.ct1 = defaultCls G.slots (G.ty v) := by
        rcases h2 with h2 | h2 <;> simpa [hc, h2] using hok
      rw [this]; exact hdef
    | ct2 =>
      have : Cls.ct2 = defaultCls G.slots (G.ty v) := by
        rcases h2 with h2 | h2 <;> simpa [hc, h2] using hok
      rw [this]; exact hdef
  · rw [den1_pure hD h1 (by simp)] at hl
    simp only [Dag.allSome, Option.bind_some] at hl
    have hp := (rs_pure hl).2
    have hρ := hCV v hv c h2
    simp only [rotPure] at hp
    cases hc : cls v with
    | unk => trivial
    | num =>
      cases c with
      | int i =>
        simp only [konstLit] at hp
        obtain ⟨x, hx, rfl⟩ := Option.map_eq_some_iff.1 hp
        exact ⟨x, rfl, by rw [hρ, (int32_eq hx).1]; rfl⟩
      | bool _ => simp [hc, h2] at hok
      | table _ => simp [hc, h2] at hok
      | float => simp [hc, h2] at hok
    | bool =>
      cases c with
      | bool b =>
        simp only [konstLit, Option.some.injEq] at hp
        exact ⟨_, b, hp.symm, hρ, by cases b <;> simp⟩
      | int _ => simp [hc, h2] at hok
      | table _ => simp [hc, h2] at hok
      | float => simp [hc, h2] at hok
    | table =>
      cases c with
      | table vs =>
        simp only [konstLit] at hp
        obtain ⟨x, hx, rfl⟩ := Option.map_eq_some_iff.1 hp
        exact ⟨x, rfl, by rw [hρ, castInts_eq hx]; rfl⟩
      | int _ => simp [hc, h2] at hok
      | bool _ => simp [hc, h2] at hok
      | float => simp [hc, h2] at hok
    | ct1 =>
      cases c with
      | float => simp [konstLit] at hp
      | int _ => simp [hc, h2] at hok
      | bool _ => simp [hc, h2] at hok
      | table _ => simp [hc, h2] at hok
    | ct2 =>
      cases c with
      | float => simp [konstLit] at hp
      | int _ => simp [hc, h2] at hok
      | bool _ => simp [hc, h2] at hok
      | table _ => simp [hc, h2] at hok

/-- The log of an outermost loop covers its rotations. -/
theorem loop_covers {n lb ub st iv : Nat} {inits args rs : List Nat} {body rest : Block}
    {lo hi : Nat} {sc : List Nat} {ρ : Nat → RVal} {log : List Int}
    (hwf : wf lo sc (.loop n lb ub st iv inits args rs body rest) = some hi)
    (hsc : ∀ v ∈ sc, v < lo)
    (hC : Cons cs (.loop n lb ub st iv inits args rs body rest)) (hCV : CVal cs ρ sc)
    (ho : outerOk G cs cls sc = true) (hL : (live cs body).isSome = true)
    (hT : typed G cs cls (.loop n lb ub st iv inits args [] body (.done (n + 1) [])) = true)
    (hlog : loopShifts G cs n lb ub st iv inits args body = some log)
    {l u s : Int} (hl : ρ lb = .int l) (hu : ρ ub = .int u) (hs : ρ st = .int s) (hpos : ¬ s ≤ 0)
    {p p1 : Nat} {v1 : List RVal} {t1 : List Int}
    (hr1 : rounds (fun i vals p => exec W body (updL (upd ρ iv (.int i)) args vals) p)
      (steps l u s) (inits.map ρ) p = some (v1, t1, p1)) : Covers G.slots log t1 := by
  intro x₀ hx
  simp only [loopShifts] at hlog
  obtain ⟨ns, hb, hlog⟩ := Option.bind_eq_some_iff.1 hlog
  have hcl := heapOf_closed hwf hsc hb
  obtain ⟨hh, m1, m2, m3, h1, h2, h3, h4, h5⟩ := wf_loop hwf
  obtain ⟨l', u', s', ms, ns', hl', hu', hs', hb1, hb2, hns⟩ := build_loop hb
  replace hns := hns.symm
  simp only [build, Option.some.injEq] at hb2
  subst hb2
  have l0 := hh.1
  have l1 := (inc_asc h1).le
  have l2 := wf_le h2
  have hasc : Asc lo (ns.map Prod.fst) (n + 2) := by
    rw [← hns]
    simp only [List.map_append, List.map_cons, List.map_map, List.map_nil, resultsFrom]
    have e1 : List.map (Prod.fst ∘ fun a => ((a, .var) : Nat × Kind ROp)) args = args :=
      List.map_id' args
    rw [e1]
    have A : Asc lo (iv :: args) m1 := ⟨hh.1, inc_asc h1⟩
    have B : Asc m2 [n] (n + 1) := ⟨h3, Nat.le_refl _⟩
    have C : Asc (n + 1) [n + 1] (n + 2) := ⟨Nat.le_refl _, Nat.le_refl _⟩
    exact ((A.append (build_asc body h2 hb1)).append B).append C
  have hN := fun p hp => heapOf_mem (cs := cs) hasc.nodup (p := p) hp
  have hout : ∀ v ∈ sc, v ∉ ns.map Prod.fst := fun v hv hm => by
    have := (hasc.mem hm).1
    have := hsc v hv
    omega
  have hms : ∀ q ∈ ms, heapOf cs ns q.1 = q.2 := fun q hq => hN q (by rw [← hns]; simp [hq])
  have hvar : ∀ x, x = iv ∨ x ∈ args → heapOf cs ns x = .var := by
    rintro x (rfl | hx)
    · exact hN (x, .var) (by rw [← hns]; simp)
    · exact hN (x, .var) (by rw [← hns]; simp [hx])
  have hnD := hN (n, .loop ⟨iv, inits, args, body.yieldNode, wrap32 l', wrap32 u', wrap32 s'⟩)
    (by rw [← hns]; simp)
  have hscb : ∀ v ∈ args ++ iv :: sc, v < m1 := by
    intro v hv
    rcases List.mem_append.1 hv with hv | hv
    · exact ((inc_asc h1).mem hv).2
    · rcases List.mem_cons.1 hv with rfl | hv
      · omega
      · have := hsc v hv; omega
  have hord : Ordered (heapOf cs ns) := by
    apply heapOf_ordered
    intro q hq c hc
    rw [← hns] at hq
    simp only [List.mem_append, List.mem_cons, List.cons_append, List.append_assoc, resultsFrom,
      List.not_mem_nil, or_false, List.nil_append] at hq
    rcases hq with rfl | hq | hq | rfl | rfl
    · simp [Dag.clearChildren] at hc
    · obtain ⟨a, -, rfl⟩ := List.mem_map.1 hq
      simp [Dag.clearChildren] at hc
    · exact build_ordered body h2 hb1 hscb q hq c hc
    · have hy := yieldNode_range body h2
      simp only [Dag.clearChildren, List.mem_append, List.mem_cons, List.cons_append,
        List.not_mem_nil, or_false] at hc
      simp only
      rcases hc with rfl | (hc | hc) | rfl
      · omega
      · have := hsc c (hh.2.2.2.2.1 c hc); omega
      · have := ((inc_asc h1).mem hc).2; omega
      · omega
    · simp [Dag.clearChildren] at hc
  have hV : Vis (heapOf cs ns) lo sc := fun v hv => ⟨hsc v hv, by
    rcases heapOf_other (cs := cs) (hout v hv) with ⟨h, -⟩ | ⟨c, h, -⟩ <;> rw [h] <;> trivial⟩
  simp only [typed, Bool.and_eq_true, Bool.or_eq_true, beq_iff_eq] at hT
  obtain ⟨⟨⟨⟨⟨⟨⟨⟨c1, c2⟩, c3⟩, hiv⟩, hTi⟩, hTy⟩, -⟩, hTb⟩, -⟩ := hT
  obtain ⟨x1, e1, i1⟩ := const32_iff c1
  obtain ⟨x2, e2, i2⟩ := const32_iff c2
  obtain ⟨x3, e3, i3⟩ := const32_iff c3
  rw [intConst_of e1, Option.some.injEq] at hl'
  rw [intConst_of e2, Option.some.injEq] at hu'
  rw [intConst_of e3, Option.some.injEq] at hs'
  have r1 := hCV lb hh.2.1 _ e1
  have r2 := hCV ub hh.2.2.1 _ e2
  have r3 := hCV st hh.2.2.2.1 _ e3
  rw [hl] at r1
  rw [hu] at r2
  rw [hs] at r3
  simp only [cstVal, RVal.int.injEq] at r1 r2 r3
  subst hl' hu' hs' r1 r2 r3
  simp only [wrap32_of i1, wrap32_of i2, wrap32_of i3] at hnD
  obtain ⟨M, hM⟩ := Option.isSome_iff_exists.1 hL
  have hVb : Vis (heapOf cs ns) m1 (args ++ iv :: sc) :=
    (hV.cons (hi := iv + 1) (by omega) (by omega) (by rw [hvar iv (Or.inl rfl)]; trivial)).append
      l1 fun a ha => ⟨((inc_asc h1).mem ha).2, by rw [hvar a (Or.inr ha)]; trivial⟩
  by_contra hno
  have hiff := evalRotations_iff hord hcl hlog (fun k => decide ((k - x₀) % (G.slots : Int) = 0))
  have hden : Dag.den (RS fun k => decide ((k - x₀) % (G.slots : Int) = 0)) (heapOf cs ns) G.env n ≠
      none := by
    intro h0
    obtain ⟨k, hk, hPk⟩ := hiff.2 h0
    exact hno ⟨k, hk, by simpa using hPk⟩
  cases hd : Dag.den (RS fun k => decide ((k - x₀) % (G.slots : Int) = 0)) (heapOf cs ns) G.env n with
  | none => exact hden hd
  | some outs =>
    refine (loop_agree (x₀ := x₀) hord l0 hh.2.2.2.2.1 hh.2.2.2.2.2.1 hh.2.2.2.2.2.2.2 h1 h2 hV hvar
      hnD ?_ hiv hTi hTy (fun x hx => rfl) (agree_outer hord hout hCV ho) hCV hpos
      (fun a b c d e => forward rfl hord body h2 hb1 hms hVb
        (fun q hq => hC q (by simp [Block.defs, hq])) hTb hM a b c d e) hd hr1).1 hx
    rintro a (rfl | ha)
    · exact hC (a, none) (by simp [Block.defs])
    · exact hC (a, none) (by simp [Block.defs, ha])

/-! ## A program -/

theorem Covers.append {slots : Nat} {k k' t t' : List Int} (h : Covers slots k t)
    (h' : Covers slots k' t') : Covers slots (k ++ k') (t ++ t') := by
  intro x hx
  rcases List.mem_append.1 hx with hx | hx
  · obtain ⟨y, hy, h⟩ := h x hx
    exact ⟨y, List.mem_append_left _ hy, h⟩
  · obtain ⟨y, hy, h⟩ := h' x hx
    exact ⟨y, List.mem_append_right _ hy, h⟩

theorem Covers.mono {slots : Nat} {k k' t : List Int} (h : Covers slots k t)
    (hk : ∀ x ∈ k, x ∈ k') : Covers slots k' t := by
  intro x hx
  obtain ⟨y, hy, h⟩ := h x hx
  exact ⟨y, hk y hy, h⟩

theorem covers_self {slots : Nat} {k t : List Int} (h : ∀ x ∈ t, x ∈ k) : Covers slots k t :=
  fun x hx => ⟨x, h x hx, by simp⟩

theorem run_covers (b : Block) : ∀ {lo hi : Nat} {sc : List Nat} {ρ : Nat → RVal}
    {p : Nat} {ys : List RVal} {tr : List Int} {p' : Nat} {ks : List Int}, wf lo sc b = some hi →
    (∀ v ∈ sc, v < lo) → Cons cs b → CVal cs ρ sc → tame G cs cls sc b = true →
    run G cs b = some ks → exec W b ρ p = some (ys, tr, p') → Covers G.slots ks tr := by
  induction b with
  | done y vs =>
    intro lo hi sc ρ p ys tr p' ks h hsc hC hCV hT hrun hex
    simp only [exec, Option.some.injEq, Prod.mk.injEq] at hex
    rw [← hex.2.1]
    intro x hx
    simp at hx
  | op r k args rest ih =>
    intro lo hi sc ρ p ys tr p' ks h hsc hC hCV hT hrun hex
    obtain ⟨h1, h2, h3⟩ := wf_op h
    simp only [exec] at hex
    obtain ⟨v, hv, hex⟩ := Option.bind_eq_some_iff.1 hex
    obtain ⟨o, ho, hoc⟩ := defs_op r k args rest
    have hCr := hC (r, o) (by rw [ho]; simp)
    simp only at hCr
    refine ih h3 (fun v hv => ?_) (fun q hq => hC q (by rw [ho]; simp [hq]))
      (hCV.cons (fun hm => by have := hsc r hm; omega) fun c hc => ?_) hT hrun hex
    · rcases List.mem_cons.1 hv with rfl | hv
      · omega
      · have := hsc v hv; omega
    · rw [hCr] at hc
      rw [(hoc c).1 hc] at hv
      simp only [evalK, Option.some.injEq] at hv
      exact hv.symm
  | rot r t sh rest ih =>
    intro lo hi sc ρ p ys tr p' ks h hsc hC hCV hT hrun hex
    obtain ⟨h1, ht, h2, h3⟩ := wf_rot h
    simp only [exec] at hex
    obtain ⟨as, has, hex⟩ := Option.bind_eq_some_iff.1 hex
    obtain ⟨⟨y1, t1, p1⟩, hexr, he⟩ := Option.map_eq_some_iff.1 hex
    simp only [Prod.mk.injEq] at he
    simp only [run] at hrun
    obtain ⟨as', has', hrun⟩ := Option.bind_eq_some_iff.1 hrun
    obtain ⟨ks', hks', hrun⟩ := Option.bind_eq_some_iff.1 hrun
    simp only [Option.some.injEq] at hrun
    have e := constShifts_eq hCV h2 has' has
    subst e
    rw [← he.2.1, ← hrun]
    refine (covers_self fun x hx => hx).append (ih h3 (fun v hv => ?_)
      (fun q hq => hC q (by simp [Block.defs, hq]))
      (hCV.cons (fun hm => by have := hsc r hm; omega) fun c hc => ?_) hT hks' hexr)
    · rcases List.mem_cons.1 hv with rfl | hv
      · omega
      · have := hsc v hv; omega
    · have := hC (r, none) (by simp [Block.defs])
      simp only at this
      rw [this] at hc
      simp at hc
  | opq rs args rest ih =>
    intro lo hi sc ρ p ys tr p' ks h hsc hC hCV hT hrun hex
    obtain ⟨h1, m, h2, h3⟩ := wf_opq h
    simp only [exec] at hex
    refine ih h3 (fun v hv => ?_) (fun q hq => hC q (by simp [Block.defs, hq]))
      (hCV.append _ fun r hr => hC (r, none) (by simp [Block.defs, hr])) hT hrun hex
    have := (inc_asc h2).le
    rcases List.mem_append.1 hv with hv | hv
    · exact ((inc_asc h2).mem hv).2
    · have := hsc v hv; omega
  | region rs args ivs body rest ihb ih =>
    intro lo hi sc ρ p ys tr p' ks h hsc hC hCV hT hrun hex
    obtain ⟨h0, m1, m2, m3, h1, h2, h3, h4⟩ := wf_region h
    simp only [exec] at hex
    obtain ⟨⟨v1, t1, p1⟩, hr1, hex⟩ := Option.bind_eq_some_iff.1 hex
    obtain ⟨⟨v2, t2, p2⟩, hr2, hex⟩ := Option.map_eq_some_iff.1 hex
    simp only [Prod.mk.injEq] at hex
    simp only [run] at hrun
    obtain ⟨k1, hk1, hrun⟩ := Option.bind_eq_some_iff.1 hrun
    obtain ⟨k2, hk2, hrun⟩ := Option.bind_eq_some_iff.1 hrun
    simp only [Option.some.injEq] at hrun
    simp only [tame, Bool.and_eq_true] at hT
    have l1 := (inc_asc h1).le
    have l2 := wf_le h2
    have l3 := (inc_asc h3).le
    rw [← hex.2.1, ← hrun]
    refine Covers.append ?_ (ih h4 (fun v hv => ?_)
      (fun q hq => hC q (by simp [Block.defs, hq]))
      (hCV.append _ fun r hr => hC (r, none) (by simp [Block.defs, hr])) hT.2 hk2 hr2)
    · refine rounds_forall (fun i vs p ys tr p' he => ihb h2 (fun v hv => ?_)
        (fun q hq => hC q (by simp [Block.defs, hq]))
        (hCV.append _ fun r hr => hC (r, none) (by simp [Block.defs, hr])) hT.1 hk1 he)
        _ _ _ _ _ _ hr1
      rcases List.mem_append.1 hv with hv | hv
      · exact ((inc_asc h1).mem hv).2
      · have := hsc v hv; omega
    · rcases List.mem_append.1 hv with hv | hv
      · exact ((inc_asc h3).mem hv).2
      · have := hsc v hv; omega
  | loop n lb ub st iv inits args rs body rest ihb ih =>
    intro lo hi sc ρ p ys tr p' ks h hsc hC hCV hT hrun hex
    obtain ⟨hh, m1, m2, m3, h1, h2, h3, h4, h5⟩ := wf_loop h
    have l0 := hh.1
    have l1 := (inc_asc h1).le
    have l2 := wf_le h2
    have l3 := (inc_asc h4).le
    simp only [exec] at hex
    split at hex
    case h_2 => simp at hex
    next l u s hl hu hs =>
    split at hex
    · simp at hex
    next hpos =>
    obtain ⟨⟨v1, t1, p1⟩, hr1, hex⟩ := Option.bind_eq_some_iff.1 hex
    obtain ⟨⟨v2, t2, p2⟩, hr2, hex⟩ := Option.map_eq_some_iff.1 hex
    simp only [Prod.mk.injEq] at hex
    simp only [run] at hrun
    obtain ⟨k1, hk1, hrun⟩ := Option.bind_eq_some_iff.1 hrun
    obtain ⟨k2, hk2, hrun⟩ := Option.bind_eq_some_iff.1 hrun
    simp only [Option.some.injEq] at hrun
    simp only [tame, Bool.and_eq_true, Bool.or_eq_true] at hT
    rw [← hex.2.1, ← hrun]
    refine Covers.append ?_ (ih h5 (fun v hv => ?_)
      (fun q hq => hC q (by simp [Block.defs, hq]))
      (hCV.append _ fun r hr => hC (r, none) (by simp [Block.defs, hr])) hT.2 hk2 hr2)
    · simp only [runLoop] at hk1
      split at hk1
      · next hdyn =>
        obtain ⟨log, hlog, hk1⟩ := Option.bind_eq_some_iff.1 hk1
        simp only [Option.some.injEq] at hk1
        rcases hT.1 with hT | hT
        · rw [(scan_const hT).1] at hdyn
          simp at hdyn
        · rw [← hk1]
          exact (loop_covers h hsc hC hCV hT.1.1 hT.1.2 hT.2 hlog hl hu hs hpos hr1).mono
            fun x hx => List.mem_append_right _ hx
      · next hdyn =>
        simp only [Option.some.injEq] at hk1
        rw [← hk1]
        have hall := scan_dyn (by simpa using hdyn)
        refine covers_self (rounds_forall (fun i vs p ys tr p' he => exec_const body h2
          (fun v hv => ?_) (fun q hq => hC q (by simp [Block.defs, hq]))
          (CVal.append (hCV.cons (fun hm => by have := hsc iv hm; omega) fun c hc => ?_) _
            fun r hr => hC (r, none) (by simp [Block.defs, hr])) (scan_const hall).2 he)
          _ _ _ _ _ _ hr1)
        · rcases List.mem_append.1 hv with hv | hv
          · exact ((inc_asc h1).mem hv).2
          · rcases List.mem_cons.1 hv with rfl | hv
            · omega
            · have := hsc v hv; omega
        · have := hC (iv, none) (by simp [Block.defs])
          simp only at this
          rw [this] at hc
          simp at hc
    · rcases List.mem_append.1 hv with hv | hv
      · exact ((inc_asc h4).mem hv).2
      · have := hsc v hv; omega
  | ite n c rs hasElse t e rest iht ihe ih =>
    intro lo hi sc ρ p ys tr p' ks h hsc hC hCV hT hrun hex
    obtain ⟨hh, m1, m2, m3, h1, h2, h3, h4, h5⟩ := wf_ite h
    have l1 := wf_le h1
    have l2 := wf_le h2
    have l3 := (inc_asc h4).le
    simp only [exec] at hex
    split at hex
    case h_2 => simp at hex
    obtain ⟨⟨v1, t1, p1⟩, hr1, hex⟩ := Option.bind_eq_some_iff.1 hex
    obtain ⟨⟨v2, t2, p2⟩, hr2, hex⟩ := Option.map_eq_some_iff.1 hex
    simp only [Prod.mk.injEq] at hex
    simp only [run] at hrun
    obtain ⟨k1, hk1, hrun⟩ := Option.bind_eq_some_iff.1 hrun
    obtain ⟨k2, hk2, hrun⟩ := Option.bind_eq_some_iff.1 hrun
    obtain ⟨k3, hk3, hrun⟩ := Option.bind_eq_some_iff.1 hrun
    simp only [Option.some.injEq] at hrun
    simp only [tame, Bool.and_eq_true] at hT
    rw [← hex.2.1, ← hrun]
    refine Covers.append ?_ (ih h5 (fun v hv => ?_)
      (fun q hq => hC q (by simp [Block.defs, hq]))
      (hCV.append _ fun r hr => hC (r, none) (by simp [Block.defs, hr])) hT.2 hk3 hr2)
    · split at hr1
      · exact (iht h1 hsc (fun q hq => hC q (by simp [Block.defs, hq])) hCV hT.1.1 hk1 hr1).mono
          fun x hx => List.mem_append_left _ hx
      · exact (ihe h2 (fun v hv => by have := hsc v hv; omega)
          (fun q hq => hC q (by simp [Block.defs, hq])) hCV hT.1.2 hk2 hr1).mono
          fun x hx => List.mem_append_right _ hx
    · rcases List.mem_append.1 hv with hv | hv
      · exact ((inc_asc h4).mem hv).2
      · have := hsc v hv; omega

end Heir.RotKeys
