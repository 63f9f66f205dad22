import Verif.Mgmt.Apart

/-! # The multiplicative depth -/

namespace Heir.Mgmt

/-- Induction along the definitions of a program. -/
theorem SSA.along {N : Nat} (Q : Nat → Prop) {l : List Op} : ∀ {P : Nat → Prop}, SSA N P l → (∀ v, P v → Q v) →
    (∀ op ∈ l, (∀ a ∈ op.args, Q a) → Q op.res) → ∀ v, (P v ∨ ∃ o ∈ l, o.res = v) → Q v := by
  induction l with
  | nil =>
    rintro P _ h _ v (hv | ⟨o, ho, _⟩)
    · exact h v hv
    · simp at ho
  | cons o l ih =>
    intro P hs h hop v hv
    have ho := hop o (by simp) fun a ha => h a (hs.1 a ha)
    refine ih hs.2.2.2.2.2 (P := fun v => P v ∨ v = o.res) ?_ (fun op hm => hop op (by simp [hm])) v ?_
    · rintro u (hu | rfl)
      · exact h u hu
      · exact ho
    · rcases hv with h | ⟨o', ho', h⟩
      · exact Or.inl (Or.inl h)
      · rcases List.mem_cons.1 ho' with rfl | ho'
        · exact Or.inl (Or.inr h.symm)
        · exact Or.inr ⟨o', ho', h⟩

theorem depths_fix {p : Prog} (hw : p.WF) {op : Op} (h : op ∈ p.ops) : depths p op.res = depthStep (depths p) op := by
  obtain ⟨t', _, h1, h2⟩ := final_of_allSteps depthStep (fun _ _ => True) p.ops _ (depthEntry p) hw.ssa
    (allSteps_true _ _ _) op h
  rw [depths, ← h2]
  have e1 : (op.args.any fun a => (t' a).sec) = op.args.any fun a => (run depthStep p.ops (depthEntry p) a).sec :=
    any_congr_mem fun a ha => by rw [h1 a ha]
  have e2 : (op.args.filter fun a => (t' a).sec) =
      op.args.filter fun a => (run depthStep p.ops (depthEntry p) a).sec :=
    List.filter_congr fun a ha => by rw [h1 a ha]
  have e3 : ((op.args.filter fun a => (run depthStep p.ops (depthEntry p) a).sec).map fun a => (t' a).dep) =
      (op.args.filter fun a => (run depthStep p.ops (depthEntry p) a).sec).map
        fun a => (run depthStep p.ops (depthEntry p) a).dep :=
    List.map_congr_left fun a ha => by rw [h1 a (List.mem_filter.1 ha).1]
  simp only [depthStep, e1, e2, e3]

theorem Depth.foldl_invalid (l : List Depth) : l.foldl Depth.join .invalid = .invalid := by
  induction l with
  | nil => rfl
  | cons x l ih => simpa [Depth.join] using ih

theorem Depth.foldl_spec (ds : List Depth) : ∀ d, (∀ x ∈ ds, x ≠ Depth.uninit) →
    (Depth.invalid ∈ ds ∧ ds.foldl Depth.join (.int d) = .invalid) ∨
      (Depth.invalid ∉ ds ∧ ∃ m, ds.foldl Depth.join (.int d) = .int m ∧ d ≤ m ∧ (∀ x, .int x ∈ ds → x ≤ m) ∧
        (m = d ∨ .int m ∈ ds)) := by
  induction ds with
  | nil => intro d _; exact Or.inr ⟨by simp, d, rfl, Nat.le_refl _, by simp, Or.inl rfl⟩
  | cons x ds ih =>
    intro d hu
    have hu' : ∀ x ∈ ds, x ≠ Depth.uninit := fun x hx => hu x (by simp [hx])
    rw [List.foldl_cons]
    cases x with
    | uninit => exact absurd rfl (hu _ (by simp))
    | invalid => exact Or.inl ⟨by simp, Depth.foldl_invalid ds⟩
    | int y =>
      rcases ih (max d y) hu' with ⟨h1, h2⟩ | ⟨h1, m, h2, h3, h4, h5⟩
      · exact Or.inl ⟨by simp [h1], h2⟩
      · refine Or.inr ⟨by simp [h1], m, h2, by omega, ?_, ?_⟩
        · intro x hx
          rcases List.mem_cons.1 hx with h | h
          · injection h with h; omega
          · exact h4 x h
        · rcases h5 with h | h
          · by_cases hyd : y ≤ d
            · left; omega
            · right
              have : m = y := by omega
              rw [this]; simp
          · exact Or.inr (by simp [h])

/-- What the analysis says of a value. -/
def DepthOk (p : Prog) (v : Nat) : Prop :=
  (depths p v).sec = true →
    (∃ d, (depths p v).dep = .int d ∧ d ≤ depthBudget ∧ IsDepth p v d) ∨
      ((depths p v).dep = .invalid ∧ ∃ k, depthBudget < k ∧ Reach p v k)

theorem reach_sec {p : Prog} (hw : p.WF) {v k : Nat} (h : Reach p v k) : secs p v = true := by
  have hop : ∀ (op : Op) (a : Nat), op ∈ p.ops → a ∈ op.args → secs p a = true → secs p op.res = true := by
    intro op a h1 h2 h3
    rw [secs_res hw h1, List.any_eq_true]
    exact ⟨a, h2, h3⟩
  induction h with
  | arg v hv hs =>
    rw [secs, run_of_not_res _ _ _ _ (hw.ssa.res_ne v hv), secEntry, if_pos hv, hs]
  | boot op a k h1 h2 _ _ ih => exact hop op a h1 h2 ih
  | up op a k h1 h2 _ _ ih => exact hop op a h1 h2 ih
  | keep op a k h1 h2 _ _ _ _ ih => exact hop op a h1 h2 ih

/-- A path to a result comes from a path to an operand. -/
theorem reach_res {p : Prog} (hw : p.WF) {op : Op} (hop : op ∈ p.ops) {k : Nat} (h : Reach p op.res k) :
    ∃ a ∈ op.args, ∃ k', Reach p a k' ∧
      k = (if op.kind = .bootstrap then 0 else k' + if op.kind.increasesDepth then 1 else 0) := by
  generalize hv : op.res = v at h
  cases h with
  | arg _ hv' _ =>
    rw [← hv] at hv'
    exact absurd rfl (hw.ssa.res_ne _ hv' op hop)
  | boot op' a k' h1 h2 h3 h4 =>
    have e := hw.ssa.inj op hop op' h1 hv
    subst e
    exact ⟨a, h2, k', h3, by rw [if_pos h4]⟩
  | up op' a k' h1 h2 h3 h4 =>
    have e := hw.ssa.inj op hop op' h1 hv
    subst e
    refine ⟨a, h2, k', h3, ?_⟩
    rcases h4 with h4 | ⟨i, h4⟩ <;> rw [h4] <;> simp [Kind.increasesDepth]
  | keep op' a k' h1 h2 h3 h4 h5 h6 =>
    have e := hw.ssa.inj op hop op' h1 hv
    subst e
    refine ⟨a, h2, k, h3, ?_⟩
    rw [if_neg h4]
    cases hk : op.kind <;> simp [Kind.increasesDepth] <;> simp [hk] at h5 h6

theorem reach_op {p : Prog} {op : Op} (hop : op ∈ p.ops) {a k : Nat} (ha : a ∈ op.args) (h : Reach p a k) :
    Reach p op.res (if op.kind = .bootstrap then 0 else k + if op.kind.increasesDepth then 1 else 0) := by
  by_cases hb : op.kind = .bootstrap
  · rw [if_pos hb]; exact Reach.boot op a k hop ha h hb
  rw [if_neg hb]
  by_cases hi : op.kind.increasesDepth = true
  · rw [if_pos hi]
    refine Reach.up op a k hop ha h ?_
    cases hk : op.kind <;> rw [hk] at hi <;> simp [Kind.increasesDepth] at hi ⊢
  · rw [if_neg hi]
    refine Reach.keep op a k hop ha h hb ?_ ?_
    · intro hk; rw [hk] at hi; exact hi rfl
    · intro i hk; rw [hk] at hi; exact hi rfl

theorem depthOk_res {p : Prog} (hw : p.WF) {op : Op} (hop : op ∈ p.ops) (h : ∀ a ∈ op.args, DepthOk p a) :
    DepthOk p op.res := by
  intro hs
  have hfix := depths_fix hw hop
  rw [hfix] at hs ⊢
  have hany : (op.args.any fun a => (depths p a).sec) = true := hs
  obtain ⟨b, hb, hbs⟩ := List.any_eq_true.1 hany
  have hreachb : ∃ k, Reach p b k := by
    rcases h b hb hbs with ⟨d, _, _, h, _⟩ | ⟨_, k, _, h⟩
    · exact ⟨d, h⟩
    · exact ⟨k, h⟩
  simp only [depthStep, hany, if_true, deriveDepth]
  by_cases hk : op.kind = .bootstrap
  · left
    refine ⟨0, by simp [hk], by simp [depthBudget], ?_, ?_⟩
    · obtain ⟨k, hk'⟩ := hreachb
      have := reach_op hop hb hk'
      rwa [if_pos hk] at this
    · intro k hr
      obtain ⟨_, _, k', _, e⟩ := reach_res hw hop hr
      rw [if_pos hk] at e
      omega
  rw [if_neg hk]
  have hds : ∀ x ∈ (op.args.filter fun a => (depths p a).sec).map fun a => (depths p a).dep, x ≠ Depth.uninit := by
    intro x hx
    obtain ⟨a, ha, rfl⟩ := List.mem_map.1 hx
    rw [List.mem_filter] at ha
    rcases h a ha.1 ha.2 with ⟨d, e, _⟩ | ⟨e, _⟩ <;> rw [e] <;> simp
  rcases Depth.foldl_spec _ 0 hds with ⟨h1, h2⟩ | ⟨h1, m, h2, h3, h4, h5⟩
  · right
    rw [h2]
    refine ⟨rfl, ?_⟩
    obtain ⟨a, ha, hae⟩ := List.mem_map.1 h1
    rw [List.mem_filter] at ha
    rcases h a ha.1 ha.2 with ⟨d, e, _⟩ | ⟨_, k, hk1, hk2⟩
    · rw [hae] at e; exact absurd e (by simp)
    · refine ⟨_, ?_, reach_op hop ha.1 hk2⟩
      rw [if_neg hk]
      omega
  · rw [h2]
    simp only
    -- an operand with the depth m
    have hex : ∃ a ∈ op.args, IsDepth p a m := by
      rcases h5 with rfl | h5
      · rcases h b hb hbs with ⟨d, e, _, hd⟩ | ⟨e, _⟩
        · have := h4 d (by
            rw [← e]
            exact List.mem_map.2 ⟨b, List.mem_filter.2 ⟨hb, hbs⟩, rfl⟩)
          have : d = 0 := by omega
          subst this
          exact ⟨b, hb, hd⟩
        · exact absurd (by
            rw [← e]
            exact List.mem_map.2 ⟨b, List.mem_filter.2 ⟨hb, hbs⟩, rfl⟩) h1
      · obtain ⟨a, ha, hae⟩ := List.mem_map.1 h5
        rw [List.mem_filter] at ha
        rcases h a ha.1 ha.2 with ⟨d, e, _, hd⟩ | ⟨e, _⟩
        · rw [hae] at e; injection e with e; subst e; exact ⟨a, ha.1, hd⟩
        · rw [hae] at e; exact absurd e (by simp)
    obtain ⟨a, ha, had⟩ := hex
    have hup : ∀ c ∈ op.args, ∀ k, Reach p c k → k ≤ m := by
      intro c hc k hr
      have hcs : (depths p c).sec = true := by rw [depths_sec]; exact reach_sec hw hr
      have hcm : (depths p c).dep ∈ (op.args.filter fun a => (depths p a).sec).map fun a => (depths p a).dep :=
        List.mem_map.2 ⟨c, List.mem_filter.2 ⟨hc, hcs⟩, rfl⟩
      rcases h c hc hcs with ⟨d, e, _, hd⟩ | ⟨e, _⟩
      · rw [e] at hcm
        have := h4 d hcm
        have := hd.2 k hr
        omega
      · rw [e] at hcm; exact absurd hcm h1
    have hr := reach_op hop ha had.1
    rw [if_neg hk] at hr
    have hmax : ∀ k, Reach p op.res k → k ≤ m + if op.kind.increasesDepth then 1 else 0 := by
      intro k hrk
      obtain ⟨c, hc, k', hk', e⟩ := reach_res hw hop hrk
      rw [if_neg hk] at e
      have := hup c hc k' hk'
      omega
    by_cases hbud : m + (if op.kind.increasesDepth then 1 else 0) > depthBudget
    · right
      rw [if_pos hbud]
      exact ⟨rfl, _, hbud, hr⟩
    · left
      rw [if_neg hbud]
      exact ⟨_, rfl, by omega, hr, hmax⟩

theorem depthOk {p : Prog} (hw : p.WF) {v : Nat} (hv : v < p.nargs ∨ ∃ o ∈ p.ops, o.res = v) : DepthOk p v := by
  refine hw.ssa.along (DepthOk p) ?_ (fun op hop h => depthOk_res hw hop h) v hv
  intro v hv hs
  left
  have e : depths p v = ⟨p.secArg v, .int 0⟩ := by
    rw [depths, run_of_not_res _ _ _ _ (hw.ssa.res_ne v hv), depthEntry, if_pos hv]
  rw [e] at hs ⊢
  refine ⟨0, rfl, by simp [depthBudget], Reach.arg v hv hs, ?_⟩
  intro k hr
  generalize hu : v = u at hr
  cases hr with
  | arg _ _ _ => exact Nat.le_refl _
  | boot op a k h1 _ _ _ => exact absurd hu.symm (hw.ssa.res_ne v hv op h1)
  | up op a k h1 _ _ _ => exact absurd hu.symm (hw.ssa.res_ne v hv op h1)
  | keep op a k h1 _ _ _ _ _ => exact absurd hu.symm (hw.ssa.res_ne v hv op h1)

theorem maxMulDepth_some (t : Nat → DFact) (ops : List Op) (h : ∀ op ∈ ops, (t op.res).dep ≠ .invalid) :
    ∃ m, maxMulDepth t ops = some m ∧ (∀ op ∈ ops, ∀ d, (t op.res).dep = .int d → d ≤ m) ∧
      (m = 0 ∨ ∃ op ∈ ops, (t op.res).dep = .int m) := by
  induction ops with
  | nil => exact ⟨0, rfl, by simp, Or.inl rfl⟩
  | cons op ops ih =>
    obtain ⟨m, h1, h2, h3⟩ := ih fun op ho => h op (by simp [ho])
    rw [maxMulDepth]
    cases hd : (t op.res).dep with
    | uninit =>
      refine ⟨m, h1, ?_, ?_⟩
      · intro o ho d he
        rcases List.mem_cons.1 ho with rfl | ho
        · rw [hd] at he; exact absurd he (by simp)
        · exact h2 o ho d he
      · exact h3.imp_right fun ⟨o, ho, e⟩ => ⟨o, by simp [ho], e⟩
    | invalid => exact absurd hd (h op (by simp))
    | int x =>
      simp only
      refine ⟨max x m, by rw [h1]; rfl, ?_, ?_⟩
      · intro o ho d he
        rcases List.mem_cons.1 ho with rfl | ho
        · rw [hd] at he; injection he with he; omega
        · have := h2 o ho d he; omega
      · by_cases hxm : m ≤ x
        · right
          exact ⟨op, by simp, by rw [hd, Nat.max_eq_left hxm]⟩
        · rw [Nat.max_eq_right (by omega)]
          exact h3.imp_right fun ⟨o, ho, e⟩ => ⟨o, by simp [ho], e⟩

theorem maxMulDepth_none (t : Nat → DFact) (ops : List Op) {op : Op} (ho : op ∈ ops) (h : (t op.res).dep = .invalid) :
    maxMulDepth t ops = none := by
  induction ops with
  | nil => simp at ho
  | cons o ops ih =>
    rw [maxMulDepth]
    rcases List.mem_cons.1 ho with rfl | ho
    · rw [h]
    · rw [ih ho]
      cases (t o.res).dep <;> rfl

/-- A chain of squarings. -/
def squarings (n : Nat) : Prog where
  nargs := 1
  secArg := fun _ => true
  ops := (List.range n).map fun i => ⟨.mul, [i, i], i + 1⟩
  yields := [n]
  next := n + 1

theorem squarings_reach (n : Nat) : ∀ i ≤ n, Reach (squarings n) i i := by
  intro i
  induction i with
  | zero => intro _; exact Reach.arg 0 (by simp [squarings]) rfl
  | succ i ih =>
    intro hi
    refine Reach.up ⟨.mul, [i, i], i + 1⟩ i i ?_ (by simp) (ih (by omega)) (Or.inl rfl)
    exact List.mem_map.2 ⟨i, by simp; omega, rfl⟩

theorem squarings_wf (n : Nat) : (squarings n).WF := by
  refine ⟨by simp [squarings], ?_, ?_⟩
  · have key : ∀ k s, s + k = n →
        SSA (n + 1) (· < s + 1) ((List.range' s k).map fun i => ⟨Kind.mul, [i, i], i + 1⟩) := by
      intro k
      induction k with
      | zero => intro s _; simp [SSA]
      | succ k ih =>
        intro s hs
        rw [List.range'_succ, List.map_cons]
        refine ⟨by simp, by simp, by simp only; omega, by simp [Kind.isMgmt], by simp, ?_⟩
        refine SSA.congr ?_ (ih (s + 1) (by omega))
        intro v
        simp only
        omega
    have := key n 0 (by omega)
    rw [← List.range_eq_range'] at this
    exact this
  · intro y hy
    simp only [squarings, List.mem_singleton] at hy ⊢
    subst hy
    by_cases h : y = 0
    · left; omega
    · exact Or.inr ⟨⟨.mul, [y - 1, y - 1], y - 1 + 1⟩, List.mem_map.2 ⟨y - 1, by simp; omega, rfl⟩, by simp only; omega⟩

end Heir.Mgmt
