import Verif.Mgmt.Meaning

/-! # Matching the first multiplicative depth -/

namespace Heir.Mgmt

/-- What depth matching says at one operation. -/
def DepthPost (t : Nat → DFact) (op : Op) : Prop :=
  op.kind.matched = true → depthMismatch ((op.args.filter fun a => (t a).sec).map fun a => (t a).dep) = false

theorem depthMismatch_two {ds : List Depth} (h : depthMismatch ds = true) (hl : ds.length ≤ 2) :
    ds = [.int 0, .int 1] ∨ ds = [.int 1, .int 0] := by
  unfold depthMismatch at h
  split at h
  · rename_i l
    have : l = [] := by
      cases l with
      | nil => rfl
      | cons x l => simp at hl
    rw [this]; exact Or.inl rfl
  · rename_i l
    have : l = [] := by
      cases l with
      | nil => rfl
      | cons x l => simp at hl
    rw [this]; exact Or.inr rfl
  · simp at h

theorem depthMismatch_ones {ds : List Depth} (h : ∀ d ∈ ds, d = .int 1) : depthMismatch ds = false := by
  cases ds with
  | nil => rfl
  | cons x ds =>
    rw [h x (by simp)]
    cases ds with
    | nil => rfl
    | cons y ds =>
      rw [h y (by simp)]
      rfl

theorem filter_pos (t : Nat → DFact) (args : List Nat) :
    ((List.range args.length).filter fun i => (t (args.getD i 0)).sec).map (fun i => (t (args.getD i 0)).dep) =
      (args.filter fun a => (t a).sec).map fun a => (t a).dep := by
  conv_rhs => rw [args_eq_map args, List.filter_map, List.map_map]
  rfl

/-- One step: the operands that were fresh are adjusted. -/
theorem depthOp_post {t t' : Nat → DFact} {n i : Nat} {op : Op} {s' : St}
    (ha : ∀ a ∈ op.args, a < n) (h2 : op.kind.matched = true → (op.args.filter fun a => (t a).sec).length ≤ 2)
    (h : depthOp t ⟨n, i, [], op.args⟩ op = some (t', s')) :
    DepthPost (run depthStep s'.pre t) { op with args := s'.args } := by
  intro hk
  have hk' : op.kind.matched = true := hk
  have h2 := h2 hk'
  rw [depthOp] at h
  simp only [hk', Bool.true_and, Option.some.injEq, Prod.mk.injEq] at h
  obtain ⟨-, h⟩ := h
  have hfp := filter_pos t op.args
  cases hm : depthMismatch (((List.range op.args.length).filter fun i => (t (op.args.getD i 0)).sec).map
      fun i => (t (op.args.getD i 0)).dep) with
  | false =>
    rw [hm] at h
    simp only [Bool.false_eq_true, if_false] at h
    subst h
    rw [hfp] at hm
    exact hm
  | true =>
    rw [hm] at h
    simp only [if_true] at h
    have hlen : (((List.range op.args.length).filter fun i => (t (op.args.getD i 0)).sec).map
        fun i => (t (op.args.getD i 0)).dep).length ≤ 2 := by
      rw [hfp, List.length_map]; exact h2
    generalize hpos : ((List.range op.args.length).filter fun i => (t (op.args.getD i 0)).sec) = pos at hm hlen h
    have hp : ∀ j, j ∈ pos ↔ j < op.args.length ∧ (t (op.args.getD j 0)).sec = true := by
      intro j; rw [← hpos]; simp
    have key : ∀ a b : Nat, (∀ j, j ∈ pos → j = a ∨ j = b) → a ∈ pos → b ∈ pos →
        (t (op.args.getD a 0)).dep = .int 0 → (t (op.args.getD b 0)).dep = .int 1 →
        s' = ⟨n + 1, i + 1, [⟨.adjustScale i, [op.args.getD a 0], n⟩], replaceUses op.args (op.args.getD a 0) n⟩ →
        depthMismatch (((({ op with args := s'.args } : Op).args.filter fun x => (run depthStep s'.pre t x).sec)).map
          fun x => (run depthStep s'.pre t x).dep) = false := by
      intro a b hab hap hbp h0 h1 hs'
      obtain ⟨hal, has⟩ := (hp a).1 hap
      subst hs'
      simp only [run]
      have hstep : depthStep t ⟨.adjustScale i, [op.args.getD a 0], n⟩ = ⟨true, .int 1⟩ := by
        simp only [depthStep, List.any_cons, List.any_nil, has, Bool.or_false, if_true, List.filter_cons,
          List.filter_nil, List.map_cons, List.map_nil, h0, deriveDepth]
        rfl
      rw [hstep]
      apply depthMismatch_ones
      intro d hd
      obtain ⟨x, hx, rfl⟩ := List.mem_map.1 hd
      rw [List.mem_filter] at hx
      obtain ⟨hx, hxs⟩ := hx
      by_cases hxn : x = n
      · subst hxn; rw [upd_eq]
      · rw [upd_ne _ _ hxn] at hxs ⊢
        simp only [replaceUses, List.mem_map] at hx
        obtain ⟨y, hy, hyx⟩ := hx
        split at hyx
        · exact absurd hyx.symm hxn
        · rename_i hya
          subst hyx
          obtain ⟨j, hjl, rfl⟩ := List.mem_iff_getElem.1 hy
          have hj : op.args.getD j 0 = op.args[j] := List.getD_eq_getElem _ _ hjl
          rw [← hj] at hxs hya ⊢
          rcases hab j ((hp j).2 ⟨hjl, hxs⟩) with rfl | rfl
          · exact absurd rfl hya
          · exact h1
    rcases depthMismatch_two hm hlen with e | e
    · match pos, hp, e, h with
      | [], _, e, _ => simp at e
      | [_], _, e, _ => simp at e
      | a :: b :: c :: l, _, e, _ => simp at e
      | [a, b], hp, e, h =>
        simp only [List.map_cons, List.map_nil, List.cons.injEq, and_true] at e
        refine key a b (by simp) (by simp) (by simp) e.1 e.2 ?_
        rw [← h]
        simp only [List.map_cons, List.map_nil, List.zip_cons_cons, List.zip_nil_right, List.foldl_cons, List.foldl_nil,
          depthOne, e.1, e.2, St.emit, chain, if_true]
        simp
    · match pos, hp, e, h with
      | [], _, e, _ => simp at e
      | [_], _, e, _ => simp at e
      | a :: b :: c :: l, _, e, _ => simp at e
      | [a, b], hp, e, h =>
        simp only [List.map_cons, List.map_nil, List.cons.injEq, and_true] at e
        refine key b a (by simp only [List.mem_cons, List.not_mem_nil, or_false]; tauto) (by simp) (by simp) e.2 e.1 ?_
        rw [← h]
        simp only [List.map_cons, List.map_nil, List.zip_cons_cons, List.zip_nil_right, List.foldl_cons, List.foldl_nil,
          depthOne, e.1, e.2, St.emit, chain, if_true]
        simp

theorem allSteps_unmatched (l : List Op) (h : ∀ o ∈ l, o.kind.matched = false) :
    ∀ t, AllSteps depthStep DepthPost l t := by
  induction l with
  | nil => intro t; trivial
  | cons o l ih =>
    intro t
    refine ⟨fun hk => ?_, ih (fun o ho => h o (by simp [ho])) _⟩
    rw [h o (by simp)] at hk; exact absurd hk (by simp)

/-- The walk. -/
theorem depth_walk {base : Nat} (ops : List Op) :
    ∀ (P : Nat → Prop) (n i : Nat) (t : Nat → DFact) (c : Nat → Bool) r, base ≤ n → SSA base P ops →
      (∀ v, P v → v < base) → (∀ v < base, (t v).sec = c v) →
      (∀ op ∈ ops, op.kind.matched = true → (op.args.filter (run secStep ops c)).length ≤ 2) →
      before depthOp t n i ops = some r → AllSteps depthStep DepthPost r.2.2.2 t := by
  induction ops with
  | nil =>
    intro P n i t c r _ _ _ _ _ h
    simp only [before, Option.some.injEq] at h
    subst h
    trivial
  | cons op ops ih =>
    intro P n i t c r hb hs hP hc h2 h
    obtain ⟨s1, s2, s3, s4, s5, s6⟩ := hs
    rw [before, Option.bind_eq_some_iff] at h
    obtain ⟨⟨t', s⟩, e1, e2⟩ := h
    simp only [Option.map_eq_some_iff] at e2
    obtain ⟨⟨t'', n', i', ops'⟩, e3, rfl⟩ := e2
    have hargs : ∀ a ∈ op.args, a < n := fun a ha => Nat.lt_of_lt_of_le (hP a (s1 a ha)) hb
    obtain ⟨hext, _, ht'⟩ := depthOp_ext hargs e1
    have hlook : ∀ a ∈ op.args, run secStep (op :: ops) c a = c a := by
      intro a ha
      rw [run_of_not_res]
      intro o ho
      rcases List.mem_cons.1 ho with rfl | ho
      · intro e; exact s2 (e ▸ s1 a ha)
      · exact SSA.res_ne s6 a (Or.inl (s1 a ha)) o ho
    have hpost := depthOp_post hargs (by
      intro hk
      have := h2 op (by simp) hk
      rwa [List.filter_congr (fun a ha => hlook a ha), ← List.filter_congr (p := fun a => (t a).sec)
        (fun a ha => hc a (hP a (s1 a ha)))] at this) e1
    have hpre : ∀ o ∈ s.pre, o.kind.matched = false := by
      intro o ho
      obtain ⟨_, _, ⟨j, e⟩, _⟩ := hext.pre_mem o ho
      rw [e]; rfl
    refine (allSteps_append _ _ _ _ _).2 ⟨allSteps_unmatched _ hpre t, hpost, ?_⟩
    have hrun : t' = upd (run depthStep s.pre t) op.res
        (depthStep (run depthStep s.pre t) { op with args := s.args }) := by
      rw [ht', run_append]; rfl
    rw [hrun] at e3
    refine ih (fun v => P v ∨ v = op.res) s.next s.id _ (upd c op.res (secStep c op)) _
      (Nat.le_trans hb hext.le) s6 ?_ ?_ ?_ e3
    · rintro v (h | rfl)
      · exact hP v h
      · exact s3
    · obtain ⟨d1, d2⟩ := depth_sec hext hargs t
      intro v hv
      by_cases hv' : v = op.res
      · subst hv'
        rw [upd_eq, upd_eq, d2]
        exact any_congr_mem fun a ha => hc a (hP a (s1 a ha))
      · rw [upd_ne _ _ hv', upd_ne _ _ hv']
        rw [d1 v (by omega), hc v hv]
    · intro o ho hk
      exact h2 o (by simp [ho]) hk

/-- A matched operation has at most two secret operands. -/
theorem two_sec (cfg : Cfg) {p : Prog} (hw : p.WF) (hi : InsertsTwo cfg p) {op : Op} (hop : op ∈ p.ops)
    (hm : op.kind.matched = true) : (op.args.filter (secs p)).length ≤ 2 := by
  have hl := (hw.ssa.arity op hop).2
  cases hk : op.kind <;> rw [hk] at hm <;> simp [Kind.matched] at hm
  · exact Nat.le_trans (List.length_filter_le _ _) (Nat.le_of_eq (hl (Or.inl hk)))
  · exact Nat.le_trans (List.length_filter_le _ _) (Nat.le_of_eq (hl (Or.inr (Or.inl hk))))
  · exact Nat.le_trans (List.length_filter_le _ _) (Nat.le_of_eq (hl (Or.inr (Or.inr hk))))
  · have := hi op hop hk
    simp only [facts_sec] at this
    exact this

theorem depth_of_isDepth {p : Prog} (hw : p.WF) {v d : Nat} (hv : v < p.nargs ∨ ∃ o ∈ p.ops, o.res = v)
    (h : IsDepth p v d) (hd : d ≤ depthBudget) : (depths p v).sec = true ∧ (depths p v).dep = .int d := by
  have hs : (depths p v).sec = true := by rw [depths_sec]; exact reach_sec hw h.1
  refine ⟨hs, ?_⟩
  rcases depthOk hw hv hs with ⟨d', e, _, h'⟩ | ⟨_, k, hk, h'⟩
  · have h1 := h.2 _ h'.1
    have h2 := h'.2 _ h.1
    rw [e, show d' = d by omega]
  · have := h.2 _ h'
    omega

theorem crossDepth_match (cfg : Cfg) {i : Nat} {p q : Prog} (hw : p.WF) (hq : q.WF) (hi : InsertsTwo cfg p)
    (hi' : InsertsTwo cfg q) (h : crossDepth i p = some q) :
    ∀ op ∈ q.ops, op.kind.needsSameLevel → ∀ a ∈ op.args, ∀ b ∈ op.args, IsDepth q a 0 → ¬ IsDepth q b 1 := by
  have hnargs : depthEntry q = depthEntry p := by
    have := crossDepth_ins cfg hw h
    funext v
    simp only [depthEntry, this.nargs, this.secArg]
  have hall : AllSteps depthStep DepthPost q.ops (depthEntry q) := by
    rw [hnargs]
    rw [crossDepth, Option.map_eq_some_iff] at h
    obtain ⟨r, h1, rfl⟩ := h
    refine depth_walk p.ops (· < p.nargs) p.next i (depthEntry p) (secEntry p) r (Nat.le_refl _) hw.ssa
      (fun v hv => Nat.lt_of_lt_of_le hv hw.nargs) ?_ (fun op hop hm => two_sec cfg hw hi hop hm) h1
    intro v _
    simp only [depthEntry, secEntry]
    split <;> rfl
  intro op hop hk a ha b hb h0 h1
  obtain ⟨t', hp, e, _⟩ := final_of_allSteps depthStep DepthPost q.ops _ _ hq.ssa hall op hop
  have hm := (matched_iff _).1 hk
  have hp := hp hm
  have e' : ∀ x ∈ op.args, t' x = depths q x := e
  rw [List.filter_congr (q := secs q) (fun x hx => by rw [e' x hx, depths_sec])] at hp
  have h2 := two_sec cfg hq hi' hop hm
  obtain ⟨s0, d0⟩ := depth_of_isDepth hq (hq.ssa.args_def op hop a ha) h0 (by simp [depthBudget])
  obtain ⟨s1, d1⟩ := depth_of_isDepth hq (hq.ssa.args_def op hop b hb) h1 (by simp [depthBudget])
  rw [← e' a ha] at d0
  rw [← e' b hb] at d1
  have m0 : a ∈ op.args.filter (secs q) := List.mem_filter.2 ⟨ha, by rw [← depths_sec]; exact s0⟩
  have m1 : b ∈ op.args.filter (secs q) := List.mem_filter.2 ⟨hb, by rw [← depths_sec]; exact s1⟩
  have hne : a ≠ b := by
    rintro rfl
    rw [d0] at d1
    simp at d1
  generalize op.args.filter (secs q) = l at hp h2 m0 m1
  match l, h2, m0, m1 with
  | [], _, m0, _ => simp at m0
  | [x], _, m0, m1 =>
    simp at m0 m1
    exact hne (by rw [m0, m1])
  | [x, y], _, m0, m1 =>
    simp only [List.mem_cons, List.not_mem_nil, or_false] at m0 m1
    rcases m0 with rfl | rfl <;> rcases m1 with rfl | rfl
    · exact hne rfl
    · simp [d0, d1, depthMismatch] at hp
    · simp [d0, d1, depthMismatch] at hp
    · exact hne rfl

theorem insertMgmt_depths (o : Opts) (cfg : Cfg) (ho : o.ckks = false) {p q : Prog} (hw : p.WF)
    (hi : InsertsTwo cfg p) (h : insertMgmt o cfg p = some q) :
    ∀ op ∈ q.ops, op.kind.needsSameLevel → ∀ a ∈ op.args, ∀ b ∈ op.args, IsDepth q a 0 → ¬ IsDepth q b 1 := by
  have hwq := (insertMgmt_wf o cfg hw h).1
  have hiq := (insertMgmt_same o cfg hw h).inserts cfg hi
  have h0 := (insertMgmtPre_wf o cfg hw).1
  rw [insertMgmt_eq, Option.bind_eq_some_iff] at h
  obtain ⟨⟨q1, i⟩, h2, h3⟩ := h
  have hs := (insertMgmtPre_same o cfg hw).trans ((crossLevel_ins h2).same crossKind_mgmt h0)
  simp only [ho, Bool.false_eq_true, if_false] at h3
  exact crossDepth_match cfg ((crossLevel_ins h2).wf crossKind_mgmt h0) hwq (hs.inserts cfg hi) hiq h3

end Heir.Mgmt
