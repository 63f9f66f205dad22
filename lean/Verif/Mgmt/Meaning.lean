import Verif.Mgmt.LevelsAll
import Verif.Mgmt.DepthLemmas

/-! # Levels are dropped moduli and dimensions are numbers of components -/

namespace Heir.Mgmt

theorem sec_reach {p : Prog} (hw : p.WF) {v : Nat} (hv : v < p.nargs ∨ ∃ o ∈ p.ops, o.res = v) :
    secs p v = true ↔ ∃ k, Reach p v k := by
  constructor
  · intro hs
    rcases depthOk hw hv (by rw [depths_sec]; exact hs) with ⟨d, _, _, h⟩ | ⟨_, k, _, h⟩
    · exact ⟨d, h.1⟩
    · exact ⟨k, h⟩
  · rintro ⟨k, hk⟩
    exact reach_sec hw hk

theorem drops_sec {c : Nat} {p : Prog} (hw : p.WF) {v k : Nat} (h : Drops c p v k) : secs p v = true := by
  have hop : ∀ (op : Op) (a : Nat), op ∈ p.ops → a ∈ op.args → secs p a = true → secs p op.res = true := by
    intro op a h1 h2 h3
    rw [secs_res hw h1, List.any_eq_true]
    exact ⟨a, h2, h3⟩
  induction h with
  | arg v hv hs => exact reach_sec hw (Reach.arg v hv hs)
  | boot op a k h1 h2 h3 _ => exact hop op a h1 h2 (reach_sec hw h3)
  | one op a k h1 h2 _ _ ih => exact hop op a h1 h2 ih
  | many op a k d h1 h2 _ _ ih => exact hop op a h1 h2 ih
  | keep op a k h1 h2 _ _ _ _ _ ih => exact hop op a h1 h2 ih

theorem comps_sec {p : Prog} (hw : p.WF) {v k : Nat} (h : Comps p v k) : secs p v = true := by
  have hop : ∀ (op : Op) (a : Nat), op ∈ p.ops → a ∈ op.args → secs p a = true → secs p op.res = true := by
    intro op a h1 h2 h3
    rw [secs_res hw h1, List.any_eq_true]
    exact ⟨a, h2, h3⟩
  induction h with
  | arg v hv hs => exact reach_sec hw (Reach.arg v hv hs)
  | relin op a d h1 h2 _ _ ih => exact hop op a h1 h2 ih
  | mul op a b d e h1 _ h2 _ _ ih _ => exact hop op a h1 (by rw [h2]; simp) ih
  | mulPlain op a b d h1 _ h2 _ _ ih => exact hop op a h1 (by rw [h2]; simp) ih
  | plainMul op a b d h1 _ h2 _ _ ih => exact hop op a h1 (by rw [h2]; simp) ih
  | keep op a d h1 h2 _ _ _ ih => exact hop op a h1 h2 ih

theorem sls1 (cfg : Cfg) (p : Prog) (v : Nat) : (sls cfg p v).1 = secs p v := by
  rw [← facts_sl1, facts_sec]

theorem clamp_le {b n : Nat} (h : n ≤ b) : clamp b (.int n) = .int n := by
  simp only [clamp]
  rw [if_neg (by omega)]

theorem deriveLevel_gen (c : Nat) {k : Kind} (h1 : k ≠ .bootstrap) (h2 : k ≠ .modReduce)
    (h3 : ∀ d, k ≠ .levelReduce d) (h4 : k ≠ .levelReduceMin) (ls : List Level) :
    deriveLevel c k ls = ls.foldl Level.join .uninit := by
  cases k <;> first | rfl | exact absurd rfl h1 | exact absurd rfl h2 | exact absurd rfl h4 | exact absurd rfl (h3 _)

/-- The level of a secret result. -/
theorem sls_lvl (cfg : Cfg) {p : Prog} (hw : p.WF) {op : Op} (hop : op ∈ p.ops) (hs : secs p op.res = true) :
    (sls cfg p op.res).2 =
      clamp cfg.budget (deriveLevel cfg.consumed op.kind (op.args.map fun a => (sls cfg p a).2)) := by
  have h1 : (op.args.any fun a => (sls cfg p a).1) = true := by
    simp only [sls1]
    rw [← secs_res hw hop]
    exact hs
  rw [sls_res cfg hw hop]
  simp only [slStep]
  rw [if_pos (Or.inr h1)]

/-- No level is invalid when the budget suffices. -/
theorem level_drops (cfg : Cfg) {p : Prog} (hw : p.WF) (hn : ∀ op ∈ p.ops, op.kind ≠ .levelReduceMin)
    (hb : ∀ v k, Drops cfg.consumed p v k → k ≤ cfg.budget) {v : Nat}
    (hv : v < p.nargs ∨ ∃ o ∈ p.ops, o.res = v) (hs : secs p v = true) :
    ∃ k, Drops cfg.consumed p v k ∧ (sls cfg p v).2 = .int k := by
  have hdef : ∀ op ∈ p.ops, ∀ a ∈ op.args, a < p.nargs ∨ ∃ o ∈ p.ops, o.res = a := hw.ssa.args_def
  refine hw.ssa.along (fun v => secs p v = true → ∃ k, Drops cfg.consumed p v k ∧ (sls cfg p v).2 = .int k)
    ?_ ?_ v hv hs
  · intro v hv hs
    obtain ⟨k, hk⟩ := (sec_reach hw (Or.inl hv)).1 hs
    refine ⟨0, Drops.arg v hv ?_, ?_⟩
    · rw [secs, run_of_not_res _ _ _ _ (hw.ssa.res_ne v hv), secEntry, if_pos hv] at hs
      exact hs
    · rw [sls, run_of_not_res _ _ _ _ (hw.ssa.res_ne v hv), slEntry, factEntry, if_pos hv]
  · intro op hop ih hs
    rw [sls_lvl cfg hw hop hs]
    rw [secs_res hw hop, List.any_eq_true] at hs
    obtain ⟨a, ha, hsa⟩ := hs
    obtain ⟨k, hk, hl⟩ := ih a ha hsa
    have hone : op.kind.isMgmt = true → op.args = [a] := by
      intro hm
      obtain ⟨b, hb⟩ := List.length_eq_one_iff.1 ((hw.ssa.arity op hop).1 hm)
      rw [hb] at ha ⊢
      simp at ha
      rw [ha]
    by_cases h1 : op.kind = .bootstrap
    · obtain ⟨r, hr⟩ := (sec_reach hw (hdef op hop a ha)).1 hsa
      have hd := Drops.boot (c := cfg.consumed) op a r hop ha hr h1
      refine ⟨_, hd, ?_⟩
      rw [hone (by rw [h1]; rfl), h1]
      simp only [List.map_cons, List.map_nil, deriveLevel, List.headD_cons, hl, Level.reset]
      exact clamp_le (hb _ _ hd)
    by_cases h2 : op.kind = .modReduce
    · have hd := Drops.one op a k hop ha hk h2
      refine ⟨_, hd, ?_⟩
      rw [hone (by rw [h2]; rfl), h2]
      simp only [List.map_cons, List.map_nil, deriveLevel, List.headD_cons, hl, Level.reduce, Level.join]
      exact clamp_le (hb _ _ hd)
    by_cases h3 : ∃ d, op.kind = .levelReduce d
    · obtain ⟨d, h3⟩ := h3
      have hd := Drops.many op a k d hop ha hk h3
      refine ⟨_, hd, ?_⟩
      rw [hone (by rw [h3]; rfl), h3]
      simp only [List.map_cons, List.map_nil, deriveLevel, List.headD_cons, hl, Level.reduce, Level.join]
      exact clamp_le (hb _ _ hd)
    have h3' : ∀ d, op.kind ≠ .levelReduce d := fun d h => h3 ⟨d, h⟩
    have h4 := hn op hop
    rw [deriveLevel_gen _ h1 h2 h3' h4]
    obtain ⟨_, f2, f3⟩ := Level.foldl_spec (op.args.map fun a => (sls cfg p a).2) .uninit
    generalize (op.args.map fun a => (sls cfg p a).2).foldl Level.join .uninit = R at f2 f3 ⊢
    have hle := f2 _ (List.mem_map.2 ⟨a, ha, rfl⟩)
    rw [hl] at hle
    rcases f3 with rfl | h
    · exact absurd hle (by simp [Level.le])
    obtain ⟨b, hbm, rfl⟩ := List.mem_map.1 h
    cases hsb : secs p b with
    | true =>
      obtain ⟨m, hm, hlb⟩ := ih b hbm hsb
      have hd := Drops.keep op b m hop hbm hm h1 h2 h3' h4
      refine ⟨m, hd, ?_⟩
      rw [hlb]
      exact clamp_le (hb _ _ hd)
    | false =>
      rcases (sls_inv cfg hw (hdef op hop b hbm)).2.1 (by rw [sls1]; exact hsb) with h | h
      · rw [h] at hle; exact absurd hle (by simp [Level.le])
      · rw [h] at hle ⊢
        have : k = 0 := by simpa [Level.le] using hle
        subst this
        have hd := Drops.keep op a 0 hop ha hk h1 h2 h3' h4
        exact ⟨0, hd, clamp_le (Nat.zero_le _)⟩

/-- The positions of secret operands. -/
theorem filter_one {l : List Nat} {f : Nat → Bool}
    (h : ∀ i j : Fin l.length, f (l.get i) = true → f (l.get j) = true → i = j) : (l.filter f).length ≤ 1 := by
  induction l with
  | nil => simp
  | cons x l ih =>
    have h' : ∀ i j : Fin l.length, f (l.get i) = true → f (l.get j) = true → i = j := by
      intro i j hi hj
      have := h i.succ j.succ hi hj
      exact Fin.succ_inj.1 this
    have := ih h'
    rw [List.filter_cons]
    split
    · rename_i hx
      have he : l.filter f = [] := by
        rw [List.filter_eq_nil_iff]
        intro a ha hfa
        obtain ⟨j, rfl⟩ := List.get_of_mem ha
        have := h ⟨0, by simp⟩ j.succ hx hfa
        simp [Fin.ext_iff] at this
      rw [he]; simp
    · exact this

/-- At most one secret operand, by the analysis. -/
def OneSec (p : Prog) : Prop := ∀ op ∈ p.ops, op.kind.matched = false → (op.args.filter (secs p)).length ≤ 1

theorem OthersOne.oneSec {p : Prog} (hw : p.WF) (h : OthersOne p) : OneSec p := by
  intro op hop hk
  have hd := hw.ssa.args_def op hop
  refine filter_one fun i j hi hj => ?_
  exact h op hop (by rw [matched_iff, hk]; simp) i j ((sec_reach hw (hd _ (List.get_mem _ _))).1 hi)
    ((sec_reach hw (hd _ (List.get_mem _ _))).1 hj)

theorem SameOps.oneSec {p q : Prog} (h : SameOps p q) (hq : q.WF) (ho : OneSec p) : OneSec q := by
  intro o hoq hk
  cases hm : o.kind.isMgmt with
  | true => exact Nat.le_trans (List.length_filter_le _ _) (Nat.le_of_eq ((hq.ssa.arity o hoq).1 hm))
  | false =>
    obtain ⟨a, ha, ka, ea⟩ := h o hoq hm
    have := ho a ha (by rw [ka, hk])
    rw [filter_length_eq] at this ⊢
    rwa [ea]

/-- With matched levels the level counts the dropped moduli of every path. -/
theorem drops_level (cfg : Cfg) {p : Prog} (hw : p.WF) (hn : ∀ op ∈ p.ops, op.kind ≠ .levelReduceMin)
    (hb : ∀ v k, Drops cfg.consumed p v k → k ≤ cfg.budget) (hm : LevelsMatch cfg p) (ho : OneSec p) {v k : Nat}
    (h : Drops cfg.consumed p v k) : (sls cfg p v).2 = .int k := by
  have hone : ∀ op ∈ p.ops, ∀ a ∈ op.args, op.kind.isMgmt = true → op.args = [a] := by
    intro op hop a ha hm
    obtain ⟨b, hb⟩ := List.length_eq_one_iff.1 ((hw.ssa.arity op hop).1 hm)
    rw [hb] at ha ⊢
    simp at ha
    rw [ha]
  have hdef : ∀ op ∈ p.ops, ∀ a ∈ op.args, a < p.nargs ∨ ∃ o ∈ p.ops, o.res = a := hw.ssa.args_def
  induction h with
  | arg v hv hs => rw [sls, run_of_not_res _ _ _ _ (hw.ssa.res_ne v hv), slEntry, factEntry, if_pos hv]
  | boot op a k hop ha h3 h4 =>
    have hd := Drops.boot (c := cfg.consumed) op a k hop ha h3 h4
    obtain ⟨m, _, hl⟩ := level_drops cfg hw hn hb (hdef op hop a ha) (reach_sec hw h3)
    rw [sls_lvl cfg hw hop (drops_sec hw hd), hone op hop a ha (by rw [h4]; rfl), h4]
    simp only [List.map_cons, List.map_nil, deriveLevel, List.headD_cons, hl, Level.reset]
    exact clamp_le (hb _ _ hd)
  | one op a k hop ha hk h4 ih =>
    have hd := Drops.one op a k hop ha hk h4
    rw [sls_lvl cfg hw hop (drops_sec hw hd), hone op hop a ha (by rw [h4]; rfl), h4]
    simp only [List.map_cons, List.map_nil, deriveLevel, List.headD_cons, ih, Level.reduce, Level.join]
    exact clamp_le (hb _ _ hd)
  | many op a k d hop ha hk h4 ih =>
    have hd := Drops.many op a k d hop ha hk h4
    rw [sls_lvl cfg hw hop (drops_sec hw hd), hone op hop a ha (by rw [h4]; rfl), h4]
    simp only [List.map_cons, List.map_nil, deriveLevel, List.headD_cons, ih, Level.reduce, Level.join]
    exact clamp_le (hb _ _ hd)
  | keep op a k hop ha hk h1 h2 h3 h4 ih =>
    have hd := Drops.keep op a k hop ha hk h1 h2 h3 h4
    have hs := drops_sec hw hd
    have hsa := drops_sec hw hk
    cases hmt : op.kind.matched with
    | true =>
      obtain ⟨m, _, hl⟩ := level_drops cfg hw hn hb (Or.inr ⟨op, hop, rfl⟩) hs
      have := hm op hop ((matched_iff _).2 hmt) (by rw [facts_sec]; exact hs)
        (by rw [facts_sl2, hl]; simp) a ha (by rw [facts_sec]; exact hsa)
      rw [facts_sl2, facts_sl2] at this
      rw [← this, ih]
    | false =>
      rw [sls_lvl cfg hw hop hs, deriveLevel_gen _ h1 h2 h3 h4, Level.foldl_eq (R := .int k)]
      · exact clamp_le (hb _ _ hd)
      · exact List.mem_map.2 ⟨a, ha, ih⟩
      · intro x hx
        obtain ⟨b, hbm, rfl⟩ := List.mem_map.1 hx
        cases hsb : secs p b with
        | true =>
          have hl := ho op hop hmt
          have e : b = a := by
            have m1 : b ∈ op.args.filter (secs p) := List.mem_filter.2 ⟨hbm, hsb⟩
            have m2 : a ∈ op.args.filter (secs p) := List.mem_filter.2 ⟨ha, hsa⟩
            match hq : op.args.filter (secs p), hl, m1, m2 with
            | [], _, m1, _ => simp at m1
            | [c], _, m1, m2 =>
              simp at m1 m2
              rw [m1, m2]
          rw [e, ih]
          exact Level.le_refl' _
        | false =>
          rcases (sls_inv cfg hw (hdef op hop b hbm)).2.1 (by rw [sls1]; exact hsb) with h | h <;> rw [h]
          · rfl
          · simp [Level.le]

/-! ## Nothing is reduced to the last level unless the program does so -/

theorem chain_kinds (ks : List Kind) : ∀ v n, ∀ o ∈ chain ks v n, o.kind ∈ ks := by
  induction ks with
  | nil => intro v n o ho; simp [chain] at ho
  | cons k ks ih =>
    intro v n o ho
    rw [chain] at ho
    rcases List.mem_cons.1 ho with rfl | ho
    · simp
    · simp [ih _ _ o ho]

theorem crossFold_noMin {ckks : Bool} {base : Nat} {t : Nat → Fact} {R : Level} (hR : R ≠ .maxLevel) (l : List Nat) :
    ∀ s s' : St, l.foldlM (crossStep ckks base t R) s = some s' → (∀ o ∈ s.pre, o.kind ≠ .levelReduceMin) →
      ∀ o ∈ s'.pre, o.kind ≠ .levelReduceMin := by
  induction l with
  | nil => intro s s' h hs; simp at h; subst h; exact hs
  | cons i l ih =>
    intro s s' h hs
    rw [List.foldlM_cons] at h
    cases hc : crossStep ckks base t R s i with
    | none => rw [hc] at h; simp at h
    | some s1 =>
      rw [hc] at h
      refine ih s1 s' h ?_
      rcases (crossStep_cases hc).2 with ⟨_, rfl⟩ | ⟨hm, ks, id', _, hk1, _, rfl⟩
      · exact hs
      · intro o ho
        rcases List.mem_append.1 ho with ho | ho
        · exact hs o ho
        · have hk := chain_kinds ks _ _ o ho
          generalize (t (s.args.getD i 0)).lvl = x at hm hk1
          cases R <;> cases x <;> simp [mism] at hm
          · rw [hk1 _ _ rfl rfl] at hk
            simp only [crossChain, List.mem_append, List.mem_singleton] at hk
            rcases hk with (hk | hk) | hk
            · split at hk <;> simp at hk; rw [hk]; simp
            · split at hk <;> simp at hk; rw [hk]; simp
            · rw [hk]; simp
          · exact absurd rfl hR

theorem join_noMax (ls : List Level) (h : ∀ x ∈ ls, x ≠ Level.maxLevel) :
    ls.foldl Level.join .uninit ≠ .maxLevel := by
  rcases (Level.foldl_spec ls .uninit).2.2 with e | e
  · rw [e]; simp
  · exact h _ e

theorem cross_noMin {ckks : Bool} {cfg : Cfg} {base : Nat} (ops : List Op) :
    ∀ (t : Nat → Fact) n i r, (∀ v, (t v).lvl ≠ .maxLevel) → (∀ op ∈ ops, op.kind ≠ .levelReduceMin) →
      before (crossOp ckks cfg base) t n i ops = some r → ∀ o ∈ r.2.2.2, o.kind ≠ .levelReduceMin := by
  induction ops with
  | nil =>
    intro t n i r _ _ h o ho
    simp only [before, Option.some.injEq] at h
    subst h
    simp at ho
  | cons op ops ih =>
    intro t n i r ht hk h o ho
    rw [before, Option.bind_eq_some_iff] at h
    obtain ⟨⟨t', s⟩, h1, h2⟩ := h
    simp only [Option.map_eq_some_iff] at h2
    obtain ⟨⟨t'', n', i', ops'⟩, h3, rfl⟩ := h2
    have hstep : (∀ o ∈ s.pre, o.kind ≠ .levelReduceMin) ∧ ∀ v, (t' v).lvl ≠ .maxLevel := by
      rw [crossOp] at h1
      split at h1
      · rename_i hc
        rw [Option.map_eq_some_iff] at h1
        obtain ⟨s1, hf, h1⟩ := h1
        have hpre := crossFold_noMin (ht op.res) _ _ _ hf (by simp)
        simp only [Bool.and_eq_true] at hc
        split at h1
        · simp only [Prod.mk.injEq] at h1
          obtain ⟨rfl, rfl⟩ := h1
          exact ⟨hpre, ht⟩
        · simp only [Prod.mk.injEq] at h1
          obtain ⟨rfl, rfl⟩ := h1
          refine ⟨hpre, fun v => ?_⟩
          by_cases hv : v = op.res
          · subst hv
            rw [upd_eq]
            simp only
            rw [deriveLevel_matched _ hc.1.1]
            apply join_noMax
            intro x hx
            obtain ⟨b, _, rfl⟩ := List.mem_map.1 hx
            exact ht b
          · rw [upd_ne _ _ hv]; exact ht v
      · simp only [Option.some.injEq, Prod.mk.injEq] at h1
        obtain ⟨rfl, rfl⟩ := h1
        exact ⟨by simp, ht⟩
    simp only [List.mem_append, List.mem_cons] at ho
    rcases ho with ho | rfl | ho
    · exact hstep.1 o ho
    · exact hk op (by simp)
    · exact ih t' _ _ _ hstep.2 (fun o ho => hk o (by simp [ho])) h3 o ho

theorem slStep_noMax (cfg : Cfg) (t : Nat → Bool × Level) (op : Op) (hk : op.kind ≠ .levelReduceMin)
    (h : ∀ a ∈ op.args, (t a).2 ≠ .maxLevel) : (slStep cfg t op).2 ≠ .maxLevel := by
  simp only [slStep]
  split
  · intro hc
    have : deriveLevel cfg.consumed op.kind (op.args.map fun a => (t a).2) = .maxLevel := by
      revert hc
      generalize deriveLevel cfg.consumed op.kind (op.args.map fun a => (t a).2) = x
      cases x <;> simp [clamp]
      intro h; split at h <;> simp at h
    revert this
    have hgen := join_noMax (op.args.map fun a => (t a).2) (by
      intro x hx
      obtain ⟨b, hb, rfl⟩ := List.mem_map.1 hx
      exact h b hb)
    unfold deriveLevel
    split
    · generalize (op.args.map fun a => (t a).2).headD .uninit = x
      cases x <;> simp [Level.reset]
    · exact absurd (by assumption) hk
    · generalize (op.args.map fun a => (t a).2).headD .uninit = x
      cases x <;> simp [Level.reduce, Level.join]
    · generalize (op.args.map fun a => (t a).2).headD .uninit = x
      cases x <;> simp [Level.reduce, Level.join]
    · exact hgen
  · simp

theorem facts_noMax (cfg : Cfg) {p : Prog} (hw : p.WF) (hn : ∀ op ∈ p.ops, op.kind ≠ .levelReduceMin) (v : Nat) :
    (facts cfg p v).lvl ≠ .maxLevel := by
  rw [facts_sl2]
  have key : ∀ (l : List Op) (t : Nat → Bool × Level), (∀ op ∈ l, op.kind ≠ .levelReduceMin) →
      (∀ v, (t v).2 ≠ .maxLevel) → ∀ v, (run (slStep cfg) l t v).2 ≠ .maxLevel := by
    intro l
    induction l with
    | nil => intro t _ h; exact h
    | cons op l ih =>
      intro t hk h
      rw [run]
      refine ih _ (fun o ho => hk o (by simp [ho])) fun u => ?_
      by_cases hu : u = op.res
      · subst hu
        rw [upd_eq]
        exact slStep_noMax cfg t op (hk op (by simp)) fun a _ => h a
      · rw [upd_ne _ _ hu]; exact h u
  refine key p.ops _ hn (fun u => ?_) v
  simp only [slEntry, factEntry]
  split <;> simp

/-- The kinds of operations before levels are matched. -/
theorem insertMgmtPre_noMin (o : Opts) (cfg : Cfg) {p : Prog} (hn : ∀ op ∈ p.ops, op.kind ≠ .levelReduceMin) :
    ∀ op ∈ (insertMgmtPre o cfg p).ops, op.kind ≠ .levelReduceMin := by
  have hafter : ∀ (k : Kind) (hit : Op → Bool) (q : Prog), k ≠ .levelReduceMin →
      (∀ op ∈ q.ops, op.kind ≠ .levelReduceMin) → ∀ op ∈ (afterProg k hit q).ops, op.kind ≠ .levelReduceMin := by
    intro k hit q hk h op hop
    rcases after_mem k hit q.ops q.next id (Nat.le_refl _) op hop with ⟨o, ho, e, _⟩ | ⟨e, _⟩
    · rw [e]; exact h o ho
    · rw [e]; exact hk
  have h0 : ∀ op ∈ (insertInit cfg p).ops, op.kind ≠ .levelReduceMin := by
    intro op hop
    rcases (insertInit_ins cfg p).ins.mem (Nat.le_refl _) op hop with ⟨o, ho, _, _, _, _, rfl, _⟩ | ⟨e, _⟩
    · exact hn o ho
    · rw [e]; simp
  rw [insertMgmtPre]
  refine hafter _ _ _ (by simp) ?_
  split
  · exact hafter _ _ _ (by simp) h0
  · intro op hop
    rw [modReduceBefore] at hop
    simp only [List.mem_append] at hop
    have hmo : ∀ (l : List Nat) (s : St), (∀ o ∈ s.pre, o.kind ≠ .levelReduceMin) →
        ∀ o ∈ (l.foldl modReduceStep s).pre, o.kind ≠ .levelReduceMin := by
      intro l
      induction l with
      | nil => intro s h; exact h
      | cons v l ih =>
        intro s h
        refine ih _ fun o ho => ?_
        simp only [modReduceStep, St.emit, chain, List.mem_append, List.mem_singleton] at ho
        rcases ho with ho | rfl
        · exact h o ho
        · simp
    have hops : ∀ (t : Nat → DFact) f (s : St) l, (∀ o ∈ s.pre, o.kind ≠ .levelReduceMin) →
        ∀ o ∈ (modReduceOperands t f s l).pre, o.kind ≠ .levelReduceMin := by
      intro t f s l h
      rw [modReduceOperands]
      split
      · exact h
      · split
        · exact h
        · exact hmo _ _ h
    rcases hop with hop | hop
    · have hb : ∀ (l : List Op) n i, (∀ op ∈ l, op.kind ≠ .levelReduceMin) →
          ∀ o ∈ (beforeT (modReduceMul (depths (insertInit cfg p)) (Opts.includeFirst ‹Opts›)) n i l).2.2,
            o.kind ≠ .levelReduceMin := by
        intro l
        induction l with
        | nil => intro n i _ o ho; simp [beforeT] at ho
        | cons x l ih =>
          intro n i hl o ho
          rw [beforeT] at ho
          simp only [List.mem_append, List.mem_cons] at ho
          rcases ho with ho | rfl | ho
          · rw [modReduceMul] at ho
            split at ho
            · exact hops _ _ _ _ (by simp) o ho
            · simp at ho
          · exact hl x (by simp)
          · exact ih _ _ (fun o ho => hl o (by simp [ho])) o ho
      exact hb _ _ _ h0 op hop
    · exact hops _ _ _ _ (by simp) op hop

theorem insertMgmt_noMin (o : Opts) (cfg : Cfg) {p q : Prog} (hw : p.WF)
    (hn : ∀ op ∈ p.ops, op.kind ≠ .levelReduceMin) (h : insertMgmt o cfg p = some q) :
    ∀ op ∈ q.ops, op.kind ≠ .levelReduceMin := by
  have h0 := (insertMgmtPre_wf o cfg hw).1
  have hn0 := insertMgmtPre_noMin o cfg hn
  rw [insertMgmt_eq, Option.bind_eq_some_iff] at h
  obtain ⟨⟨q1, i⟩, h2, h3⟩ := h
  have hn1 : ∀ op ∈ q1.ops, op.kind ≠ .levelReduceMin := by
    have h2' := h2
    rw [crossLevel, Option.map_eq_some_iff] at h2'
    obtain ⟨r, e1, e2⟩ := h2'
    simp only [Prod.mk.injEq] at e2
    obtain ⟨rfl, _⟩ := e2
    exact cross_noMin _ _ _ _ _ (facts_noMax cfg h0 hn0) hn0 e1
  simp only at h3
  split at h3
  · simp only [Option.some.injEq] at h3
    subst h3
    exact hn1
  · have hw1 := (crossLevel_ins h2).wf crossKind_mgmt h0
    intro op hop
    rcases (crossDepth_ins cfg hw1 h3).ins.mem (Nat.le_refl _) op hop with ⟨o, ho, _, _, _, _, rfl, _⟩ | ⟨⟨_, e⟩, _⟩
    · exact hn1 o ho
    · rw [e]; simp

theorem insertMgmt_same (o : Opts) (cfg : Cfg) {p q : Prog} (hw : p.WF) (h : insertMgmt o cfg p = some q) :
    SameOps p q := by
  have h0 := (insertMgmtPre_wf o cfg hw).1
  rw [insertMgmt_eq, Option.bind_eq_some_iff] at h
  obtain ⟨⟨q1, i⟩, h2, h3⟩ := h
  have hs := (insertMgmtPre_same o cfg hw).trans ((crossLevel_ins h2).same crossKind_mgmt h0)
  simp only at h3
  split at h3
  · simp only [Option.some.injEq] at h3
    subst h3
    exact hs
  · have hw1 := (crossLevel_ins h2).wf crossKind_mgmt h0
    exact hs.trans ((crossDepth_ins cfg hw1 h3).same (by rintro k ⟨i, rfl⟩; rfl) hw1)

/-! ## Components -/

theorem sds_res {p : Prog} (hw : p.WF) {op : Op} (h : op ∈ p.ops) : sds p op.res = sdStep (sds p) op := by
  obtain ⟨t', _, h1, h2⟩ := final_of_allSteps sdStep (fun _ _ => True) p.ops _ (sdEntry p) hw.ssa
    (allSteps_true _ _ _) op h
  rw [sds, ← h2]
  have e1 : (op.args.any fun a => (t' a).1) = op.args.any fun a => (run sdStep p.ops (sdEntry p) a).1 :=
    any_congr_mem fun a ha => by rw [h1 a ha]
  have e2 : (op.args.filter fun a => (t' a).1) = op.args.filter fun a => (run sdStep p.ops (sdEntry p) a).1 :=
    List.filter_congr fun a ha => by rw [h1 a ha]
  have e3 : ((op.args.filter fun a => (run sdStep p.ops (sdEntry p) a).1).map fun a => (t' a).2) =
      (op.args.filter fun a => (run sdStep p.ops (sdEntry p) a).1).map
        fun a => (run sdStep p.ops (sdEntry p) a).2 :=
    List.map_congr_left fun a ha => by rw [h1 a (List.mem_filter.1 ha).1]
  simp only [sdStep, e1, e2, e3]

theorem sds1 (p : Prog) (v : Nat) : (sds p v).1 = secs p v := by
  rw [← facts_sd1 ⟨0, 0⟩, facts_sec]

/-- With relinearized products the dimension counts the components along every path. -/
theorem comps_dim (cfg : Cfg) {p : Prog} (hw : p.WF) (hl : Linear cfg p) {v d : Nat} (h : Comps p v d) :
    (sds p v).2 = some d := by
  have hstep : ∀ op ∈ p.ops, secs p op.res = true → op.kind ≠ .relinearize → (sds p op.res).2 =
      deriveDim (op.kind = .mul) ((op.args.filter fun a => secs p a).map fun a => (sds p a).2) := by
    intro op hop hs hk
    rw [sds_res hw hop]
    have : (op.args.any fun a => (sds p a).1) = true := by
      simp only [sds1]; rw [← secs_res hw hop]; exact hs
    simp only [sdStep]
    rw [if_neg hk, if_pos this]
    simp only [sds1]
  have hplain : ∀ op ∈ p.ops, ∀ b ∈ op.args, (∀ k, ¬ Reach p b k) → secs p b = false := by
    intro op hop b hb h
    cases hs : secs p b with
    | false => rfl
    | true =>
      obtain ⟨k, hk⟩ := (sec_reach hw (hw.ssa.args_def op hop b hb)).1 hs
      exact absurd hk (h k)
  induction h with
  | arg v hv hs =>
    rw [sds, run_of_not_res _ _ _ _ (hw.ssa.res_ne v hv), sdEntry, factEntry, if_pos hv]
    simp [hs]
  | relin op a d hop ha h hk ih =>
    rw [sds_res hw hop]
    simp only [sdStep]
    rw [if_pos hk]
  | mul op a b d e hop hk ha h1 h2 ih1 ih2 =>
    have hs := comps_sec hw (Comps.mul op a b d e hop hk ha h1 h2)
    rw [hstep op hop hs (by rw [hk]; simp), hk, ha]
    simp [comps_sec hw h1, comps_sec hw h2, ih1, ih2, deriveDim]
  | mulPlain op a b d hop hk ha h1 h2 ih =>
    have hs := comps_sec hw (Comps.mulPlain op a b d hop hk ha h1 h2)
    have hp := hplain op hop b (by rw [ha]; simp) h2
    rw [hstep op hop hs (by rw [hk]; simp), hk, ha]
    simp [comps_sec hw h1, hp, ih, deriveDim]
  | plainMul op a b d hop hk ha h1 h2 ih =>
    have hs := comps_sec hw (Comps.plainMul op a b d hop hk ha h1 h2)
    have hp := hplain op hop b (by rw [ha]; simp) h2
    rw [hstep op hop hs (by rw [hk]; simp), hk, ha]
    simp [comps_sec hw h1, hp, ih, deriveDim]
  | keep op a d hop ha h hk1 hk2 ih =>
    have hs := comps_sec hw (Comps.keep op a d hop ha h hk1 hk2)
    have htwo : ∀ b ∈ op.args, secs p b = true → (sds p b).2 = some 2 := by
      intro b hb hsb
      have := hl.1 op hop hk1 b hb (by rw [facts_sec]; exact hsb)
      rwa [facts_sd2] at this
    rw [hstep op hop hs hk1]
    have : decide (op.kind = .mul) = false := by simp [hk2]
    rw [this, deriveDim_two]
    · have := htwo a ha (comps_sec hw h)
      rw [ih] at this
      exact this.symm
    · intro x hx
      obtain ⟨b, hb, rfl⟩ := List.mem_map.1 hx
      rw [List.mem_filter] at hb
      exact htwo b hb.1 hb.2

theorem linear_comps (cfg : Cfg) {p : Prog} (hw : p.WF) (hl : Linear cfg p) :
    (∀ op ∈ p.ops, op.kind ≠ .relinearize → ∀ a ∈ op.args, ∀ d, Comps p a d → d = 2) ∧
      ∀ y ∈ p.yields, ∀ d, Comps p y d → d = 2 := by
  constructor
  · intro op hop hk a ha d hd
    have := hl.1 op hop hk a ha (by rw [facts_sec]; exact comps_sec hw hd)
    rw [facts_sd2, comps_dim cfg hw hl hd] at this
    exact Option.some.inj this
  · intro y hy d hd
    have := hl.2 y hy (by rw [facts_sec]; exact comps_sec hw hd)
    rw [facts_sd2, comps_dim cfg hw hl hd] at this
    exact Option.some.inj this

end Heir.Mgmt
