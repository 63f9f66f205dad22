import Verif.Mgmt.Cross
import Verif.Mgmt.Apart
import Mathlib.Data.List.Nodup
import Mathlib.Data.List.Perm.Subperm

/-! # The walk matching levels -/

namespace Heir.Mgmt

theorem facts_fresh (cfg : Cfg) {p : Prog} (hw : p.WF) {v : Nat} (h : p.next ≤ v) : facts cfg p v = {} := by
  rw [facts, run_of_not_res, factEntry, if_neg (by have := hw.nargs; omega)]
  intro o ho
  have := (hw.ids o ho).1
  omega

theorem args_eq_map (l : List Nat) : l = (List.range l.length).map fun j => l.getD j 0 := by
  apply List.ext_getElem
  · simp
  · intro j h1 h2
    simp [List.getElem?_eq_getElem h1]

theorem secretPos_length (t : Nat → Fact) (args : List Nat) :
    (secretPos t args).length = (args.filter fun a => (t a).sec).length := by
  conv_rhs => rw [args_eq_map args]
  rw [List.filter_map, List.length_map, secretPos]
  rfl

theorem secretPos_nodup (t : Nat → Fact) (args : List Nat) : (secretPos t args).Nodup :=
  List.Nodup.filter _ List.nodup_range

theorem crossFold_same {ckks : Bool} {base : Nat} {t : Nat → Fact} {R : Level} (l : List Nat)
    (hR : ∀ x, mism R x = false) : ∀ s s' : St, l.foldlM (crossStep ckks base t R) s = some s' → s' = s := by
  induction l with
  | nil => intro s s' h; simp at h; exact h.symm
  | cons i l ih =>
    intro s s' h
    rw [List.foldlM_cons] at h
    cases hc : crossStep ckks base t R s i with
    | none => rw [hc] at h; simp at h
    | some s1 =>
      rw [hc] at h
      rcases (crossStep_cases hc).2 with ⟨_, h1⟩ | ⟨h1, _⟩
      · rw [ih s1 s' h, h1]
      · rw [hR] at h1; exact absurd h1 (by simp)

theorem deriveLevel_matched (c : Nat) {k : Kind} (h : k.matched = true) (ls : List Level) :
    deriveLevel c k ls = ls.foldl Level.join .uninit := by
  cases k <;> simp [Kind.matched] at h <;> rfl

/-- The level of the result of a matched operation. -/
theorem res_level (cfg : Cfg) {p : Prog} (hw : p.WF) {op : Op} (hop : op ∈ p.ops) (hm : op.kind.matched = true)
    (hs : (facts cfg p op.res).sec = true) : (facts cfg p op.res).lvl =
      clamp cfg.budget ((op.args.map fun a => (facts cfg p a).lvl).foldl Level.join .uninit) := by
  have h := sls_res cfg hw hop
  have h1 : (slStep cfg (sls cfg p) op).1 = true := by rw [← h, ← facts_sl1]; exact hs
  have h1' : (op.args.any fun a => (sls cfg p a).1) = true := h1
  rw [facts_sl2, h]
  simp only [slStep, h1', or_true, if_true, deriveLevel_matched _ hm, facts_sl2]

theorem defined_inv (cfg : Cfg) {p : Prog} (hw : p.WF) {op : Op} (hop : op ∈ p.ops) {a : Nat} (ha : a ∈ op.args) :
    LevInv cfg (sls cfg p a) := sls_inv cfg hw (hw.ssa.args_def op hop a ha)

/-- One operation of the walk. -/
theorem crossOp_sem {ckks : Bool} (cfg : Cfg) {p : Prog} (hw : p.WF) {op : Op} (hop : op ∈ p.ops) {n i : Nat}
    (hn : p.next ≤ n) {cur : Nat → Bool × Level} (hcur : ∀ a ∈ op.args, cur a = sls cfg p a)
    {t' : Nat → Fact} {s' : St}
    (h : crossOp ckks cfg p.next (facts cfg p) ⟨n, i, [], op.args⟩ op = some (t', s')) :
    t' = facts cfg p ∧
      slStep cfg (run (slStep cfg) s'.pre cur) { op with args := s'.args } = sls cfg p op.res ∧
      LevPost cfg (run (slStep cfg) s'.pre cur) { op with args := s'.args } := by
  have hab := (hw.ids op hop).2
  have hcur' : ∀ a ∈ op.args, cur a = ((facts cfg p a).sec, (facts cfg p a).lvl) := fun a ha => by
    rw [hcur a ha, facts_sl]
  have hres := sls_res cfg hw hop
  have hsame : slStep cfg cur op = sls cfg p op.res := by
    rw [hres]; exact slStep_congr cfg hcur
  have hinvr : LevInv cfg (sls cfg p op.res) := sls_inv cfg hw (Or.inr ⟨op, hop, rfl⟩)
  rw [crossOp] at h
  split at h
  · rename_i hc
    simp only [Bool.and_eq_true, bne_iff_ne, ne_eq] at hc
    obtain ⟨⟨hm, hs⟩, hu⟩ := hc
    have hlvl := res_level cfg hw hop hm hs
    rw [Option.map_eq_some_iff] at h
    obtain ⟨s1, h1, h2⟩ := h
    have hRfit : Fits cfg.budget (facts cfg p op.res).lvl := by rw [facts_sl2]; exact hinvr.2.2
    have hsls : sls cfg p op.res = (true, (facts cfg p op.res).lvl) := by rw [← facts_sl, hs]
    generalize hR : (facts cfg p op.res).lvl = R at *
    by_cases hinv : R = .invalid
    · have e := crossFold_same _ (fun x => by rw [hinv]; cases x <;> rfl) _ _ h1
      subst e
      simp only [List.isEmpty_nil, if_true, Prod.mk.injEq] at h2
      obtain ⟨rfl, rfl⟩ := h2
      refine ⟨rfl, hsame, ?_⟩
      intro _ _ hni
      exact absurd (by
        show (slStep cfg cur op).2 = .invalid
        rw [hsame, hsls, hinv]) hni
    · -- the level is the join of the levels of the operands
      have hjoin : (op.args.map fun a => (facts cfg p a).lvl).foldl Level.join .uninit = R := by
        rw [hlvl]; exact (clamp_eq (by rw [← hlvl]; exact hinv)).symm
      obtain ⟨_, f2, f3⟩ := Level.foldl_spec (op.args.map fun a => (facts cfg p a).lvl) .uninit
      rw [hjoin] at f2 f3
      have hmem : R ∈ op.args.map fun a => (facts cfg p a).lvl := f3.resolve_left hu
      have hle : ∀ a ∈ op.args, (facts cfg p a).lvl.le R = true := fun a ha =>
        f2 _ (List.mem_map.2 ⟨a, ha, rfl⟩)
      have hci := crossFold_inv hn hab hcur' hRfit (secretPos (facts cfg p) op.args) (fun _ h => h)
        (fun _ => False) _ _ ⟨Ext.start i, fun j _ => Or.inl ⟨rfl, fun h => h.elim⟩⟩ h1
      have hlen := hci.ext.len
      -- what is found at the new operands
      have hlow : ∀ v < n, run (slStep cfg) s1.pre cur v = cur v := by
        intro v hv
        apply run_of_not_res
        intro o ho
        have := (hci.ext.pre_mem o ho).1
        omega
      have hval : ∀ j < op.args.length,
          (run (slStep cfg) s1.pre cur (s1.args.getD j 0)).1 = (facts cfg p (op.args.getD j 0)).sec ∧
          ((run (slStep cfg) s1.pre cur (s1.args.getD j 0)).2 = (facts cfg p (op.args.getD j 0)).lvl ∧
              s1.args.getD j 0 = op.args.getD j 0 ∧
              ((facts cfg p (op.args.getD j 0)).sec = true → (facts cfg p (op.args.getD j 0)).lvl = R) ∨
            (run (slStep cfg) s1.pre cur (s1.args.getD j 0)).2 = R ∧ n ≤ s1.args.getD j 0 ∧
              (facts cfg p (op.args.getD j 0)).lvl ≠ R) := by
        intro j hj
        have hja := getD_mem hj
        rcases hci.val j hj with ⟨e1, e2⟩ | ⟨e1, e2, e3, e4⟩
        · rw [e1, hlow _ (by have := hab _ hja; omega), hcur' _ hja]
          refine ⟨rfl, Or.inl ⟨rfl, rfl, fun hsec => ?_⟩⟩
          refine eq_of_not_mism (e2 (Or.inr ?_)) (hle _ hja) hinv ?_
          · simp only [secretPos, List.mem_filter, List.mem_range]; exact ⟨hj, hsec⟩
          · rw [facts_sl2]
            exact (defined_inv cfg hw hop hja).1 (by rw [← facts_sl1]; exact hsec)
        · rw [e4]
          exact ⟨e2.symm, Or.inr ⟨rfl, e1, (mism_le e3).2.2⟩⟩
      obtain ⟨b, hb, hbR⟩ := List.mem_map.1 hmem
      obtain ⟨j0, hj0, hj0e⟩ := List.mem_iff_getElem.1 hb
      have hj0' : op.args.getD j0 0 = b := by rw [List.getD_eq_getElem _ _ hj0, hj0e]
      -- the states of the new operands in the old analysis
      have hnew : deriveLevel cfg.consumed op.kind (s1.args.map fun a => (facts cfg p a).lvl) = R := by
        rw [deriveLevel_matched _ hm]
        apply Level.foldl_eq
        · refine List.mem_map.2 ⟨s1.args.getD j0 0, getD_mem (by omega), ?_⟩
          rcases (hval j0 hj0).2 with ⟨_, e, _⟩ | ⟨_, _, e⟩
          · rw [e, hj0', hbR]
          · rw [hj0'] at e; exact absurd hbR e
        · intro x hx
          obtain ⟨c, hc, rfl⟩ := List.mem_map.1 hx
          obtain ⟨j, hj, rfl⟩ := List.mem_iff_getElem.1 hc
          have hjl : j < op.args.length := by omega
          rw [← List.getD_eq_getElem _ 0 hj]
          rcases (hval j hjl).2 with ⟨_, e, _⟩ | ⟨_, e, _⟩
          · rw [e]; exact hle _ (getD_mem hjl)
          · rw [facts_fresh cfg hw (Nat.le_trans hn e)]; rfl
      have hany : (s1.args.any fun a => (run (slStep cfg) s1.pre cur a).1) = true := by
        rw [any_congr_getD (fun a => (facts cfg p a).sec) _ hlen fun j hj => ((hval j hj).1).symm]
        have : (slStep cfg (sls cfg p) op).1 = true := by rw [← hres, hsls]
        have h' : (op.args.any fun a => (sls cfg p a).1) = true := this
        simpa only [facts_sl1] using h'
      have hnew' : (s1.args.map fun a => (run (slStep cfg) s1.pre cur a).2).foldl Level.join .uninit = R := by
        apply Level.foldl_eq
        · refine List.mem_map.2 ⟨s1.args.getD j0 0, getD_mem (by omega), ?_⟩
          rcases (hval j0 hj0).2 with ⟨e, _, _⟩ | ⟨e, _, _⟩
          · rw [e, hj0', hbR]
          · exact e
        · intro x hx
          obtain ⟨c, hc, rfl⟩ := List.mem_map.1 hx
          obtain ⟨j, hj, rfl⟩ := List.mem_iff_getElem.1 hc
          have hjl : j < op.args.length := by omega
          rw [← List.getD_eq_getElem _ 0 hj]
          rcases (hval j hjl).2 with ⟨e, _, _⟩ | ⟨e, _, _⟩
          · rw [e]; exact hle _ (getD_mem hjl)
          · rw [e]; exact R.le_refl'
      have hstep : slStep cfg (run (slStep cfg) s1.pre cur) { op with args := s1.args } = (true, R) := by
        simp only [slStep, hany, or_true, if_true, deriveLevel_matched _ hm, hnew']
        rw [show clamp cfg.budget R = R from hRfit]
      have hlast : t' = facts cfg p ∧ s1 = s' := by
        split at h2
        · simp only [Prod.mk.injEq] at h2
          exact ⟨h2.1.symm, h2.2⟩
        · simp only [Prod.mk.injEq] at h2
          refine ⟨?_, h2.2⟩
          rw [← h2.1, hnew]
          funext v
          by_cases hv : v = op.res
          · subst hv
            rw [upd_eq, ← hR]
          · rw [upd_ne _ _ hv]
      obtain ⟨rfl, rfl⟩ := hlast
      refine ⟨rfl, by rw [hstep, hsls], ?_⟩
      intro _ _ _ a ha hsa
      rw [hstep]
      obtain ⟨j, hj, rfl⟩ := List.mem_iff_getElem.1 ha
      simp only at hj
      have hjl : j < op.args.length := by omega
      rw [← List.getD_eq_getElem _ 0 hj] at hsa ⊢
      obtain ⟨e1, e2⟩ := hval j hjl
      rcases e2 with ⟨e, _, e3⟩ | ⟨e, _, _⟩
      · rw [e]; exact e3 (by rw [← e1]; exact hsa)
      · exact e
  · rename_i hc
    injection h with h
    injection h with h1 h2
    subst h1 h2
    refine ⟨rfl, hsame, ?_⟩
    intro hm hs
    exfalso
    apply hc
    have hs' : (sls cfg p op.res).1 = true := by rw [← hsame]; exact hs
    simp only [Bool.and_eq_true, bne_iff_ne, ne_eq, facts_sl1, facts_sl2]
    exact ⟨⟨hm, hs'⟩, hinvr.1 hs'⟩

/-- The walk over the operations never looks up a missing state. -/
theorem crossOp_some {ckks : Bool} (cfg : Cfg) {p : Prog} (hw : p.WF) {op : Op} (hop : op ∈ p.ops) {n i : Nat}
    (hn : p.next ≤ n) (h2 : (op.args.filter fun a => (facts cfg p a).sec).length ≤ 2 ∨ op.kind.matched = false) :
    ∃ r, crossOp ckks cfg p.next (facts cfg p) ⟨n, i, [], op.args⟩ op = some r := by
  have hab := (hw.ids op hop).2
  have hinvr : LevInv cfg (sls cfg p op.res) := sls_inv cfg hw (Or.inr ⟨op, hop, rfl⟩)
  rw [crossOp]
  split
  · rename_i hc
    simp only [Bool.and_eq_true, bne_iff_ne, ne_eq] at hc
    obtain ⟨⟨hm, hs⟩, hu⟩ := hc
    have h2' := h2.resolve_right (by rw [hm]; simp)
    rw [← secretPos_length] at h2'
    have hlvl := res_level cfg hw hop hm hs
    have hRfit : Fits cfg.budget (facts cfg p op.res).lvl := by rw [facts_sl2]; exact hinvr.2.2
    obtain ⟨s', hs'⟩ := crossFold_some (ckks := ckks) (cur := sls cfg p) hn hab
      (fun a _ => (facts_sl cfg p a).symm) hRfit (secretPos (facts cfg p) op.args) (fun _ h => h) ⟨n, i, [], op.args⟩
      (fun _ => False) ⟨Ext.start i, fun j _ => Or.inl ⟨rfl, fun h => h.elim⟩⟩
      (by
        intro a ha b hb hbl hmis heq
        by_contra hne
        have hb' := hb.resolve_left id
        have hboth : ∀ j ∈ secretPos (facts cfg p) op.args, j = a ∨ j = b := by
          intro j hj
          by_contra hc
          rw [not_or] at hc
          have hnd : [a, b, j].Nodup := by
            simp only [List.nodup_cons, List.mem_cons, List.not_mem_nil, or_false, not_or, not_false_eq_true,
              List.nodup_nil, and_true]
            exact ⟨⟨hne, fun h => hc.1 h.symm⟩, fun h => hc.2 h.symm⟩
          have hsub : [a, b, j] ⊆ secretPos (facts cfg p) op.args := by
            intro x hx
            simp at hx
            rcases hx with rfl | rfl | rfl <;> assumption
          have := (hnd.subperm hsub).length_le
          simp at this
          omega
        obtain ⟨m1, m2, m3⟩ := mism_le hmis
        have hjoin : (op.args.map fun a => (facts cfg p a).lvl).foldl Level.join .uninit = (facts cfg p op.res).lvl := by
          rw [hlvl]; exact (clamp_eq (by rw [← hlvl]; exact m2)).symm
        obtain ⟨_, _, f3⟩ := Level.foldl_spec (op.args.map fun a => (facts cfg p a).lvl) .uninit
        rw [hjoin] at f3
        obtain ⟨c, hc, hcR⟩ := List.mem_map.1 (f3.resolve_left hu)
        obtain ⟨j, hj, hje⟩ := List.mem_iff_getElem.1 hc
        have hje' : op.args.getD j 0 = c := by rw [List.getD_eq_getElem _ _ hj, hje]
        cases hsc : (facts cfg p c).sec with
        | true =>
          have hjs : j ∈ secretPos (facts cfg p) op.args := by
            simp only [secretPos, List.mem_filter, List.mem_range]
            exact ⟨hj, by rw [hje']; exact hsc⟩
          apply m3
          rcases hboth j hjs with rfl | rfl
          · rw [hje', hcR]
          · rw [heq, hje', hcR]
        | false =>
          have := (defined_inv cfg hw hop hc).2.1 (by rw [← facts_sl1]; exact hsc)
          rw [← facts_sl2, hcR] at this
          rcases this with h | h
          · exact hu h
          · rw [h] at hmis
            generalize (facts cfg p (op.args.getD a 0)).lvl = l at hmis
            cases l <;> simp [mism] at hmis)
      (secretPos_nodup _ _) (fun _ _ h => h) (fun j _ => Or.inl rfl)
    rw [hs']
    exact ⟨_, rfl⟩
  · exact ⟨_, rfl⟩

theorem cross_walk {ckks : Bool} (cfg : Cfg) {p : Prog} (hw : p.WF) (ops : List Op) :
    ∀ (P : Nat → Prop) (n i : Nat) (cur : Nat → Bool × Level) r, p.next ≤ n → SSA p.next P ops →
      (∀ v, P v → v < p.next) → (∀ o ∈ ops, o ∈ p.ops) → (∀ v, P v → cur v = sls cfg p v) →
      before (crossOp ckks cfg p.next) (facts cfg p) n i ops = some r →
      AllSteps (slStep cfg) (LevPost cfg) r.2.2.2 cur ∧
        ∀ v, (P v ∨ ∃ o ∈ ops, o.res = v) → run (slStep cfg) r.2.2.2 cur v = sls cfg p v := by
  induction ops with
  | nil =>
    intro P n i cur r _ _ _ _ hcur h
    simp only [before, Option.some.injEq] at h
    subst h
    refine ⟨trivial, ?_⟩
    rintro v (hv | ⟨o, ho, _⟩)
    · exact hcur v hv
    · simp at ho
  | cons op ops ih =>
    intro P n i cur r hn hs hP hsub hcur h
    obtain ⟨g1, g2, g3, g4, g5, g6⟩ := hs
    rw [before, Option.bind_eq_some_iff] at h
    obtain ⟨⟨t1, s⟩, h1, h2⟩ := h
    rw [Option.map_eq_some_iff] at h2
    obtain ⟨⟨t2, n2, i2, o2⟩, h3, rfl⟩ := h2
    obtain ⟨e1, e2, e3⟩ := crossOp_sem cfg hw (hsub op (by simp)) hn (fun a ha => hcur a (g1 a ha)) h1
    obtain ⟨hext, _, _⟩ := crossOp_ext hn h1
    subst e1
    simp only
    rw [allSteps_append]
    have hrec := ih (fun v => P v ∨ v = op.res) _ _ (upd (run (slStep cfg) s.pre cur) op.res
        (slStep cfg (run (slStep cfg) s.pre cur) { op with args := s.args })) _
      (Nat.le_trans hn hext.le) g6
      (by
        rintro v (h | rfl)
        · exact hP v h
        · exact g3)
      (fun o ho => hsub o (by simp [ho]))
      (by
        intro v hv
        by_cases hvr : v = op.res
        · subst hvr; rw [upd_eq, e2]
        · have hPv := hv.resolve_right hvr
          rw [upd_ne _ _ hvr, run_of_not_res, hcur v hPv]
          intro o ho
          have := (hext.pre_mem o ho).1
          have := hP v hPv
          omega) h3
    refine ⟨⟨?_, e3, hrec.1⟩, ?_⟩
    · -- the inserted operations are not matched
      have : ∀ (l : List Op) (t : Nat → Bool × Level), (∀ o ∈ l, CrossKind o.kind) →
          AllSteps (slStep cfg) (LevPost cfg) l t := by
        intro l
        induction l with
        | nil => intros; trivial
        | cons o l ih' =>
          intro t hl
          refine ⟨?_, ih' _ fun o ho => hl o (by simp [ho])⟩
          intro hm
          exfalso
          rcases hl o (by simp) with h | h | ⟨_, h⟩ | ⟨_, h⟩ <;> rw [h] at hm <;> simp [Kind.matched] at hm
      exact this _ _ fun o ho => (hext.pre_mem o ho).2.2.1
    · intro v hv
      rw [run_append]
      refine hrec.2 v ?_
      rcases hv with h | ⟨o, ho, h⟩
      · exact Or.inl (Or.inl h)
      · rcases List.mem_cons.1 ho with rfl | ho
        · exact Or.inl (Or.inr h.symm)
        · exact Or.inr ⟨o, ho, h⟩

theorem crossLevel_match {ckks : Bool} (cfg : Cfg) {p q : Prog} {i : Nat} (hw : p.WF)
    (h : crossLevel ckks cfg p = some (q, i)) : LevelsMatch cfg q ∧
      ∀ v, (v < p.nargs ∨ ∃ o ∈ p.ops, o.res = v) → sls cfg q v = sls cfg p v := by
  have hwq := (crossLevel_ins h).wf crossKind_mgmt hw
  rw [levels_iff cfg hwq]
  rw [crossLevel, Option.map_eq_some_iff] at h
  obtain ⟨r, h1, h2⟩ := h
  injection h2 with h2 _
  subst h2
  refine cross_walk cfg hw p.ops (· < p.nargs) p.next 0 _ r (Nat.le_refl _) hw.ssa
    (fun v hv => Nat.lt_of_lt_of_le hv hw.nargs) (fun _ h => h) ?_ h1
  intro v hv
  rw [sls, run_of_not_res _ _ _ _ (hw.ssa.res_ne v hv)]
  rfl

theorem cross_some {ckks : Bool} (cfg : Cfg) {p : Prog} (hw : p.WF)
    (h2 : ∀ op ∈ p.ops, (op.args.filter fun a => (facts cfg p a).sec).length ≤ 2 ∨ op.kind.matched = false) :
    ∃ r, crossLevel ckks cfg p = some r := by
  have key : ∀ (ops : List Op) (P : Nat → Prop) (n i : Nat), p.next ≤ n → (∀ o ∈ ops, o ∈ p.ops) →
      SSA p.next P ops → (∀ v, P v → v < p.next) →
      ∃ r, before (crossOp ckks cfg p.next) (facts cfg p) n i ops = some r := by
    intro ops
    induction ops with
    | nil => intro P n i _ _ _ _; exact ⟨_, rfl⟩
    | cons op ops ih =>
      intro P n i hn hsub hs hP
      obtain ⟨⟨t1, s⟩, h1⟩ := crossOp_some (ckks := ckks) (i := i) cfg hw (hsub op (by simp)) hn (h2 op (hsub op (by simp)))
      obtain ⟨e1, _, _⟩ := crossOp_sem cfg hw (hsub op (by simp)) hn (cur := sls cfg p) (fun _ _ => rfl) h1
      obtain ⟨hext, _, _⟩ := crossOp_ext hn h1
      subst e1
      obtain ⟨r, hr⟩ := ih (fun v => P v ∨ v = op.res) s.next s.id (Nat.le_trans hn hext.le)
        (fun o ho => hsub o (by simp [ho])) hs.2.2.2.2.2 (by
          rintro v (h | rfl)
          · exact hP v h
          · exact hs.2.2.1)
      exact ⟨_, by rw [before, h1, Option.bind_some]; simp only; rw [hr]; rfl⟩
  obtain ⟨r, hr⟩ := key p.ops (· < p.nargs) p.next 0 (Nat.le_refl _) (fun _ h => h) hw.ssa
    (fun v hv => Nat.lt_of_lt_of_le hv hw.nargs)
  exact ⟨_, by rw [crossLevel, hr]; rfl⟩

end Heir.Mgmt
