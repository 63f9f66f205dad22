import Verif.Mgmt.After

/-! # The whole insertion keeps the values -/

namespace Heir.Mgmt

theorem Ext.imp {K K' : Kind → Prop} {S S' : Nat → Prop} {op n s} (h : Ext K S op n s)
    (hK : ∀ k, K k → K' k) (hS : ∀ a ∈ op.args, S a → S' a) : Ext K' S' op n s := by
  induction h with
  | start i => exact Ext.start i
  | step s s' ks j u _ h1 h2 h3 h4 h5 h6 h7 h8 ih =>
    refine Ext.step s s' ks j u ih (fun k hk => hK k (h1 k hk)) h2 (hS _ (getD_mem h2) h3) h4 h5 h6 h7 ?_
    intro i hi
    exact (h8 i hi).imp_right fun x => ⟨x.1, x.2.1, hS _ (getD_mem hi) x.2.2⟩

theorem map_congr_getD {β : Type} {l l' : List Nat} (f g : Nat → β) (hl : l'.length = l.length)
    (h : ∀ j < l.length, f (l.getD j 0) = g (l'.getD j 0)) : l'.map g = l.map f := by
  apply List.ext_getElem
  · simp [hl]
  · intro j h1 h2
    simp only [List.length_map] at h1 h2
    have := h j h2
    rw [List.getD_eq_getElem _ _ h2, List.getD_eq_getElem _ _ h1] at this
    simp [this]

theorem any_congr_getD {l l' : List Nat} (f g : Nat → Bool) (hl : l'.length = l.length)
    (h : ∀ j < l.length, f (l.getD j 0) = g (l'.getD j 0)) : l'.any g = l.any f := by
  have := map_congr_getD f g hl h
  have h1 : l'.any g = (l'.map g).any id := by simp
  have h2 : l.any f = (l.map f).any id := by simp
  rw [h1, h2, this]

/-- The secretness of the values after the operations inserted at one operation. -/
theorem depth_sec {K S op n s} (h : Ext K S op n s) (ha : ∀ a ∈ op.args, a < n) (t : Nat → DFact) :
    (∀ v < n, (run depthStep s.pre t v).sec = (t v).sec) ∧
      (depthStep (run depthStep s.pre t) { op with args := s.args }).sec = op.args.any fun a => (t a).sec := by
  obtain ⟨k1, k2, _⟩ := h.run ha depthStep (fun x y => x.sec = y.sec) (fun _ _ => True) t
    (fun _ _ => rfl) (fun k _ a _ _ t' u r hq => by simpa [depthStep] using hq)
    (fun _ _ _ _ _ _ _ _ _ => trivial)
  refine ⟨fun v hv => by rw [k1 v hv], ?_⟩
  simp only [depthStep]
  exact any_congr_getD (fun a => (t a).sec) _ h.len k2

theorem crossDepth_ins' (cfg : Cfg) {base : Nat} (ops : List Op) :
    ∀ (P : Nat → Prop) (n i : Nat) (t : Nat → DFact) (cur : Nat → Fact) t' n' i' ops',
      base ≤ n → SSA base P ops → (∀ v, P v → v < base) → (∀ v < base, (t v).sec = (cur v).sec) →
      before depthOp t n i ops = some (t', n', i', ops') →
      Ins (fun k => ∃ i, k = .adjustScale i) (fun a => (run (factStep cfg) ops cur a).sec = true) n ops n' ops' := by
  induction ops with
  | nil =>
    intro P n i t cur t' n' i' ops' _ _ _ _ h
    simp only [before, Option.some.injEq, Prod.mk.injEq] at h
    obtain ⟨_, rfl, _, rfl⟩ := h
    exact Ins.nil n
  | cons op ops ih =>
    intro P n i t cur t' n' i' ops' hn hs hP htc h
    obtain ⟨g1, g2, g3, g4, g5, g6⟩ := hs
    rw [before, Option.bind_eq_some_iff] at h
    obtain ⟨⟨t1, s⟩, h1, h2⟩ := h
    rw [Option.map_eq_some_iff] at h2
    obtain ⟨⟨t2, n2, i2, o2⟩, h3, h4⟩ := h2
    simp only [Prod.mk.injEq] at h4
    obtain ⟨_, rfl, _, rfl⟩ := h4
    have hab : ∀ a ∈ op.args, a < base := fun a ha => hP a (g1 a ha)
    have ha : ∀ a ∈ op.args, a < n := fun a ha => by have := hab a ha; omega
    obtain ⟨e1, e2, e3⟩ := depthOp_ext ha h1
    have hP' : ∀ v, P v ∨ v = op.res → v < base := by
      rintro v (h | rfl)
      · exact hP v h
      · exact g3
    refine Ins.cons n op ops _ _ _ (e1.imp (fun _ h => h) ?_) e2 ?_
    · intro a hmem hsec
      rw [run, run_of_not_res, upd_ne, ← htc a (hab a hmem)]
      · exact hsec
      · rintro rfl; exact g2 (g1 _ hmem)
      · exact SSA.res_ne g6 a (Or.inl (g1 a hmem))
    · obtain ⟨d1, d2⟩ := depth_sec e1 ha t
      refine ih _ _ _ _ _ _ _ _ _ (Nat.le_trans hn e1.le) g6 hP' ?_ h3
      intro v hv
      rw [e3, run_append, run, run]
      by_cases hvr : v = op.res
      · subst hvr
        rw [upd_eq, upd_eq, d2]
        simp only [factStep]
        have : op.args.map (fun a => (t a).sec) = op.args.map fun a => (cur a).sec :=
          List.map_congr_left fun a ha => htc a (hab a ha)
        have := congrArg (fun l : List Bool => l.any id) this
        simpa using this
      · rw [upd_ne _ _ hvr, upd_ne _ _ hvr, d1 v (by omega), htc v hv]

theorem crossDepth_ins (cfg : Cfg) {i : Nat} {p q : Prog} (hw : p.WF) (h : crossDepth i p = some q) :
    InsProg (fun k => ∃ i, k = .adjustScale i) (fun a => (facts cfg p a).sec = true) p q := by
  rw [crossDepth, Option.map_eq_some_iff] at h
  obtain ⟨⟨t', n', i', ops'⟩, h1, rfl⟩ := h
  refine ⟨rfl, rfl, rfl, ?_⟩
  refine crossDepth_ins' cfg p.ops (· < p.nargs) p.next i (depthEntry p) (factEntry p) _ _ _ _ (Nat.le_refl _)
    hw.ssa (fun v hv => Nat.lt_of_lt_of_le hv hw.nargs) ?_ h1
  intro v _
  simp only [depthEntry, factEntry]
  split <;> rfl

/-- `handleCrossMulDepthOps` never fails. -/
theorem crossDepth_some (i : Nat) (p : Prog) : ∃ q, crossDepth i p = some q := by
  have : ∀ (ops : List Op) t n i, ∃ r, before depthOp t n i ops = some r := by
    intro ops
    induction ops with
    | nil => exact fun t n i => ⟨_, rfl⟩
    | cons op ops ih =>
      intro t n i
      obtain ⟨⟨t1, s⟩, h1⟩ : ∃ r, depthOp t ⟨n, i, [], op.args⟩ op = some r := ⟨_, rfl⟩
      obtain ⟨r, hr⟩ := ih t1 s.next s.id
      exact ⟨_, by rw [before, h1, Option.bind_some]; simp only; rw [hr]; rfl⟩
  obtain ⟨r, hr⟩ := this p.ops (depthEntry p) p.next i
  exact ⟨_, by rw [crossDepth, hr]; rfl⟩

theorem modReduceBefore_wf (f : Bool) {p : Prog} (hw : p.WF) :
    (modReduceBefore f p).WF ∧
      ∀ {D : Type} (I : Kind → List D → D) (env : Nat → D), (modReduceBefore f p).result I env = p.result I env := by
  have hins : InsProg (· = .modReduce) (fun a => (depths p a).sec = true) p
      { p with ops := (beforeT (modReduceMul (depths p) f) p.next 0 p.ops).2.2
               next := (beforeT (modReduceMul (depths p) f) p.next 0 p.ops).1 } := by
    refine ⟨rfl, rfl, rfl, ?_⟩
    refine beforeT_ins (base := p.next) _ p.ops ?_ p.next 0 (Nat.le_refl _)
    intro op hop n i hn
    exact modReduceMul_ext _ f n i op fun a ha => Nat.lt_of_lt_of_le ((hw.ids op hop).2 a ha) hn
  have hK : ∀ k : Kind, k = .modReduce → k.isMgmt = true := by rintro k rfl; rfl
  have hw1 := hins.wf hK hw
  have hext := modReduceOperands_ext (depths p) false
    (beforeT (modReduceMul (depths p) f) p.next 0 p.ops).1 0 ⟨.other 0, p.yields, 0⟩ hw1.yields_lt
  refine ⟨yields_wf hw1 hK ⟨.other 0, p.yields, 0⟩ rfl hext, ?_⟩
  intro D I env
  rw [← hins.result hK hw I env]
  exact yields_result hw1 hK ⟨.other 0, p.yields, 0⟩ rfl hext I env

theorem crossKind_mgmt : ∀ k, CrossKind k → k.isMgmt = true := by
  rintro k (rfl | rfl | ⟨_, rfl⟩ | ⟨_, rfl⟩) <;> rfl

theorem insertInit_wf (cfg : Cfg) {p : Prog} (hw : p.WF) : (insertInit cfg p).WF :=
  (insertInit_ins cfg p).wf (by rintro k rfl; rfl) hw

/-- The program before levels are matched. -/
def insertMgmtPre (o : Opts) (cfg : Cfg) (p : Prog) : Prog :=
  relinearize cfg (if o.afterMul then modReduceAfter cfg (insertInit cfg p)
    else modReduceBefore o.includeFirst (insertInit cfg p))

theorem insertMgmtPre_wf (o : Opts) (cfg : Cfg) {p : Prog} (hw : p.WF) :
    (insertMgmtPre o cfg p).WF ∧
      ∀ {D : Type} (I : Kind → List D → D) (env : Nat → D), (insertMgmtPre o cfg p).result I env = p.result I env := by
  have h0 := insertInit_wf cfg hw
  have h1 : ∀ {D : Type} (I : Kind → List D → D) (env : Nat → D),
      (insertInit cfg p).result I env = p.result I env :=
    fun I env => (insertInit_ins cfg p).result (by rintro k rfl; rfl) hw I env
  rw [insertMgmtPre, relinearize]
  by_cases ha : o.afterMul = true
  · rw [if_pos ha]
    have h2 : (modReduceAfter cfg (insertInit cfg p)).WF := afterProg_wf rfl _ h0
    refine ⟨afterProg_wf rfl _ h2, fun I env => ?_⟩
    rw [afterProg_result rfl _ h2, modReduceAfter, afterProg_result rfl _ h0, h1]
  · rw [if_neg ha]
    obtain ⟨h2, h3⟩ := modReduceBefore_wf o.includeFirst h0
    refine ⟨afterProg_wf rfl _ h2, fun I env => ?_⟩
    rw [afterProg_result rfl _ h2, h3, h1]

theorem insertMgmt_eq (o : Opts) (cfg : Cfg) (p : Prog) :
    insertMgmt o cfg p = (crossLevel o.ckks cfg (insertMgmtPre o cfg p)).bind fun r =>
      if o.ckks then some r.1 else crossDepth r.2 r.1 := rfl

theorem insertMgmt_wf (o : Opts) (cfg : Cfg) {p q : Prog} (hw : p.WF) (h : insertMgmt o cfg p = some q) :
    q.WF ∧ ∀ {D : Type} (I : Kind → List D → D) (env : Nat → D), q.result I env = p.result I env := by
  obtain ⟨h0, h1⟩ := insertMgmtPre_wf o cfg hw
  rw [insertMgmt_eq, Option.bind_eq_some_iff] at h
  obtain ⟨⟨q1, i⟩, h2, h3⟩ := h
  have hi := crossLevel_ins h2
  have hw1 := hi.wf crossKind_mgmt h0
  simp only at h3
  split at h3
  · injection h3 with h3
    subst h3
    exact ⟨hw1, fun I env => by rw [hi.result crossKind_mgmt h0, h1]⟩
  · have hd := crossDepth_ins cfg hw1 h3
    have hK : ∀ k : Kind, (∃ i, k = .adjustScale i) → k.isMgmt = true := by rintro k ⟨i, rfl⟩; rfl
    exact ⟨hd.wf hK hw1, fun I env => by rw [hd.result hK hw1, hi.result crossKind_mgmt h0, h1]⟩

end Heir.Mgmt
