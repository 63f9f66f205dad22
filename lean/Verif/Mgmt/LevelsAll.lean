import Verif.Mgmt.CrossWalk

/-! # Levels after the whole insertion -/

namespace Heir.Mgmt

/-! ## Scale matching leaves the levels -/

theorem InsProg.levels (cfg : Cfg) {p q : Prog}
    (h : InsProg (fun k => ∃ i, k = .adjustScale i) (fun a => (facts cfg p a).sec = true) p q) (hw : p.WF)
    (hl : LevelsMatch cfg p) : LevelsMatch cfg q ∧ ∀ v < p.next, sls cfg q v = sls cfg p v := by
  have hw' := h.wf (by rintro k ⟨i, rfl⟩; rfl) hw
  rw [levels_iff cfg hw']
  have he : slEntry q = slEntry p := by
    funext v; simp only [slEntry, factEntry, h.nargs, h.secArg]
  have hpre : AllSteps (slStep cfg) (fun t op => (∀ a ∈ op.args, ((facts cfg p a).sec = true → (t a).1 = true) ∧
      Fits cfg.budget (t a).2) ∧ LevPost cfg t op) p.ops (slEntry p) := by
    refine allSteps_of_final (slStep cfg) _ (fun op => op ∈ p.ops) p.ops _ _ hw.ssa ?_ (fun _ h => h)
    intro op _ hop t' ha hr
    have ha' : ∀ a ∈ op.args, t' a = sls cfg p a := ha
    refine ⟨?_, ?_⟩
    · intro a hm
      rw [ha' a hm]
      exact ⟨fun hs => by rw [← facts_sl1]; exact hs, (defined_inv cfg hw hop hm).2.2⟩
    · intro hk hs hi a hm hsa
      have hr' : slStep cfg t' op = sls cfg p op.res := hr
      rw [hr'] at hs hi ⊢
      rw [ha' a hm] at hsa ⊢
      rw [← facts_sl2, ← facts_sl2]
      exact hl op hop ((matched_iff _).2 hk) (by rw [facts_sl1]; exact hs) (by rw [facts_sl2]; exact hi) a hm
        (by rw [facts_sl1]; exact hsa)
  refine (h.ins.run (slStep cfg) (fun _ _ x y => x = y) _ (LevPost cfg) (Nat.le_refl _) hw.ids
    (fun _ _ _ _ _ _ => rfl) ?_ ?_ ?_ (slEntry p) (slEntry q) (fun _ _ => by rw [he]) hpre).symm
  · rintro k ⟨i, rfl⟩ t op _ hp a ha hS t' u r hq
    have h1 := (hp.1 a ha).1 hS
    have h2 := (hp.1 a ha).2
    have hu : t' u = (true, (t a).2) := by rw [← hq, ← h1]
    rw [slStep_one cfg hu]
    have : deriveLevel cfg.consumed (.adjustScale i) [(t a).2] = (t a).2 := by
      show Level.join .uninit (t a).2 = (t a).2
      cases (t a).2 <;> rfl
    rw [this, show clamp cfg.budget (t a).2 = (t a).2 from h2, ← h1]
  · rintro k ⟨i, rfl⟩ t op _ _ _ a _ _ t' u r _ hm
    simp [Kind.matched] at hm
  · intro t t' op args' _ hp hlen _ _ hj
    have hmap : args'.map t' = op.args.map t := map_congr_getD t t' hlen hj
    have h1 : (args'.any fun a => (t' a).1) = op.args.any fun a => (t a).1 :=
      any_congr_getD (fun a => (t a).1) (fun a => (t' a).1) hlen fun j hjl => by rw [hj j hjl]
    have h2 : (args'.map fun a => (t' a).2) = op.args.map fun a => (t a).2 :=
      map_congr_getD (fun a => (t a).2) (fun a => (t' a).2) hlen fun j hjl => by rw [hj j hjl]
    have hstep : slStep cfg t' { op with args := args' } = slStep cfg t op := by
      simp only [slStep, h1, h2]
    refine ⟨hstep, ?_⟩
    intro hk hs hi a ha hsa
    rw [hstep] at hs hi ⊢
    obtain ⟨j, hjl, rfl⟩ := List.mem_iff_getElem.1 ha
    simp only at hjl
    have hjl' : j < op.args.length := by omega
    have := hj j hjl'
    rw [List.getD_eq_getElem _ _ hjl, List.getD_eq_getElem _ _ hjl'] at this
    rw [← this] at hsa ⊢
    exact hp.2 hk hs hi _ (List.getElem_mem hjl') hsa

/-! ## The number of secret operands -/

/-- Each operation that is not a management operation comes from one with the same kind and operands of the same secretness. -/
def SameOps (p q : Prog) : Prop :=
  ∀ o ∈ q.ops, o.kind.isMgmt = false → ∃ op ∈ p.ops, op.kind = o.kind ∧ o.args.map (secs q) = op.args.map (secs p)

theorem SameOps.trans {p q r : Prog} (h1 : SameOps p q) (h2 : SameOps q r) : SameOps p r := by
  intro o ho hk
  obtain ⟨a, ha, ka, ea⟩ := h2 o ho hk
  obtain ⟨b, hb, kb, eb⟩ := h1 a ha (by rw [ka]; exact hk)
  exact ⟨b, hb, by rw [kb, ka], by rw [ea, eb]⟩

theorem filter_length_eq (f : Nat → Bool) (l : List Nat) : (l.filter f).length = ((l.map f).filter id).length := by
  rw [List.filter_map, List.length_map]
  rfl

theorem SameOps.inserts (cfg : Cfg) {p q : Prog} (h : SameOps p q) (hi : InsertsTwo cfg p) : InsertsTwo cfg q := by
  intro o ho hk
  obtain ⟨a, ha, ka, ea⟩ := h o ho (by rw [hk]; rfl)
  have := hi a ha (by rw [ka, hk])
  simp only [facts_sec] at this ⊢
  rw [filter_length_eq] at this ⊢
  rwa [ea]

theorem InsProg.same {K S p q} (h : InsProg K S p q) (hK : ∀ k, K k → k.isMgmt = true) (hw : p.WF) :
    SameOps p q := by
  have hwq := h.wf hK hw
  intro o ho hk
  rcases h.ins.mem (Nat.le_refl _) o ho with ⟨op, hop, m, s, hm, hext, rfl, hpre⟩ | ⟨e, _⟩
  · refine ⟨op, hop, rfl, ?_⟩
    have ha := (hw.ids op hop).2
    apply map_congr_getD _ _ hext.len
    intro j hj
    rw [hext.secs hwq (fun a h => by have := ha a h; omega) hpre j hj, h.secs hw _ (ha _ (getD_mem hj))]
  · rw [hK _ e] at hk; exact absurd hk (by simp)

theorem after_const {α : Type} {k : Kind} (hit : Op → Bool) (f : Nat → α) (ops : List Op) : ∀ n (σ : Nat → Nat),
    (∀ o ∈ (after k hit n σ ops).2.2, o.kind = k → ∀ u, o.args = [u] → f o.res = f u) →
    (∀ v, f (σ v) = f v) →
    ∀ o ∈ (after k hit n σ ops).2.2, o.kind ≠ k → ∃ op ∈ ops, op.kind = o.kind ∧ o.args.map f = op.args.map f := by
  induction ops with
  | nil => intro n σ _ _ o ho; simp [after] at ho
  | cons op ops ih =>
    intro n σ hf hσ o ho hk
    have harg : (op.args.map σ).map f = op.args.map f := by
      rw [List.map_map]
      exact List.map_congr_left fun a _ => hσ a
    rw [after] at ho hf
    simp only at ho hf
    split at ho
    · rename_i hh
      rw [if_pos hh] at hf
      simp only [List.mem_cons] at ho hf
      rcases ho with rfl | rfl | ho
      · exact ⟨op, by simp, rfl, harg⟩
      · exact absurd rfl hk
      · obtain ⟨op', h1, h2⟩ := ih (n + 1) (upd σ op.res n) (fun o ho => hf o (Or.inr (Or.inr ho)))
          (by
            intro v
            by_cases hv : v = op.res
            · subst hv
              rw [upd_eq]
              exact hf ⟨k, [op.res], n⟩ (Or.inr (Or.inl rfl)) rfl _ rfl
            · rw [upd_ne _ _ hv]; exact hσ v) o ho hk
        exact ⟨op', by simp [h1], h2⟩
    · rename_i hh
      rw [if_neg hh] at hf
      simp only [List.mem_cons] at ho hf
      rcases ho with rfl | ho
      · exact ⟨op, by simp, rfl, harg⟩
      · obtain ⟨op', h1, h2⟩ := ih n σ (fun o ho => hf o (Or.inr ho)) hσ o ho hk
        exact ⟨op', by simp [h1], h2⟩

theorem afterProg_same {k : Kind} (hk : k.isMgmt = true) (hit : Op → Bool) {p : Prog} (hw : p.WF) :
    SameOps p (afterProg k hit p) := by
  have hwq := afterProg_wf hk hit hw
  intro o ho hko
  obtain ⟨op, hop, e1, e2⟩ := after_const hit (secs (afterProg k hit p)) p.ops p.next id
    (by
      intro o ho _ u hu
      rw [secs_res hwq ho, hu]
      simp) (fun _ => rfl) o ho (by rintro rfl; rw [hk] at hko; exact absurd hko (by simp))
  refine ⟨op, hop, e1, ?_⟩
  rw [e2]
  exact List.map_congr_left fun a ha => afterProg_secs hit hw a ((hw.ids op hop).2 a ha)

theorem modReduceBefore_same (f : Bool) {p : Prog} (hw : p.WF) : SameOps p (modReduceBefore f p) := by
  have hins : InsProg (· = .modReduce) (fun a => (depths p a).sec = true) p
      { p with ops := (beforeT (modReduceMul (depths p) f) p.next 0 p.ops).2.2
               next := (beforeT (modReduceMul (depths p) f) p.next 0 p.ops).1 } := by
    refine ⟨rfl, rfl, rfl, ?_⟩
    refine beforeT_ins (base := p.next) _ p.ops ?_ p.next 0 (Nat.le_refl _)
    intro op hop n i hn
    exact modReduceMul_ext _ f n i op fun a ha => Nat.lt_of_lt_of_le ((hw.ids op hop).2 a ha) hn
  have hK : ∀ k : Kind, k = .modReduce → k.isMgmt = true := by rintro k rfl; rfl
  have hw1 := hins.wf hK hw
  have hext := modReduceOperands_ext (depths p) false
    (beforeT (modReduceMul (depths p) f) p.next 0 p.ops).1 0 ⟨.other 0, p.yields, 0⟩ hw1.yields_lt
  refine (hins.same hK hw).trans ?_
  intro o ho hko
  rw [modReduceBefore] at ho
  simp only [List.mem_append] at ho
  rcases ho with ho | ho
  · refine ⟨o, ho, rfl, ?_⟩
    refine List.map_congr_left fun a ha => ?_
    exact run_append_fresh hext secStep _ _ ((hw1.ids o ho).2 a ha)
  · obtain ⟨_, _, c, _⟩ := hext.pre_mem o ho
    rw [c] at hko; exact absurd hko (by simp [Kind.isMgmt])

theorem insertMgmtPre_same (o : Opts) (cfg : Cfg) {p : Prog} (hw : p.WF) : SameOps p (insertMgmtPre o cfg p) := by
  have h0 := insertInit_wf cfg hw
  refine ((insertInit_ins cfg p).same (by rintro k rfl; rfl) hw).trans ?_
  rw [insertMgmtPre]
  split
  · exact (afterProg_same rfl _ h0).trans (afterProg_same rfl _ (afterProg_wf rfl _ h0))
  · exact (modReduceBefore_same _ h0).trans (afterProg_same rfl _ (modReduceBefore_wf _ h0).1)

/-- Management insertion succeeds and matches the levels. -/
theorem insertMgmt_levels (o : Opts) (cfg : Cfg) {p : Prog} (hw : p.WF) (hi : InsertsTwo cfg p) :
    ∃ q, insertMgmt o cfg p = some q ∧ LevelsMatch cfg q ∧
      ∀ op ∈ (insertMgmtPre o cfg p).ops,
        (facts cfg q op.res).lvl = (facts cfg (insertMgmtPre o cfg p) op.res).lvl := by
  have h0 := (insertMgmtPre_wf o cfg hw).1
  have hi' := (insertMgmtPre_same o cfg hw).inserts cfg hi
  obtain ⟨⟨q, i⟩, hq⟩ := cross_some (ckks := o.ckks) cfg h0 (by
    intro op hop
    cases hm : op.kind.matched with
    | false => exact Or.inr rfl
    | true =>
      left
      have hl := (h0.ssa.arity op hop).2
      cases hk : op.kind <;> rw [hk] at hm <;> simp [Kind.matched] at hm
      · exact Nat.le_trans (List.length_filter_le _ _) (Nat.le_of_eq (hl (Or.inl hk)))
      · exact Nat.le_trans (List.length_filter_le _ _) (Nat.le_of_eq (hl (Or.inr (Or.inl hk))))
      · exact Nat.le_trans (List.length_filter_le _ _) (Nat.le_of_eq (hl (Or.inr (Or.inr hk))))
      · exact hi' op hop hk)
  obtain ⟨hm, hv⟩ := crossLevel_match cfg h0 hq
  rw [insertMgmt_eq, hq, Option.bind_some]
  simp only
  split
  · exact ⟨q, rfl, hm, fun op hop => by rw [facts_sl2, facts_sl2, hv _ (Or.inr ⟨op, hop, rfl⟩)]⟩
  · have hw1 := (crossLevel_ins hq).wf crossKind_mgmt h0
    obtain ⟨q', hq'⟩ := crossDepth_some i q
    obtain ⟨hm', hv'⟩ := (crossDepth_ins cfg hw1 hq').levels cfg hw1 hm
    refine ⟨q', hq', hm', fun op hop => ?_⟩
    have hlt := Nat.lt_of_lt_of_le (h0.ids op hop).1 (crossLevel_ins hq).ins.le
    rw [facts_sl2, facts_sl2, hv' _ hlt, hv _ (Or.inr ⟨op, hop, rfl⟩)]

end Heir.Mgmt
