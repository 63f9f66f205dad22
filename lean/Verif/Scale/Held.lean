import Verif.Scale.Lemmas
import Mathlib.Algebra.Algebra.Basic
import Mathlib.Algebra.GroupWithZero.Basic
import Mathlib.Algebra.GroupWithZero.Units.Basic

/-! # A validated program holds the messages at the annotated scales -/

namespace Heir.Scale

variable {K M : Type} [Field K] [CommRing M] [Algebra K M]

theorem facts_fix (b : Bool) (cfg : Cfg) (p : Prog) (hp : p.WF) (op : Op) (h : op ∈ p.ops) :
    facts b cfg p op.res = step b cfg (facts b cfg p) op :=
  run_fix _ _ _ (step_local b cfg) _ _ hp.ssa op h

theorem sec_res (b : Bool) (cfg : Cfg) (p : Prog) (hp : p.WF) (op : Op) (h : op ∈ p.ops) :
    (facts b cfg p op.res).sec = op.args.any fun a => (facts b cfg p a).sec := by
  rw [facts_fix b cfg p hp op h]; rfl

theorem ini_res (b : Bool) (cfg : Cfg) (p : Prog) (hp : p.WF) (op : Op) (h : op ∈ p.ops) :
    (facts b cfg p op.res).ini = decide (op.kind = .init) := by
  rw [facts_fix b cfg p hp op h]; rfl

theorem allEqual_iff (l : List Int) : allEqual l = true ↔ ∀ a ∈ l, ∀ b ∈ l, a = b := by
  cases l with
  | nil => simp [allEqual]
  | cons s l =>
    simp only [allEqual, List.all_eq_true, decide_eq_true_eq]
    constructor
    · intro h a ha b hb
      have e : ∀ c ∈ s :: l, c = s := by
        intro c hc
        rcases List.mem_cons.1 hc with rfl | hc
        · rfl
        · exact h c hc
      rw [e a ha, e b hb]
    · intro h a ha
      exact h a (by simp [ha]) s (by simp)

/-- What the value `v` holds is its message at its scale. -/
def Holds (β : K) (t : Nat → Fact) (sc : Nat → Option Int) (hl ms : Nat → M) (v : Nat) : Prop :=
  hl v = if (t v).scaled then β ^ ((sc v).getD 0) • ms v else ms v

theorem additive_scale (cfg : Cfg) (sc : Nat → Option Int) (lv : Nat → Int) (op : Op)
    (hk : op.kind.additive = true) (h : validOp cfg sc lv op = true) (a : Nat) (ha : a ∈ op.args)
    (hs : sc a ≠ none) (hr : sc op.res ≠ none) : sc a = sc op.res := by
  have h' : allEqual ((op.args ++ [op.res]).filterMap sc) = true := by
    unfold validOp at h
    unfold Kind.additive at hk
    split at hk <;> simp_all
  obtain ⟨x, hx⟩ := Option.ne_none_iff_exists'.1 hs
  obtain ⟨y, hy⟩ := Option.ne_none_iff_exists'.1 hr
  rw [hx, hy]
  congr 1
  refine (allEqual_iff _).1 h' x ?_ y ?_
  · exact List.mem_filterMap.2 ⟨a, by simp [ha], hx⟩
  · exact List.mem_filterMap.2 ⟨op.res, by simp, hy⟩

theorem holds_op (β : K) (hβ : β ≠ 0) (b : Bool) (cfg : Cfg) (I : Kind → List M → M) (p : Prog) (hp : p.WF)
    (sc : Nat → Option Int) (hl ms : Nat → M)
    (hall : AllScaled (facts b cfg p) sc) (henc : Encoded (facts b cfg p) p)
    (hhom : Homogeneous K I (facts b cfg p) p) (hoth : OthersKeep (facts b cfg p) sc p)
    (op : Op) (hop : op ∈ p.ops) (hA : Arity op)
    (hv : validOp cfg sc (fun v => (facts b cfg p v).lvl) op = true)
    (hh : hl op.res = heldOp β cfg I (facts b cfg p) sc hl op) (hm : ms op.res = msgOp I ms op)
    (ih : ∀ a ∈ op.args, Holds β (facts b cfg p) sc hl ms a) : Holds β (facts b cfg p) sc hl ms op.res := by
  have hsec := sec_res b cfg p hp op hop
  have hini := ini_res b cfg p hp op hop
  obtain ⟨e1, e2, e3, e4⟩ := henc op hop
  have ho := hoth op hop
  have hho := hhom op hop
  generalize facts b cfg p = t at *
  unfold Holds at *
  -- the scale of a scaled value
  have hget : ∀ v, (t v).scaled = true → sc v = some ((sc v).getD 0) := by
    intro v hv'
    obtain ⟨x, hx⟩ := Option.ne_none_iff_exists'.1 (hall v hv')
    simp [hx]
  by_cases hr : (t op.res).scaled = true
  · rw [hh, hm]
    simp only [hr, if_true]
    by_cases hin : op.kind = .init
    · have ha := headD_mem (hA.2 (Or.inl hin))
      have := ih _ ha
      rw [e3 hin _ ha] at this
      simp only [heldOp, msgOp, hin]
      rw [this]
      simp
    · have hs : (t op.res).sec = true := by
        simpa [Fact.scaled, hini, hin] using hr
      -- the only operand of a management operation
      have hone : op.args.length = 1 → (t (op.args.headD 0)).sec = true := by
        intro hl1
        rw [hsec] at hs
        match hq : op.args, hl1 with
        | [a], _ => simpa [hq] using hs
      have hadd : op.kind.additive = true → ∀ a ∈ op.args, (t a).scaled = true → sc a = sc op.res :=
        fun hk a ha hsa => additive_scale cfg sc _ op hk hv a ha (hall a hsa) (hall _ hr)
      cases hk : op.kind with
      | init => exact absurd hk hin
      | add =>
        have hl2 := hA.1 (by simp [hk])
        have m0 := getD_mem (l := op.args) (i := 0) (by omega)
        have m1 := getD_mem (l := op.args) (i := 1) (by omega)
        have s0 := e1 hs (by simp [hk]) _ m0
        have s1 := e1 hs (by simp [hk]) _ m1
        simp only [heldOp, msgOp, hk]
        rw [ih _ m0, ih _ m1]
        simp only [s0, s1, if_true]
        rw [hadd (by simp [hk, Kind.additive]) _ m0 s0, hadd (by simp [hk, Kind.additive]) _ m1 s1, smul_add]
      | sub =>
        have hl2 := hA.1 (by simp [hk])
        have m0 := getD_mem (l := op.args) (i := 0) (by omega)
        have m1 := getD_mem (l := op.args) (i := 1) (by omega)
        have s0 := e1 hs (by simp [hk]) _ m0
        have s1 := e1 hs (by simp [hk]) _ m1
        simp only [heldOp, msgOp, hk]
        rw [ih _ m0, ih _ m1]
        simp only [s0, s1, if_true]
        rw [hadd (by simp [hk, Kind.additive]) _ m0 s0, hadd (by simp [hk, Kind.additive]) _ m1 s1, smul_sub]
      | mul =>
        have hl2 := hA.1 (by simp [hk])
        have m0 := getD_mem (l := op.args) (i := 0) (by omega)
        have m1 := getD_mem (l := op.args) (i := 1) (by omega)
        have s0 := e1 hs (by simp [hk]) _ m0
        have s1 := e1 hs (by simp [hk]) _ m1
        have hv' := hv
        simp only [validOp, hk] at hv'
        rw [hget _ s0, hget _ s1, hget _ hr] at hv'
        simp only [decide_eq_true_eq] at hv'
        simp only [heldOp, msgOp, hk]
        rw [ih _ m0, ih _ m1]
        simp only [s0, s1, if_true]
        rw [hv', zpow_add₀ hβ, smul_mul_smul_comm]
      | insert =>
        have hc := hho (Or.inl hk) hs (β ^ ((sc op.res).getD 0)) (op.args.map ms) (by simp)
        simp only [heldOp, msgOp, hk]
        rw [← hk, ← hc, List.zipWith_map_right, List.zipWith_self]
        congr 1
        apply List.map_congr_left
        intro a ha
        rw [ih a ha]
        split
        · rw [hadd (by simp [hk, Kind.additive]) a ha (by assumption)]
        · rfl
      | other g =>
        have hc := hho (Or.inr ⟨g, hk⟩) hs (β ^ ((sc op.res).getD 0)) (op.args.map ms) (by simp)
        simp only [heldOp, msgOp, hk]
        rw [← hk, ← hc, List.zipWith_map_right, List.zipWith_self]
        congr 1
        apply List.map_congr_left
        intro a ha
        rw [ih a ha]
        split
        · rw [ho ⟨g, hk⟩ hs a ha (by assumption)]
        · rfl
      | modReduce =>
        have hl1 := hA.2 (by simp [hk])
        have ha := headD_mem hl1
        have hsa := hone hl1
        have hsc : (t (op.args.headD 0)).scaled = true := by unfold Fact.scaled; rw [hsa]; rfl
        have hv' := hv
        simp only [validOp, hk] at hv'
        rw [hget _ hsc, hget _ hr] at hv'
        simp only [decide_eq_true_eq] at hv'
        simp only [heldOp, msgOp, hk, hs, if_true]
        rw [ih _ ha]
        simp only [hsc, if_true]
        rw [smul_smul, ← zpow_add₀ hβ, hv']
        congr 2
        omega
      | adjust =>
        have hl1 := hA.2 (by simp [hk])
        have ha := headD_mem hl1
        have hsa := hone hl1
        have hsc : (t (op.args.headD 0)).scaled = true := by unfold Fact.scaled; rw [hsa]; rfl
        have hv' := hv
        simp only [validOp, hk] at hv'
        rw [hget _ hsc, hget _ hr] at hv'
        simp only [decide_eq_true_eq] at hv'
        simp only [heldOp, msgOp, hk]
        rw [ih _ ha]
        simp only [hsc, if_true]
        unfold materialize
        split
        · rename_i d heq
          split at heq
          · simp at heq
          · split at heq
            · simp at heq
            · simp only [Option.some.injEq] at heq
              rw [smul_mul_smul_comm, mul_one, ← zpow_add₀ hβ, ← heq]
              congr 2
              omega
        · rename_i hne
          split at hne
          · rename_i he; rw [he]
          · split at hne
            · omega
            · exact absurd rfl (hne _)
      | bootstrap =>
        have hl1 := hA.2 (by simp [hk])
        have ha := headD_mem hl1
        have hsa := hone hl1
        have hsc : (t (op.args.headD 0)).scaled = true := by unfold Fact.scaled; rw [hsa]; rfl
        have hv' := hv
        simp only [validOp, hk] at hv'
        rw [hget _ hsc, hget _ hr] at hv'
        simp only [Bool.and_eq_true, decide_eq_true_eq] at hv'
        simp only [heldOp, msgOp, hk]
        rw [ih _ ha]
        simp only [hsc, if_true]
        rw [smul_smul, ← zpow_add₀ hβ, hv'.2]
        congr 2
        omega
  · simp only [Bool.not_eq_true] at hr
    rw [hh, hm]
    simp only [hr, Bool.false_eq_true, if_false]
    have hns : (t op.res).sec = false := by
      simp only [Fact.scaled, Bool.or_eq_false_iff] at hr; exact hr.1
    have hni : op.kind ≠ .init := by
      simp only [Fact.scaled, Bool.or_eq_false_iff] at hr
      simpa [hini] using hr.2
    have hu : ∀ a ∈ op.args, hl a = ms a := by
      intro a ha
      rw [ih a ha]
      have : (t a).scaled = false := by
        simp only [Fact.scaled, Bool.or_eq_false_iff]
        constructor
        · rw [hsec] at hns
          have := List.any_eq_false.1 hns a ha
          simpa using this
        · by_contra hc
          have := e2 a ha (by simpa using hc)
          simp [hns] at this
      simp [this]
    cases hk : op.kind with
    | init => exact absurd hk hni
    | add | sub | mul =>
      have hl2 := hA.1 (by simp [hk])
      simp only [heldOp, msgOp, hk]
      rw [hu _ (getD_mem (i := 0) (by omega)), hu _ (getD_mem (i := 1) (by omega))]
    | insert | other g =>
      simp only [heldOp, msgOp, hk]
      congr 1
      exact List.map_congr_left hu
    | modReduce =>
      simp only [heldOp, msgOp, hk, hns]
      simpa using hu _ (headD_mem (hA.2 (by simp [hk])))
    | adjust => have := e4 (by simp [hk]); simp [hns] at this
    | bootstrap => have := e4 (by simp [hk]); simp [hns] at this

/-- A validated program holds the messages at the annotated scales. -/
theorem held_eq (β : K) (hβ : β ≠ 0) (b : Bool) (cfg : Cfg) (I : Kind → List M → M) (p : Prog) (hp : p.WF)
    (sc : Nat → Option Int) (inp : Nat → M)
    (hall : AllScaled (facts b cfg p) sc) (henc : Encoded (facts b cfg p) p)
    (hhom : Homogeneous K I (facts b cfg p) p) (hoth : OthersKeep (facts b cfg p) sc p)
    (hv : validate cfg sc (fun v => (facts b cfg p v).lvl) p.ops = true) (v : Nat) (hval : p.Value v) :
    Holds β (facts b cfg p) sc (held β cfg I (facts b cfg p) sc p inp) (messages I p inp) v := by
  have h0 : ∀ v, v < p.nargs →
      Holds β (facts b cfg p) sc (held β cfg I (facts b cfg p) sc p inp) (messages I p inp) v := by
    intro v hlt
    unfold Holds held messages
    rw [run_of_defined _ _ _ _ _ hp.ssa v hlt, run_of_defined _ _ _ _ _ hp.ssa v hlt]
    have : (facts b cfg p v).ini = false := by
      unfold facts
      rw [run_of_defined _ _ _ _ _ hp.ssa v hlt]
      simp [entry, hlt]
    simp [Fact.scaled, this]
  rcases hval with hlt | ⟨op, hop, rfl⟩
  · exact h0 v hlt
  · refine (ssa_induction _ _ _ _ hp.ssa h0 ?_ op hop).1
    intro o ho ih
    refine holds_op β hβ b cfg I p hp sc _ _ hall henc hhom hoth o ho (ssa_mem _ _ _ hp.ssa o ho)
      (List.all_eq_true.1 hv o ho) ?_ ?_ ih
    · exact run_fix _ _ _ (heldOp_local β cfg I _ sc) _ _ hp.ssa o ho
    · exact run_fix _ _ _ (msgOp_local I) _ _ hp.ssa o ho

end Heir.Scale
