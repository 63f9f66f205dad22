import Verif.Place.Check

/-! # Multiplications between bootstraps when only levels are placed -/

namespace Heir.Place
open Heir.Mgmt

/-- The larger of the numbers there are. -/
def optMax : Option Nat → Option Nat → Option Nat
  | none, m => m
  | some a, none => some a
  | some a, some b => some (max a b)

def maxOpt (l : List (Option Nat)) : Option Nat := l.foldr optMax none

theorem maxOpt_ge {l : List (Option Nat)} : ∀ {a}, some a ∈ l → ∃ d, maxOpt l = some d ∧ a ≤ d := by
  induction l with
  | nil => intro a h; simp at h
  | cons x l ih =>
    intro a h
    show ∃ d, optMax x (maxOpt l) = some d ∧ a ≤ d
    rcases List.mem_cons.1 h with rfl | h
    · cases maxOpt l with
      | none => exact ⟨a, rfl, Nat.le_refl _⟩
      | some b => exact ⟨_, rfl, Nat.le_max_left _ _⟩
    · obtain ⟨d, h1, h2⟩ := ih h
      rw [h1]
      cases x with
      | none => exact ⟨d, rfl, h2⟩
      | some b => exact ⟨_, rfl, Nat.le_trans h2 (Nat.le_max_right _ _)⟩

theorem maxOpt_mem {l : List (Option Nat)} : ∀ {d}, maxOpt l = some d → some d ∈ l := by
  induction l with
  | nil => intro d h; simp [maxOpt] at h
  | cons x l ih =>
    intro d h
    change optMax x (maxOpt l) = some d at h
    cases x with
    | none => exact List.mem_cons_of_mem _ (ih h)
    | some a =>
      cases hm : maxOpt l with
      | none =>
        rw [hm] at h
        simp only [optMax, Option.some.injEq] at h
        simp [h]
      | some b =>
        rw [hm] at h
        simp only [optMax, Option.some.injEq] at h
        rcases Nat.le_total a b with hab | hab
        · rw [Nat.max_eq_right hab] at h
          subst h
          exact List.mem_cons_of_mem _ (ih hm)
        · rw [Nat.max_eq_left hab] at h
          simp [h]

/-- Multiplications and scale adjustments count. -/
def counts : Kind → Bool
  | .mul | .adjustScale _ => true
  | _ => false

/-- Since the last bootstrap. -/
def depStep (t : Nat → Option Nat) (op : Op) : Option Nat :=
  (maxOpt (op.args.map t)).map fun d => if op.kind = .bootstrap then 0 else if counts op.kind then d + 1 else d

def depEntry (p : Prog) (v : Nat) : Option Nat := if v < p.nargs ∧ p.secArg v = true then some 0 else none

def deps (p : Prog) : Nat → Option Nat := run depStep p.ops (depEntry p)

theorem deps_res {p : Prog} (hw : p.WF) {op : Op} (h : op ∈ p.ops) : deps p op.res = depStep (deps p) op := by
  obtain ⟨t', _, h1, h2⟩ := final_of_allSteps depStep (fun _ _ => True) p.ops _ (depEntry p) hw.ssa
    (allSteps_true _ _ _) op h
  rw [deps, ← h2]
  have : op.args.map t' = op.args.map (run depStep p.ops (depEntry p)) := List.map_congr_left h1
  simp only [depStep, this]

theorem counts_iff (k : Kind) : counts k = true ↔ k = .mul ∨ ∃ i, k = .adjustScale i := by
  cases k <;> simp [counts]

theorem reach_le {p : Prog} (hw : p.WF) {v k : Nat} (h : Reach p v k) : ∃ d, deps p v = some d ∧ k ≤ d := by
  have hstep : ∀ (op : Op), op ∈ p.ops → ∀ a ∈ op.args, ∀ d, deps p a = some d → ∃ m, d ≤ m ∧
      deps p op.res = some (if op.kind = .bootstrap then 0 else if counts op.kind then m + 1 else m) := by
    intro op hop a ha d hd
    obtain ⟨m, h1, h2⟩ := maxOpt_ge (l := op.args.map (deps p)) (a := d) (List.mem_map.2 ⟨a, ha, hd⟩)
    exact ⟨m, h2, by rw [deps_res hw hop, depStep, h1]; rfl⟩
  induction h with
  | arg v hv hs =>
    refine ⟨0, ?_, Nat.le_refl _⟩
    rw [deps, run_of_not_res]
    · simp [depEntry, hv, hs]
    · exact fun o ho h => SSA.res_ne hw.ssa v hv o ho h
  | boot op a k hop ha _ hk ih =>
    obtain ⟨d, hd, _⟩ := ih
    obtain ⟨m, h1, h2⟩ := hstep op hop a ha d hd
    exact ⟨_, h2, Nat.zero_le _⟩
  | up op a k hop ha _ hk ih =>
    obtain ⟨d, hd, hle⟩ := ih
    obtain ⟨m, h1, h2⟩ := hstep op hop a ha d hd
    have hb : op.kind ≠ .bootstrap := by
      rcases hk with h | ⟨i, h⟩ <;> rw [h] <;> simp
    rw [if_neg hb, if_pos ((counts_iff _).2 hk)] at h2
    exact ⟨_, h2, by omega⟩
  | keep op a k hop ha _ hk1 hk2 hk3 ih =>
    obtain ⟨d, hd, hle⟩ := ih
    obtain ⟨m, h1, h2⟩ := hstep op hop a ha d hd
    have hc : ¬ counts op.kind = true := by
      rw [counts_iff]
      rintro (h | ⟨i, h⟩)
      · exact hk2 h
      · exact hk3 i h
    rw [if_neg hk1, if_neg hc] at h2
    exact ⟨_, h2, by omega⟩

/-- One step and the bound. -/
def DepS (o : Opts) (t : Nat → Option Nat) (op : Op) (x : Option Nat) : Prop :=
  x = depStep t op ∧ ∀ d : Nat, depStep t op = some d → (d : Int) ≤ o.waterline

/-- A chain without scale adjustments keeps the number until a bootstrap. -/
theorem dep_path {o : Opts} (hw0 : 0 ≤ o.waterline) {ms : List Mg} (hadj : ∀ x, Mg.adjust x ∉ ms) :
    ∀ {id} {d : Nat}, (d : Int) ≤ o.waterline →
      Path (DepS o) (kinds id ms).2 (some d) (some (if .boot ∈ ms then 0 else d)) := by
  induction ms with
  | nil => intro id d hd; rfl
  | cons m ms ih =>
    intro id d hd
    have hstep : ∀ (k : Kind), counts k = false → k ≠ .bootstrap → ∀ (t : Nat → Option Nat) (u r : Nat), t u = some d →
        DepS o t ⟨k, [u], r⟩ (some d) := by
      intro k hc hb t u r ht
      have : depStep t ⟨k, [u], r⟩ = some d := by simp [depStep, maxOpt, optMax, ht, hc, hb]
      exact ⟨this.symm, fun d' hd' => by rw [this] at hd'; cases hd'; exact hd⟩
    have hms : ∀ x, Mg.adjust x ∉ ms := fun x hx => hadj x (by simp [hx])
    cases m with
    | drop k =>
      have p1 := ih hms (id := id) (d := d) hd
      refine ⟨some d, fun t u r ht => hstep _ rfl (by simp) t u r ht, ?_⟩
      simpa using p1
    | adjust x => exact absurd (by simp) (hadj x)
    | rescale =>
      have p1 := ih hms (id := id) (d := d) hd
      refine ⟨some d, fun t u r ht => hstep _ rfl (by simp) t u r ht, ?_⟩
      simpa using p1
    | boot =>
      have p1 := ih hms (id := id) (d := 0) (by simpa using hw0)
      refine ⟨some 0, fun t u r ht => ?_, ?_⟩
      · have : depStep t ⟨.bootstrap, [u], r⟩ = some 0 := by simp [depStep, maxOpt, optMax, ht]
        exact ⟨this.symm, fun d' hd' => by rw [this] at hd'; cases hd'; simpa using hw0⟩
      · simpa using p1

theorem decodeDirect_flat {o : Opts} (hk : o.ckks = false) {a b c d : Int} {ms : List Mg}
    (h : decodeDirect o a b c d = some ms) : ∀ x, Mg.adjust x ∉ ms := by
  unfold decodeDirect at h
  simp only [rescaleCount, hk, Bool.false_eq_true, if_false, Int.toNat_zero, rescaleLoop, Bool.false_and,
    List.append_nil] at h
  intro x hx
  by_cases hc : c + 0 < a
  · simp only [if_pos hc] at h
    split at h
    · exact absurd h (by simp)
    · simp only [Option.some.injEq] at h
      rw [← h] at hx
      simp at hx
  · simp only [if_neg hc] at h
    split at h
    · exact absurd h (by simp)
    · simp only [Option.some.injEq] at h
      rw [← h] at hx
      simp at hx

theorem decodeNode_flat {o : Opts} (hk : o.ckks = false) {a b c d : Int} {bt : Bool} {ms : List Mg}
    (h : decodeNode o a b c d bt = some ms) : ∀ x, Mg.adjust x ∉ ms := by
  unfold decodeNode at h
  split at h
  · exact decodeDirect_flat hk h
  · simp only [hk, Bool.false_eq_true, if_false, Option.bind_eq_some_iff] at h
    obtain ⟨pre, h1, h2⟩ := h
    split at h2
    · exact absurd h2 (by simp)
    · rw [Option.map_eq_some_iff] at h2
      obtain ⟨post, h3, rfl⟩ := h2
      intro x hx
      have a1 := decodeDirect_flat hk h1 x
      have a2 := decodeDirect_flat hk h3 x
      simp only [List.mem_append, List.mem_singleton] at hx
      rcases hx with ((hx | hx) | hx) | hx
      · exact a1 hx
      · exact absurd hx (by simp)
      · split at hx <;> simp at hx
      · exact a2 hx

section
variable {o : Opts} {c : Ctx} {p : Prog} {s : Var → ℚ}

/-- The bound, when a multiplication at level zero is not bootstrapped. -/
theorem placeProg_depth (h : Feasible o c p s) (ht : Told c p) (hsec : ∀ v < p.nargs, c.sec v = p.secArg v)
    (hk : o.ckks = false) (hsw : 0 < o.sw) (hfb : 0 < o.factorBits) (hlb : 0 ≤ o.lower) (hw0 : 0 ≤ o.waterline)
    (hb : 1 ≤ o.lower ∨ ∀ op ∈ tracked c p, boots s op.res = false)
    {q : Prog} (hq : placeProg o c s p = some q) {v k : Nat} (hr : Reach q v k) : (k : Int) ≤ o.waterline := by
  have hw := ht.wf
  have hwq := placeProg_wf hw hq
  obtain ⟨n, σ, ops, h1, rfl⟩ := placeProg_some hq
  have hem := placeOps_emitted p.ops h1
  obtain ⟨t', e1, e2⟩ := emitted_sim (S := DepS o)
    (V := fun v x => if c.sec v then ∃ d : Nat, x = some d ∧ (d : Int) ≤ o.waterline - (ctOf s v).level else x = none)
    (W := fun op j x => if c.sec op.res && c.sec (op.args.getD j 0) then
      ∃ d : Nat, x = some d ∧ (d : Int) ≤ o.waterline - rounded (s (.inLevel op.res)) else x = none)
    (base := p.next) hem
    (by intro op hop j a ks x hj hks hx
        rw [getD_of_getElem? hj]
        cases hb : (c.sec op.res && c.sec a)
        · rw [edgeKinds_free hks hb]
          refine ⟨x, rfl, ?_⟩
          rw [if_neg (by simp)]
          have ha : c.sec a = false := by
            rw [Bool.eq_false_iff]
            intro ha
            have h3 : c.sec op.res = true := by
              rw [ht.sec op hop, List.any_eq_true]
              exact ⟨a, List.mem_of_getElem? hj, ha⟩
            rw [h3, ha] at hb
            exact absurd hb (by simp)
          rw [if_neg (by simp [ha])] at hx
          exact hx
        · rw [Bool.and_eq_true] at hb
          obtain ⟨ms, id, hm, rfl⟩ := hks
          have hop' := mem_tracked.2 ⟨hop, hb.1⟩
          obtain ⟨ms', hm', hex, _, hnb⟩ := h.decode_edge hsw hfb hop' hj hb.2
            (ht.args hop a (List.mem_of_getElem? hj))
          rw [hm] at hm'
          cases hm'
          rw [if_pos hb.2] at hx
          obtain ⟨d, rfl, hd⟩ := hx
          have hlev := (h.edge hop' hj hb.2)
          have h0 := (h.val hsw (ht.args hop a (List.mem_of_getElem? hj)) hb.2).1.1
          have hadj : ∀ x, Mg.adjust x ∉ ms := by
            rw [edgeOf, hb.1, hb.2] at hm
            exact decodeDirect_flat hk hm
          have hp := dep_path hw0 hadj (id := id) (d := d) (by omega)
          rw [if_neg hnb] at hp
          refine ⟨some d, hp, ?_⟩
          rw [if_pos (by simp)]
          refine ⟨d, rfl, ?_⟩
          have : (ctOf s a).level = rounded (s (.level a)) := rfl
          omega)
    (by intro op hop ks t args hks hlen hW
        cases hs : c.sec op.res
        · rw [nodeKinds_free hks hs]
          have hnone : ∀ a ∈ args, t a = none := by
            intro a ha
            obtain ⟨j, hj⟩ := List.getElem?_of_mem ha
            have := hW j a hj
            rw [hs] at this
            simpa using this
          have hz : depStep t { op with args := args } = none := by
            have : maxOpt (args.map t) = none := by
              cases hm : maxOpt (args.map t) with
              | none => rfl
              | some d =>
                obtain ⟨a, ha, had⟩ := List.mem_map.1 (maxOpt_mem hm)
                rw [hnone a ha] at had
                exact absurd had (by simp)
            simp [depStep, this]
          refine ⟨none, none, ⟨hz.symm, fun d hd => by rw [hz] at hd; exact absurd hd (by simp)⟩, rfl, ?_⟩
          rw [if_neg (by simp)]
        · have hop' := mem_tracked.2 ⟨hop, hs⟩
          obtain ⟨n1, n2, n3⟩ := h.node hop'
          have hil := (h.box.inLevel op hop').spec
          obtain ⟨ms, id, hm, rfl⟩ := hks
          obtain ⟨ms', hm', _, hcount, _⟩ := h.decode_node hsw hfb hlb hop'
          rw [hm] at hm'
          cases hm'
          have hadj : ∀ x, Mg.adjust x ∉ ms := by
            rw [nodeOf, hs] at hm
            exact decodeNode_flat hk hm
          -- the operands
          have hany := ht.sec op hop
          rw [hs] at hany
          obtain ⟨a, ha, has⟩ := List.any_eq_true.1 hany.symm
          obtain ⟨j, hj⟩ := List.getElem?_of_mem ha
          have hjl : j < args.length := by rw [hlen]; exact (List.getElem?_eq_some_iff.1 hj).1
          have hWj := hW j _ (List.getElem?_eq_getElem hjl)
          rw [getD_of_getElem? hj, hs, has, if_pos (by simp)] at hWj
          obtain ⟨d0, hd0, _⟩ := hWj
          obtain ⟨m, hm1, hm2⟩ := maxOpt_ge (l := args.map t) (List.mem_map.2 ⟨args[j], List.getElem_mem hjl, hd0⟩)
          have hmle : (m : Int) ≤ o.waterline - rounded (s (.inLevel op.res)) := by
            obtain ⟨b, hb1, hb2⟩ := List.mem_map.1 (maxOpt_mem hm1)
            obtain ⟨i, hi⟩ := List.getElem?_of_mem hb1
            have := hW i b hi
            split at this
            · obtain ⟨d, h1, h2⟩ := this
              rw [hb2] at h1
              cases h1
              exact h2
            · rw [hb2] at this
              exact absurd this (by simp)
          have hnotboot : op.kind ≠ .bootstrap := by
            intro hk
            have := (ht.kind op hop).1
            simp [hk, erased] at this
          have hnotadj : ∀ i, op.kind ≠ .adjustScale i := by
            intro i hk
            have := (ht.kind op hop).1
            simp [hk, erased] at this
          have hst : depStep t { op with args := args } = some (if counts op.kind then m + 1 else m) := by
            simp [depStep, hm1, hnotboot]
          set m' := if counts op.kind then m + 1 else m with hm'
          have hc01 : (m' : Int) ≤ m + intrinsic o op := by
            rw [hm', intrinsic, hk]
            by_cases hmul : op.kind = .mul
            · simp [hmul, counts]
            · have : counts op.kind = false := by
                rw [Bool.eq_false_iff, Ne, counts_iff]
                rintro (h | ⟨i, h⟩)
                · exact hmul h
                · exact hnotadj i h
              simp [hmul, this]
          have hint : intrinsic o op ≤ 1 := by unfold intrinsic; split <;> omega
          have hfit : (m' : Int) ≤ o.waterline ∧ (boots s op.res = false → (m' : Int) ≤ o.waterline - (ctOf s op.res).level) := by
            cases hbt : boots s op.res
            · have := (n1 hbt).1
              have h0 := (h.res_valid hsw hop').1
              have he : (ctOf s op.res).level = rounded (s (.level op.res)) := rfl
              rw [he] at h0 ⊢
              refine ⟨by omega, fun _ => by omega⟩
            · have hl : 1 ≤ o.lower := by
                rcases hb with hb | hb
                · exact hb
                · rw [hb op hop'] at hbt
                  exact absurd hbt (by simp)
              have hpos := (h.in_valid hsw hop').2.2.1
              have hbl := (n2 hbt).1
              have hsf := Opts.sf_pos hsw hfb
              have hll : o.lower ≤ rounded (s (.inLevel op.res)) := by
                by_contra hn
                have h1 : rounded (s (.inLevel op.res)) - o.lower + 1 ≤ 0 := by omega
                have h2 : o.sf * (rounded (s (.inLevel op.res)) - o.lower + 1) ≤ 0 :=
                  Int.mul_nonpos_of_nonneg_of_nonpos (by omega) h1
                have h3 : (inCt s op).scale = rounded (s (.inScale op.res)) := rfl
                omega
              exact ⟨by omega, fun hf => absurd hf (by simp)⟩
          have hp := dep_path hw0 hadj (id := id) (d := m') hfit.1
          refine ⟨some m', some (if .boot ∈ ms then 0 else m'), ⟨hst.symm, fun d hd => ?_⟩, ?_, ?_⟩
          · rw [hst] at hd
            cases hd
            exact hfit.1
          · refine path_append (y := some m') ?_ hp
            unfold relinOf
            split
            · refine ⟨some m', fun t u r ht => ?_, rfl⟩
              have : depStep t ⟨.relinearize, [u], r⟩ = some m' := by simp [depStep, maxOpt, optMax, ht, counts]
              exact ⟨this.symm, fun d hd => by rw [this] at hd; cases hd; exact hfit.1⟩
            · rfl
          · rw [if_pos rfl]
            refine ⟨_, rfl, ?_⟩
            have hrl := (h.res_valid hsw hop').2.1
            split
            · simpa using hrl
            · rename_i hnb
              refine hfit.2 ?_
              cases hbt : boots s op.res
              · rfl
              · rw [hbt, if_pos rfl] at hcount
                have : ¬ ms.countP (· == .boot) = 0 := by omega
                rw [List.countP_eq_zero] at this
                exact absurd (fun m hm hb => hnb (by rw [beq_iff_eq] at hb; exact hb ▸ hm)) this)
    (· < p.nargs) (depEntry p) (Nat.le_refl _) hw.ssa (fun v hv => Nat.lt_of_lt_of_le hv hw.nargs)
    (GoodRen.id (Nat.le_refl _) _) (by
      intro v hv
      simp only [depEntry, id, hv, true_and, hsec v hv]
      cases hs : p.secArg v
      · simp
      · have hm : v ∈ secretArgs c p := by simp [secretArgs, hv, hsec v hv, hs]
        have := (h.arg_valid hsw hm).2.1
        simp only [if_true]
        exact ⟨0, rfl, by simpa using this⟩)
  have e1' : ExecR (fun t op x => x = depStep t op ∧ ∀ d : Nat, depStep t op = some d → (d : Int) ≤ o.waterline)
      (depEntry p) ops t' := e1
  obtain ⟨r1, r2⟩ := execR_run e1'
  obtain ⟨d, hd, hkd⟩ := reach_le hwq hr
  have hfin : (d : Int) ≤ o.waterline := by
    by_cases hop : ∃ op ∈ ops, op.res = v
    · obtain ⟨op, hop, rfl⟩ := hop
      obtain ⟨t'', g1, g2, g3⟩ := final_of_allSteps depStep
        (fun t op => ∀ d : Nat, depStep t op = some d → (d : Int) ≤ o.waterline) ops _ _ hwq.ssa r1 op hop
      apply g1
      rw [g3]
      exact hd
    · push Not at hop
      rw [deps, run_of_not_res _ _ _ _ (fun o ho => hop o ho)] at hd
      simp only [depEntry] at hd
      split at hd
      · cases hd; simpa using hw0
      · exact absurd hd (by simp)
  omega

end
end Heir.Place
