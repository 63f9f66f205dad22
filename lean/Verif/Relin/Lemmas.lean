import Verif.Relin.Model
import Verif.Relin.Spec
import Mathlib.Tactic.Linarith
import Mathlib.Tactic.NormNum
import Mathlib.Tactic.Positivity

/-! # Removing and inserting relinearizations -/

namespace Heir.Relin
open Heir.Mgmt

/-- Induction over the values of a program. -/
theorem ssa_ind {N : Nat} (Q : Nat → Prop) (l : List Op) : ∀ (P : Nat → Prop), SSA N P l → (∀ v, P v → Q v) →
    (∀ o ∈ l, (∀ a ∈ o.args, Q a) → Q o.res) → ∀ o ∈ l, Q o.res ∧ ∀ a ∈ o.args, Q a := by
  induction l with
  | nil => intro P _ _ _ o ho; simp at ho
  | cons o l ih =>
    intro P h h0 hs o' ho'
    have hargs : ∀ a ∈ o.args, Q a := fun a ha => h0 a (h.1 a ha)
    have ho : Q o.res := hs o (by simp) hargs
    rcases List.mem_cons.1 ho' with rfl | ho'
    · exact ⟨ho, hargs⟩
    · refine ih _ h.2.2.2.2.2 ?_ (fun o ho => hs o (by simp [ho])) o' ho'
      rintro v (hv | rfl)
      · exact h0 v hv
      · exact ho

/-! ## Removing -/

/-- A sweep finds at the renamed values what it finds in the program with the relinearizations, if they hand on what
they get. -/
theorem strip_run {α : Type} (st : (Nat → α) → Op → α)
    (hren : ∀ (t t' : Nat → α) (σ : Nat → Nat) (op : Op), (op.kind.isMgmt = true → op.args.length = 1) →
      (∀ a ∈ op.args, t' (σ a) = t a) → st t' { op with args := op.args.map σ } = st t op)
    (hrel : ∀ (t : Nat → α) (a r : Nat), st t ⟨.relinearize, [a], r⟩ = t a) {N : Nat} (ops : List Op) :
    ∀ (P P' : Nat → Prop) (σ : Nat → Nat) (t t' : Nat → α), SSA N P ops → (∀ v, P v → P' (σ v)) →
      (∀ v, P' v → P v) → (∀ v, ¬ P v → σ v = v) → (∀ v, P v → t' (σ v) = t v) →
      ∀ v, (P v ∨ ∃ o ∈ ops, o.res = v) → run st (strip σ ops).2 t' ((strip σ ops).1 v) = run st ops t v := by
  induction ops with
  | nil =>
    rintro P P' σ t t' _ _ _ _ h v (hv | ⟨o, ho, _⟩)
    · exact h v hv
    · simp at ho
  | cons op ops ih =>
    intro P P' σ t t' hs hσ hP hid ht v hv
    obtain ⟨h1, h2, h3, h4, h5, h6⟩ := hs
    have hv' : (P v ∨ v = op.res) ∨ ∃ o ∈ ops, o.res = v := by
      rcases hv with h | ⟨o, ho, h⟩
      · exact Or.inl (Or.inl h)
      · rcases List.mem_cons.1 ho with rfl | ho
        · exact Or.inl (Or.inr h.symm)
        · exact Or.inr ⟨o, ho, h⟩
    rw [strip, run]
    split
    · rename_i hk
      have hl := h4 (by rw [hk]; rfl)
      obtain ⟨k, args, r⟩ := op
      simp only at hk hl h1 h2 h6 hv'
      subst hk
      match args, hl with
      | [a], _ =>
        refine ih _ P' _ _ t' h6 ?_ (fun u hu => Or.inl (hP u hu)) ?_ ?_ v hv'
        · intro u hu
          by_cases hur : u = r
          · subst hur; rw [upd_eq]; exact hσ a (h1 a (by simp))
          · rw [upd_ne _ _ hur]; exact hσ u (hu.resolve_right hur)
        · intro u hu
          rw [not_or] at hu
          rw [upd_ne _ _ hu.2]
          exact hid u hu.1
        · intro u hu
          by_cases hur : u = r
          · subst hur
            rw [upd_eq, upd_eq, hrel]
            exact ht a (h1 a (by simp))
          · rw [upd_ne _ _ hur, upd_ne _ _ hur]
            exact ht u (hu.resolve_right hur)
    · simp only
      rw [run]
      refine ih _ (fun u => P' u ∨ u = op.res) σ _ _ h6 ?_ ?_ ?_ ?_ v hv'
      · rintro u (hu | rfl)
        · exact Or.inl (hσ u hu)
        · exact Or.inr (hid _ h2)
      · rintro u (hu | rfl)
        · exact Or.inl (hP u hu)
        · exact Or.inr rfl
      · intro u hu
        exact hid u fun h => hu (Or.inl h)
      · intro u hu
        by_cases hur : u = op.res
        · subst hur
          rw [hid _ h2]
          simp only [upd_eq]
          exact hren t t' σ op h4 fun a ha => ht a (h1 a ha)
        · have hu' := hu.resolve_right hur
          have hne : σ u ≠ op.res := fun h => h2 (h ▸ hP _ (hσ u hu'))
          simp only [upd_ne _ _ hur, upd_ne _ _ hne]
          exact ht u hu'

theorem strip_ssa {N : Nat} (ops : List Op) :
    ∀ (P P' : Nat → Prop) (σ : Nat → Nat), SSA N P ops → (∀ v, P v → P' (σ v)) →
      (∀ v, P' v → P v) → (∀ v, ¬ P v → σ v = v) →
      SSA N P' (strip σ ops).2 ∧ ∀ v, (P v ∨ ∃ o ∈ ops, o.res = v) →
        P' ((strip σ ops).1 v) ∨ ∃ o ∈ (strip σ ops).2, o.res = (strip σ ops).1 v := by
  induction ops with
  | nil =>
    intro P P' σ _ hσ _ _
    refine ⟨trivial, ?_⟩
    rintro v (hv | ⟨o, ho, _⟩)
    · exact Or.inl (hσ v hv)
    · simp at ho
  | cons op ops ih =>
    intro P P' σ hs hσ hP hid
    obtain ⟨h1, h2, h3, h4, h5, h6⟩ := hs
    have hv' : ∀ v, (P v ∨ ∃ o ∈ op :: ops, o.res = v) → (P v ∨ v = op.res) ∨ ∃ o ∈ ops, o.res = v := by
      rintro v (h | ⟨o, ho, h⟩)
      · exact Or.inl (Or.inl h)
      · rcases List.mem_cons.1 ho with rfl | ho
        · exact Or.inl (Or.inr h.symm)
        · exact Or.inr ⟨o, ho, h⟩
    rw [strip]
    split
    · rename_i hk
      have hl := h4 (by rw [hk]; rfl)
      obtain ⟨k, args, r⟩ := op
      simp only at hk hl h1 h2 h6 hv'
      subst hk
      match args, hl with
      | [a], _ =>
        obtain ⟨i1, i2⟩ := ih _ P' (upd σ r (σ a)) h6
          (by intro u hu
              by_cases hur : u = r
              · subst hur; rw [upd_eq]; exact hσ a (h1 a (by simp))
              · rw [upd_ne _ _ hur]; exact hσ u (hu.resolve_right hur))
          (fun u hu => Or.inl (hP u hu))
          (by intro u hu
              rw [not_or] at hu
              rw [upd_ne _ _ hu.2]
              exact hid u hu.1)
        exact ⟨i1, fun v hv => i2 v (hv' v hv)⟩
    · obtain ⟨i1, i2⟩ := ih _ (fun u => P' u ∨ u = op.res) σ h6
        (by rintro u (hu | rfl)
            · exact Or.inl (hσ u hu)
            · exact Or.inr (hid _ h2))
        (by rintro u (hu | rfl)
            · exact Or.inl (hP u hu)
            · exact Or.inr rfl)
        (by intro u hu
            exact hid u fun h => hu (Or.inl h))
      refine ⟨⟨?_, fun h => h2 (hP _ h), h3, by simpa using h4, by simpa using h5, i1⟩, ?_⟩
      · intro a ha
        obtain ⟨b, hb, rfl⟩ := List.mem_map.1 ha
        exact hσ b (h1 b hb)
      · intro v hv
        rcases i2 v (hv' v hv) with (h | h) | ⟨o, ho, h⟩
        · exact Or.inl h
        · exact Or.inr ⟨_, List.mem_cons_self, h.symm⟩
        · exact Or.inr ⟨o, List.mem_cons_of_mem _ ho, h⟩

/-- What is left. -/
theorem strip_mem (ops : List Op) : ∀ σ, ∀ o ∈ (strip σ ops).2, o.kind ≠ .relinearize ∧
    ∃ op ∈ ops, op.kind = o.kind ∧ op.res = o.res := by
  induction ops with
  | nil => intro σ o ho; simp [strip] at ho
  | cons op ops ih =>
    intro σ o ho
    rw [strip] at ho
    split at ho
    · obtain ⟨h1, op', h2, h3⟩ := ih _ o ho
      exact ⟨h1, op', by simp [h2], h3⟩
    · rename_i hk
      rcases List.mem_cons.1 ho with rfl | ho
      · exact ⟨hk, op, by simp, rfl, rfl⟩
      · obtain ⟨h1, op', h2, h3⟩ := ih _ o ho
        exact ⟨h1, op', by simp [h2], h3⟩

theorem strip_ren (ops : List Op) : ∀ σ v, (∀ o ∈ ops, o.kind = .relinearize → o.res ≠ v) → (strip σ ops).1 v = σ v := by
  induction ops with
  | nil => intro σ v _; rfl
  | cons op ops ih =>
    intro σ v h
    rw [strip]
    split
    · rename_i hk
      rw [ih _ _ fun o ho => h o (by simp [ho]), upd_ne _ _ (h op (by simp) hk).symm]
    · exact ih _ _ fun o ho => h o (by simp [ho])

theorem stripProg_wf {p : Prog} (hw : p.WF) : (stripProg p).WF := by
  obtain ⟨h1, h2⟩ := strip_ssa p.ops (· < p.nargs) (· < p.nargs) id hw.ssa (fun _ h => h) (fun _ h => h) (fun _ _ => rfl)
  refine ⟨hw.nargs, h1, ?_⟩
  intro y hy
  obtain ⟨x, hx, rfl⟩ := List.mem_map.1 hy
  exact h2 x (hw.yields x hx)

theorem stripProg_result {D : Type} {p : Prog} (hw : p.WF) (I : Kind → List D → D) (env : Nat → D) :
    (stripProg p).result I env = p.result I env := by
  simp only [Prog.result, stripProg, eval_eq_run, List.map_map]
  apply List.map_congr_left
  intro y hy
  refine strip_run (evalOp I) ?_ (fun t a r => by simp [evalOp, Kind.isMgmt]) p.ops (· < p.nargs) (· < p.nargs) id env env
    hw.ssa (fun _ h => h) (fun _ h => h) (fun _ _ => rfl) (fun _ _ => rfl) y (hw.yields y hy)
  intro t t' σ op hm h
  apply evalOp_congr I t t' op _ (by simp) hm
  intro j hj
  have hj' : j < (op.args.map σ).length := by simpa using hj
  rw [List.getD_eq_getElem _ _ hj, List.getD_eq_getElem _ _ hj', List.getElem_map]
  exact (h _ (List.getElem_mem hj)).symm

theorem stripProg_secs {p : Prog} (hw : p.WF) {v : Nat} (hv : v < p.nargs ∨ ∃ o ∈ (stripProg p).ops, o.res = v) :
    secs (stripProg p) v = secs p v := by
  have hren : (strip id p.ops).1 v = v := by
    refine strip_ren p.ops id v fun o ho hk hr => ?_
    rcases hv with hv | ⟨o', ho', hr'⟩
    · exact SSA.res_ne hw.ssa v hv o ho hr
    · obtain ⟨h1, op, h2, h3, h4⟩ := strip_mem p.ops id o' ho'
      have := SSA.inj hw.ssa o ho op h2 (by rw [hr, h4, hr'])
      subst this
      exact h1 (by rw [← h3, hk])
  have hv' : v < p.nargs ∨ ∃ o ∈ p.ops, o.res = v := by
    rcases hv with hv | ⟨o', ho', hr'⟩
    · exact Or.inl hv
    · obtain ⟨-, op, h2, -, h4⟩ := strip_mem p.ops id o' ho'
      exact Or.inr ⟨op, h2, by rw [h4, hr']⟩
  have := strip_run secStep (fun t t' σ op _ h => by
      simp only [secStep, List.any_map]
      exact any_congr_mem h)
    (fun t a r => by simp [secStep]) p.ops (· < p.nargs) (· < p.nargs) id (secEntry p) (secEntry p)
    hw.ssa (fun _ h => h) (fun _ h => h) (fun _ _ => rfl) (fun _ _ => rfl) v hv'
  rw [hren] at this
  exact this

/-! ## Inserting -/

/-- The renaming an insertion amounts to. -/
def ren (k : Kind) (hit : Op → Bool) (p : Prog) : Nat → Nat := (after k hit p.next id p.ops).2.1

theorem after_ren {k : Kind} {hit : Op → Bool} {base : Nat} (ops : List Op) :
    ∀ (P : Nat → Prop) (n : Nat) (σ : Nat → Nat), SSA base P ops → ∀ v, (∀ o ∈ ops, o.res ≠ v) →
      (after k hit n σ ops).2.1 v = σ v := by
  induction ops with
  | nil => intro P n σ _ v _; rfl
  | cons op ops ih =>
    intro P n σ hs v hv
    rw [after]
    simp only
    split
    · simp only
      rw [ih _ _ _ hs.2.2.2.2.2 v fun o ho => hv o (by simp [ho]), upd_ne _ _ (hv op (by simp)).symm]
    · exact ih _ _ _ hs.2.2.2.2.2 v fun o ho => hv o (by simp [ho])

/-- The operations after an insertion, in terms of the final renaming. -/
theorem after_ops {k : Kind} {hitV : Nat → Bool} {base : Nat} (ops : List Op) :
    ∀ (P : Nat → Prop) (n : Nat) (σ : Nat → Nat), base ≤ n → SSA base P ops → GoodRen base n P σ →
      let r := after k (fun op => hitV op.res) n σ ops
      (∀ o ∈ r.2.2, (∃ op ∈ ops, o = { op with args := op.args.map r.2.1 }) ∨
        ∃ op ∈ ops, hitV op.res = true ∧ o = ⟨k, [op.res], r.2.1 op.res⟩) ∧
      (∀ op ∈ ops, { op with args := op.args.map r.2.1 } ∈ r.2.2 ∧
        (hitV op.res = true → ⟨k, [op.res], r.2.1 op.res⟩ ∈ r.2.2) ∧
        (hitV op.res = false → r.2.1 op.res = op.res)) := by
  induction ops with
  | nil => intro P n σ _ _ _; simp [after]
  | cons op ops ih =>
    intro P n σ hb hs hσ
    have hs' := hs
    obtain ⟨h1, h2, h3, h4, h5, h6⟩ := hs
    have hres : σ op.res = op.res := by
      rcases hσ.cases op.res with h | ⟨_, h⟩
      · exact h
      · exact absurd h h2
    have hdef : ∀ v, P v ∨ v = op.res → ∀ o ∈ ops, o.res ≠ v := fun v hv => SSA.res_ne h6 v hv
    intro r
    by_cases hh : hitV op.res = true
    · have hr : r = ((after k (fun op => hitV op.res) (n + 1) (upd σ op.res n) ops).1,
          (after k (fun op => hitV op.res) (n + 1) (upd σ op.res n) ops).2.1,
          { op with args := op.args.map σ } :: ⟨k, [op.res], n⟩ ::
            (after k (fun op => hitV op.res) (n + 1) (upd σ op.res n) ops).2.2) := by
        simp only [r]
        rw [after]
        simp [hh]
      have hren : ∀ v, P v ∨ v = op.res → r.2.1 v = upd σ op.res n v := by
        intro v hv
        rw [hr]
        exact after_ren ops _ _ _ h6 v (hdef v hv)
      have hargs : op.args.map r.2.1 = op.args.map σ := List.map_congr_left fun a ha => by
        rw [hren a (Or.inl (h1 a ha)), upd_ne]
        rintro rfl
        exact h2 (h1 _ ha)
      have hrr : r.2.1 op.res = n := by rw [hren _ (Or.inr rfl), upd_eq]
      obtain ⟨i1, i2⟩ := ih _ (n + 1) _ (by omega) h6 (hσ.upd hb op.res)
      have e1 : r.2.1 = (after k (fun op => hitV op.res) (n + 1) (upd σ op.res n) ops).2.1 := by rw [hr]
      have e2 : r.2.2 = { op with args := op.args.map r.2.1 } :: ⟨k, [op.res], r.2.1 op.res⟩ ::
            (after k (fun op => hitV op.res) (n + 1) (upd σ op.res n) ops).2.2 := by
        rw [hargs, hrr, hr]
      simp only [← e1] at i1 i2
      rw [e2]
      refine ⟨fun o ho => ?_, fun o ho => ?_⟩
      · simp only [List.mem_cons] at ho
        rcases ho with rfl | rfl | ho
        · exact Or.inl ⟨op, by simp, rfl⟩
        · exact Or.inr ⟨op, by simp, hh, rfl⟩
        · rcases i1 o ho with ⟨x, hx, h⟩ | ⟨x, hx, h⟩
          · exact Or.inl ⟨x, by simp [hx], h⟩
          · exact Or.inr ⟨x, by simp [hx], h⟩
      · rcases List.mem_cons.1 ho with rfl | ho
        · exact ⟨by simp, fun _ => by simp, fun h => by rw [hh] at h; cases h⟩
        · obtain ⟨j1, j2, j3⟩ := i2 o ho
          exact ⟨by simp [j1], fun h => by simp [j2 h], j3⟩
    · have hf : hitV op.res = false := by simpa using hh
      have hr : r = ((after k (fun op => hitV op.res) n σ ops).1,
          (after k (fun op => hitV op.res) n σ ops).2.1,
          { op with args := op.args.map σ } :: (after k (fun op => hitV op.res) n σ ops).2.2) := by
        simp only [r]
        rw [after]
        simp [hf]
      have hren : ∀ v, P v ∨ v = op.res → r.2.1 v = σ v := by
        intro v hv
        rw [hr]
        exact after_ren ops _ _ _ h6 v (hdef v hv)
      have hargs : op.args.map r.2.1 = op.args.map σ := List.map_congr_left fun a ha => hren a (Or.inl (h1 a ha))
      have hrr : r.2.1 op.res = op.res := by rw [hren _ (Or.inr rfl), hres]
      obtain ⟨i1, i2⟩ := ih _ n _ hb h6 (hσ.mono (Nat.le_refl _) fun _ h => Or.inl h)
      have e1 : r.2.1 = (after k (fun op => hitV op.res) n σ ops).2.1 := by rw [hr]
      have e2 : r.2.2 = { op with args := op.args.map r.2.1 } :: (after k (fun op => hitV op.res) n σ ops).2.2 := by
        rw [hargs, hr]
      simp only [← e1] at i1 i2
      rw [e2]
      refine ⟨fun o ho => ?_, fun o ho => ?_⟩
      · simp only [List.mem_cons] at ho
        rcases ho with rfl | ho
        · exact Or.inl ⟨op, by simp, rfl⟩
        · rcases i1 o ho with ⟨x, hx, h⟩ | ⟨x, hx, h⟩
          · exact Or.inl ⟨x, by simp [hx], h⟩
          · exact Or.inr ⟨x, by simp [hx], h⟩
      · rcases List.mem_cons.1 ho with rfl | ho
        · exact ⟨by simp, (fun h => by rw [hf] at h; cases h), fun _ => hrr⟩
        · obtain ⟨j1, j2, j3⟩ := i2 o ho
          exact ⟨by simp [j1], fun h => by simp [j2 h], j3⟩

theorem after_count {hitV : Nat → Bool} (ops : List Op) (hk : ∀ o ∈ ops, o.kind ≠ .relinearize) :
    ∀ (n : Nat) (σ : Nat → Nat),
      ((after .relinearize (fun op => hitV op.res) n σ ops).2.2.filter fun o => o.kind = .relinearize).length =
        (ops.filter fun o => hitV o.res).length := by
  induction ops with
  | nil => intro n σ; rfl
  | cons op ops ih =>
    intro n σ
    have hk' := hk op (by simp)
    have ih' := ih fun o ho => hk o (by simp [ho])
    rw [after]
    cases hh : hitV op.res <;> simp [hh, hk', ih']

theorem comps_res {p : Prog} (hw : p.WF) {op : Op} (h : op ∈ p.ops) :
    comps p op.res = compStep (secs p) (comps p) op := by
  obtain ⟨t', _, h1, h2⟩ := final_of_allSteps (compStep (secs p)) (fun _ _ => True) p.ops _ (fun _ => 2) hw.ssa
    (allSteps_true _ _ _) op h
  rw [comps, ← h2]
  have e1 : ((op.args.filter (secs p)).map fun a => t' a - 1) =
      (op.args.filter (secs p)).map fun a => run (compStep (secs p)) p.ops (fun _ => 2) a - 1 :=
    List.map_congr_left fun a ha => by rw [h1 a (List.mem_filter.1 ha).1]
  have e2 : ((op.args.filter (secs p)).map t') = (op.args.filter (secs p)).map (run (compStep (secs p)) p.ops (fun _ => 2)) :=
    List.map_congr_left fun a ha => by rw [h1 a (List.mem_filter.1 ha).1]
  simp only [compStep, e1, e2]

theorem comps_arg {p : Prog} (hw : p.WF) {v : Nat} (h : v < p.nargs) : comps p v = 2 := by
  rw [comps, run_of_not_res]
  exact SSA.res_ne hw.ssa v h

/-- The insertion of relinearizations after the operations in `H` of a program without relinearizations, in terms of
the components before and after: what the program looks like to the linear program. -/
structure Placement (p : Prog) (H : Nat → Bool) (q : Prog) (ρ : Nat → Nat) : Prop where
  wf : q.WF
  ops : ∀ o ∈ q.ops, (∃ op ∈ p.ops, o = { op with args := op.args.map ρ }) ∨
    ∃ op ∈ p.ops, H op.res = true ∧ o = ⟨.relinearize, [op.res], ρ op.res⟩
  mem : ∀ op ∈ p.ops, { op with args := op.args.map ρ } ∈ q.ops
  yields : q.yields = p.yields.map ρ
  sec : ∀ v, (v < p.nargs ∨ ∃ o ∈ p.ops, o.res = v) → secs q v = secs p v ∧ secs q (ρ v) = secs p v
  argd : ∀ v < p.nargs, comps q (ρ v) = 2
  after : ∀ op ∈ p.ops, comps q (ρ op.res) = if H op.res then 2 else comps q op.res

theorem placement {p : Prog} (hw : p.WF) (H : Nat → Bool) :
    Placement p H (afterProg .relinearize (fun op => H op.res) p) (ren .relinearize (fun op => H op.res) p) := by
  have hlt : ∀ v, v < p.nargs → v < p.next := fun v hv => Nat.lt_of_lt_of_le hv hw.nargs
  have hq := afterProg_wf (k := .relinearize) rfl (fun op => H op.res) hw
  obtain ⟨h1, h2⟩ := after_ops (k := .relinearize) (hitV := H) p.ops (· < p.nargs) p.next id (Nat.le_refl _) hw.ssa
    (GoodRen.id (Nat.le_refl _) _)
  refine ⟨hq, h1, fun op hop => (h2 op hop).1, rfl, ?_, ?_, ?_⟩
  · intro v hv
    have hv' : v < p.next := by
      rcases hv with hv | ⟨o, ho, rfl⟩
      · exact hlt v hv
      · exact (hw.ids o ho).1
    exact after_secs _ p.ops (· < p.nargs) p.next id (secEntry p) (secEntry p) (Nat.le_refl _) hw.ssa hlt
      (GoodRen.id (Nat.le_refl _) _) (fun _ _ => ⟨rfl, rfl⟩) v hv'
  · intro v hv
    rw [ren, after_ren p.ops _ _ _ hw.ssa v (SSA.res_ne hw.ssa v hv)]
    exact comps_arg hq hv
  · intro op hop
    obtain ⟨-, j2, j3⟩ := h2 op hop
    cases hh : H op.res with
    | true =>
      have := comps_res hq (j2 hh)
      simpa [compStep, ren] using this
    | false =>
      rw [ren, j3 hh]
      simp

end Heir.Relin
