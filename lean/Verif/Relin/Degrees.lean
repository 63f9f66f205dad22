import Verif.Relin.Lemmas
import Mathlib.Tactic.Ring
import Mathlib.Algebra.BigOperators.Group.List.Basic
import Mathlib.Algebra.Order.BigOperators.Group.List

/-! # What the linear program says about the program -/

namespace Heir.Relin
open Heir.Mgmt

/-- What the linear program is told about the program. -/
structure Told (c : Ctx) (p : Prog) : Prop where
  wf : p.WF
  kind : ∀ op ∈ p.ops, op.kind ≠ .relinearize
  sec : ∀ v, (v < p.nargs ∨ ∃ o ∈ p.ops, o.res = v) → c.sec v = secs p v
  dim : ∀ v < p.nargs, secs p v = true → c.dim v = some 2

theorem value_of_mem {p : Prog} (hw : p.WF) {op : Op} (hop : op ∈ p.ops) :
    (op.res < p.nargs ∨ ∃ o ∈ p.ops, o.res = op.res) ∧ ∀ a ∈ op.args, a < p.nargs ∨ ∃ o ∈ p.ops, o.res = a := by
  have := ssa_ind (fun v => v < p.nargs ∨ ∃ o ∈ p.ops, o.res = v) p.ops _ hw.ssa (fun v hv => Or.inl hv)
    (fun o ho _ => Or.inr ⟨o, ho, rfl⟩) op hop
  exact this

theorem Told.res {c : Ctx} {p : Prog} (h : Told c p) {op : Op} (hop : op ∈ p.ops) : c.sec op.res = secs p op.res :=
  h.sec _ (Or.inr ⟨op, hop, rfl⟩)

theorem Told.arg {c : Ctx} {p : Prog} (h : Told c p) {op : Op} (hop : op ∈ p.ops) {a : Nat} (ha : a ∈ op.args) :
    c.sec a = secs p a := h.sec a ((value_of_mem h.wf hop).2 a ha)

theorem Told.filter {c : Ctx} {p : Prog} (h : Told c p) {op : Op} (hop : op ∈ p.ops) :
    op.args.filter c.sec = op.args.filter (secs p) := List.filter_congr fun _ ha => h.arg hop ha

theorem Placement.before {p q : Prog} {H : Nat → Bool} {ρ : Nat → Nat} (h : Placement p H q ρ) (hw : p.WF) {op : Op}
    (hop : op ∈ p.ops) : comps q op.res = compStep (secs p) (fun a => comps q (ρ a)) op := by
  have := comps_res h.wf (h.mem op hop)
  have hfil : (op.args.map ρ).filter (secs q) = (op.args.filter (secs p)).map ρ := by
    rw [List.filter_map]
    congr 1
    exact List.filter_congr fun a ha => (h.sec a ((value_of_mem hw hop).2 a ha)).2
  simp only [compStep, hfil, List.map_map] at this
  simpa [compStep, Function.comp_def] using this

/-! ### The constraints one by one -/

section
variable {c : Ctx} {p : Prog} {s : Var → ℚ}

theorem con_arg (h : Feasible c p s) {v : Nat} (hv : v < p.nargs) (hs : c.sec v = true) :
    s (.deg v) = ((c.dim v).getD 2 : Nat) - 1 := by
  have := h.cons (eqConst (.deg v) (((c.dim v).getD 2 : Nat) - 1 : ℚ)) (by
    simp only [constraints, argCons, List.mem_append, List.mem_map, List.mem_filter, List.mem_range]
    exact Or.inl (Or.inl (Or.inl (Or.inl (Or.inl (Or.inl ⟨v, ⟨hv, hs⟩, rfl⟩))))))
  simpa [Con.Holds, Con.lhs, eqConst] using this

theorem con_equal (h : Feasible c p s) {op : Op} (hop : op ∈ p.ops) : ∀ k ∈ equalCons c op.args, k.Holds s := by
  intro k hk
  apply h.cons
  simp only [constraints, List.mem_append, List.mem_flatMap]
  exact Or.inl (Or.inl (Or.inl (Or.inl (Or.inl (Or.inr ⟨op, hop, hk⟩)))))

theorem con_linear (h : Feasible c p s) {op : Op} (hop : op ∈ p.ops) (hl : requireLinear c op = true) {a : Nat}
    (ha : a ∈ op.args) (hs : c.sec a = true) : s (.deg a) = 1 := by
  have := h.cons (eqConst (.deg a) 1) (by
    simp only [constraints, List.mem_append, List.mem_flatMap]
    refine Or.inl (Or.inl (Or.inl (Or.inr ⟨op, hop, ?_⟩)))
    rw [if_pos hl]
    exact List.mem_map.2 ⟨a, List.mem_filter.2 ⟨ha, hs⟩, rfl⟩)
  simpa [Con.Holds, Con.lhs, eqConst] using this

theorem con_yield (h : Feasible c p s) {y : Nat} (hy : y ∈ p.yields) (hs : c.sec y = true) : s (.deg y) = 1 := by
  have := h.cons (eqConst (.deg y) 1) (by
    simp only [constraints, List.mem_append]
    exact Or.inl (Or.inl (Or.inr (List.mem_map.2 ⟨y, List.mem_filter.2 ⟨hy, hs⟩, rfl⟩))))
  simpa [Con.Holds, Con.lhs, eqConst] using this

theorem con_before (h : Feasible c p s) {op : Op} (hop : op ∈ p.ops) : ∀ k ∈ beforeCons c op, k.Holds s := by
  intro k hk
  apply h.cons
  simp only [constraints, List.mem_append, List.mem_flatMap]
  exact Or.inl (Or.inr ⟨op, hop, hk⟩)

theorem con_decision (h : Feasible c p s) {op : Op} (hop : op ∈ p.ops) (hs : c.sec op.res = true) :
    s (.deg op.res) = if s (.dec op.res) ≠ 0 then 1 else s (.before op.res) := by
  have hk : ∀ k ∈ decisionCons c op, k.Holds s := fun k hk => by
    apply h.cons
    simp only [constraints, List.mem_append, List.mem_flatMap]
    exact Or.inr ⟨op, hop, hk⟩
  simp only [decisionCons, hs, if_true, List.mem_cons, List.not_mem_nil, or_false, forall_eq_or_imp, forall_eq] at hk
  obtain ⟨k1, k2, k3, k4⟩ := hk
  simp only [Con.Holds, Con.lhs, Bool.false_eq_true, if_false, List.map_cons, List.map_nil, List.sum_cons, List.sum_nil,
    ifThenAux] at k1 k2 k3 k4
  rcases h.box.dec op hop hs with hd | hd
  · rw [hd] at k1 k2 k3 k4 ⊢
    rw [if_neg (by simp)]
    linarith
  · rw [hd] at k1 k2 k3 k4 ⊢
    rw [if_pos (by norm_num)]
    linarith

end

/-- The secret operands of an operation have one degree. -/
theorem equal_of_feasible {c : Ctx} {p : Prog} {s : Var → ℚ} (ht : Told c p) (hf : Feasible c p s) (hmx : c.mixed = false)
    {op : Op} (hop : op ∈ p.ops) {a b : Nat} (ha : a ∈ op.args) (hb : b ∈ op.args) (hsa : secs p a = true)
    (hsb : secs p b = true) : s (.deg a) = s (.deg b) := by
  have hce := con_equal hf hop
  unfold equalCons at hce
  simp only [hmx, Bool.false_eq_true, if_false, ht.filter hop] at hce
  have ha : a ∈ op.args.filter (secs p) := List.mem_filter.2 ⟨ha, hsa⟩
  have hb : b ∈ op.args.filter (secs p) := List.mem_filter.2 ⟨hb, hsb⟩
  obtain ⟨x, l, hxl⟩ := List.exists_cons_of_ne_nil (List.ne_nil_of_mem ha)
  rw [hxl] at ha hb
  simp only [hxl] at hce
  have key : ∀ y ∈ x :: l, s (.deg y) = s (.deg x) := by
    intro y hy
    rcases List.mem_cons.1 hy with rfl | hy
    · rfl
    · by_cases hyx : y = x
      · rw [hyx]
      · have := hce _ (List.mem_map.2 ⟨y, List.mem_filter.2 ⟨hy, by simpa using hyx⟩, rfl⟩)
        simp only [Con.Holds, Con.lhs, eqVar, List.map_cons, List.map_nil, List.sum_cons, List.sum_nil, if_true] at this
        linarith
  rw [key a ha, key b hb]

/-- The same degrees, or at most those of the linear program where it only bounds them. -/
def Agree (mixed : Bool) (x y : ℚ) : Prop := if mixed then x ≤ y else x = y

theorem Agree.le {m : Bool} {x y : ℚ} (h : Agree m x y) : x ≤ y := by
  unfold Agree at h
  split at h
  · exact h
  · exact h.le

theorem foldr_max_le (l : List Nat) (b : Nat) (h : ∀ x ∈ l, x ≤ b) : l.foldr max 0 ≤ b := by
  induction l with
  | nil => simp
  | cons a l ih =>
    simp only [List.foldr_cons]
    have := h a (by simp)
    have := ih fun x hx => h x (by simp [hx])
    omega

theorem le_foldr_max (l : List Nat) {x : Nat} (h : x ∈ l) : x ≤ l.foldr max 0 := by
  induction l with
  | nil => simp at h
  | cons a l ih =>
    simp only [List.foldr_cons]
    rcases List.mem_cons.1 h with rfl | h
    · omega
    · have := ih h; omega

theorem foldr_max_eq (l : List Nat) (b : Nat) (hne : l ≠ []) (h : ∀ x ∈ l, x = b) : l.foldr max 0 = b := by
  apply le_antisymm
  · exact foldr_max_le l b fun x hx => (h x hx).le
  · obtain ⟨x, hx⟩ := List.exists_mem_of_ne_nil l hne
    exact (h x hx) ▸ le_foldr_max l hx

/-- The degrees of the solution are those of the program the pass leaves. -/
theorem degrees {c : Ctx} {p q : Prog} {s : Var → ℚ} {ρ : Nat → Nat} (ht : Told c p) (hf : Feasible c p s)
    (hp : Placement p (fun v => c.sec v && decide (s (.dec v) ≠ 0)) q ρ) :
    (∀ v, (v < p.nargs ∨ ∃ o ∈ p.ops, o.res = v) → secs p v = true →
      2 ≤ comps q (ρ v) ∧ Agree c.mixed (comps q (ρ v)) (s (.deg v) + 1)) ∧
    ∀ op ∈ p.ops, secs p op.res = true →
      2 ≤ comps q op.res ∧ Agree c.mixed (comps q op.res) (s (.before op.res) + 1) := by
  have harg : ∀ v, v < p.nargs → secs p v = true →
      2 ≤ comps q (ρ v) ∧ Agree c.mixed (comps q (ρ v)) (s (.deg v) + 1) := by
    intro v hv hs
    rw [hp.argd v hv, con_arg hf hv (by rw [ht.sec v (Or.inl hv), hs]), ht.dim v hv hs]
    refine ⟨le_rfl, ?_⟩
    unfold Agree
    split <;> norm_num
  have hstep : ∀ op ∈ p.ops, (∀ a ∈ op.args, secs p a = true →
        2 ≤ comps q (ρ a) ∧ Agree c.mixed (comps q (ρ a)) (s (.deg a) + 1)) → secs p op.res = true →
      2 ≤ comps q op.res ∧ Agree c.mixed (comps q op.res) (s (.before op.res) + 1) := by
    intro op hop ih hs
    have hb := hp.before ht.wf hop
    have hcb := con_before hf hop
    have hres : c.sec op.res = true := by rw [ht.res hop, hs]
    have hany : ∃ a ∈ op.args, secs p a = true := by
      rw [secs_res ht.wf hop, List.any_eq_true] at hs
      exact hs
    unfold compStep at hb
    rw [if_neg (ht.kind op hop)] at hb
    unfold beforeCons at hcb
    simp only [hres, if_true] at hcb
    by_cases hm : op.kind = .mul
    · rw [if_pos hm] at hb
      simp only [hm, if_true] at hcb
      have hl := (SSA.arity ht.wf.ssa op hop).2 (Or.inr (Or.inr hm))
      have hfil := ht.filter hop
      have hsa : ∀ a ∈ op.args, c.sec a = secs p a := fun a ha => ht.arg hop ha
      match hargs : op.args, hl with
      | [a, b], _ =>
        simp only [hargs] at hcb hb hany ih hfil hsa
        have ea := hsa a (by simp)
        have eb := hsa b (by simp)
        cases sa : secs p a with
        | true =>
          obtain ⟨a2, aa⟩ := ih a (by simp) sa
          cases sb : secs p b with
          | true =>
            obtain ⟨b2, ab⟩ := ih b (by simp) sb
            rw [show List.filter (secs p) [a, b] = [a, b] by simp [sa, sb]] at hb
            simp only [List.map_cons, List.map_nil, List.sum_cons, List.sum_nil] at hb
            have hba : s (.before op.res) = s (.deg a) + s (.deg b) := by
              simp only [ea, eb, sa, sb, Bool.and_self, if_true] at hcb
              by_cases hab : a = b
              · subst hab
                simp only [if_true, List.mem_singleton, forall_eq, Con.Holds, Con.lhs, List.map_cons, List.map_nil,
                  List.sum_cons, List.sum_nil] at hcb
                linarith
              · simp only [if_neg hab, List.mem_singleton, forall_eq, Con.Holds, Con.lhs, List.map_cons, List.map_nil,
                  List.sum_cons, List.sum_nil, if_true] at hcb
                linarith
            refine ⟨by omega, ?_⟩
            have hcast : ((comps q op.res : Nat) : ℚ) = (comps q (ρ a) : ℚ) + (comps q (ρ b) : ℚ) - 1 := by
              have : comps q op.res + 1 = comps q (ρ a) + comps q (ρ b) := by omega
              have : ((comps q op.res : Nat) : ℚ) + 1 = (comps q (ρ a) : ℚ) + (comps q (ρ b) : ℚ) := by exact_mod_cast this
              linarith
            rw [hba, hcast]
            unfold Agree at aa ab ⊢
            cases hmx : c.mixed <;> simp only [hmx, Bool.false_eq_true, if_false, if_true] at aa ab ⊢ <;> linarith
          | false =>
            rw [show List.filter (secs p) [a, b] = [a] by simp [sa, sb]] at hb hfil
            simp only [List.map_cons, List.map_nil, List.sum_cons, List.sum_nil] at hb
            simp only [hfil, ea, eb, sa, sb, Bool.and_false, Bool.false_eq_true, if_false, List.headD_cons,
              List.mem_singleton, forall_eq, Con.Holds, Con.lhs, eqVar, List.map_cons, List.map_nil, List.sum_cons,
              List.sum_nil, if_true] at hcb
            have h1 : comps q op.res = comps q (ρ a) := by omega
            have h2 : s (.before op.res) = s (.deg a) := by linarith
            rw [h1, h2]
            exact ⟨a2, aa⟩
        | false =>
          have sb : secs p b = true := by
            obtain ⟨x, hx, hsx⟩ := hany
            simp only [List.mem_cons, List.not_mem_nil, or_false] at hx
            rcases hx with rfl | rfl
            · rw [sa] at hsx; cases hsx
            · exact hsx
          obtain ⟨b2, ab⟩ := ih b (by simp) sb
          rw [show List.filter (secs p) [a, b] = [b] by simp [sa, sb]] at hb hfil
          simp only [List.map_cons, List.map_nil, List.sum_cons, List.sum_nil] at hb
          simp only [hfil, ea, eb, sa, sb, Bool.and_true, Bool.false_eq_true, if_false, List.headD_cons,
            List.mem_singleton, forall_eq, Con.Holds, Con.lhs, eqVar, List.map_cons, List.map_nil, List.sum_cons,
            List.sum_nil, if_true] at hcb
          have h1 : comps q op.res = comps q (ρ b) := by omega
          have h2 : s (.before op.res) = s (.deg b) := by linarith
          rw [h1, h2]
          exact ⟨b2, ab⟩
    · rw [if_neg hm] at hb
      simp only [hm, if_false, ht.filter hop] at hcb
      have hne : op.args.filter (secs p) ≠ [] := by
        obtain ⟨a, ha, hsa⟩ := hany
        exact List.ne_nil_of_mem (List.mem_filter.2 ⟨ha, hsa⟩)
      have h2 : 2 ≤ comps q op.res := by
        obtain ⟨a, ha, hsa⟩ := hany
        rw [hb]
        exact le_trans (ih a ha hsa).1 (le_foldr_max _ (List.mem_map.2 ⟨a, List.mem_filter.2 ⟨ha, hsa⟩, rfl⟩))
      refine ⟨h2, ?_⟩
      cases hmx : c.mixed with
      | true =>
        simp only [hmx, if_true] at hcb
        -- every operand is below the result
        have hle : ∀ a ∈ op.args, secs p a = true → (comps q (ρ a) : ℚ) ≤ s (.before op.res) + 1 := by
          intro a ha hsa
          have := hcb _ (List.mem_map.2 ⟨a, List.mem_filter.2 ⟨ha, hsa⟩, rfl⟩)
          simp only [Con.Holds, Con.lhs, leVar, Bool.false_eq_true, if_false, List.map_cons, List.map_nil, List.sum_cons,
            List.sum_nil] at this
          have := (ih a ha hsa).2.le
          linarith
        unfold Agree
        simp only [if_true]
        rw [hb]
        clear hb hcb hne h2
        have : ∀ l : List Nat, (∀ a ∈ l, a ∈ op.args ∧ secs p a = true) → l ≠ [] →
            (((l.map fun a => comps q (ρ a)).foldr max 0 : Nat) : ℚ) ≤ s (.before op.res) + 1 := by
          intro l hl hne
          induction l with
          | nil => exact absurd rfl hne
          | cons x l ihl =>
            simp only [List.map_cons, List.foldr_cons]
            have hx := hle x (hl x (by simp)).1 (hl x (by simp)).2
            cases l with
            | nil => simpa using hx
            | cons y l =>
              have := ihl (fun a ha => hl a (by simp [ha])) (by simp)
              rw [Nat.cast_max]
              exact max_le hx this
        refine this _ (fun a ha => List.mem_filter.1 ha) ?_
        obtain ⟨a, ha, hsa⟩ := hany
        exact List.ne_nil_of_mem (List.mem_filter.2 ⟨ha, hsa⟩)
      | false =>
        simp only [hmx, Bool.false_eq_true, if_false, List.mem_singleton, forall_eq] at hcb
        obtain ⟨x, l, hxl⟩ := List.exists_cons_of_ne_nil hne
        rw [hxl, List.headD_cons] at hcb
        simp only [Con.Holds, Con.lhs, eqVar, List.map_cons, List.map_nil, List.sum_cons, List.sum_nil, if_true] at hcb
        have hx : x ∈ op.args ∧ secs p x = true := List.mem_filter.1 (by rw [hxl]; simp)
        have heq : ∀ a ∈ op.args.filter (secs p), s (.deg a) = s (.deg x) := fun a ha =>
          equal_of_feasible ht hf hmx hop (List.mem_filter.1 ha).1 hx.1 (List.mem_filter.1 ha).2 hx.2
        have hK : ∀ a ∈ op.args.filter (secs p), comps q (ρ a) = comps q (ρ x) := by
          intro a ha
          have h1 := (ih a (List.mem_filter.1 ha).1 (List.mem_filter.1 ha).2).2
          have h2 := (ih x hx.1 hx.2).2
          unfold Agree at h1 h2
          simp only [hmx, Bool.false_eq_true, if_false] at h1 h2
          have : (comps q (ρ a) : ℚ) = comps q (ρ x) := by rw [h1, h2, heq a ha]
          exact_mod_cast this
        have hB : comps q op.res = comps q (ρ x) := by
          rw [hb]
          apply foldr_max_eq
          · simp [hxl]
          · intro y hy
            obtain ⟨a, ha, rfl⟩ := List.mem_map.1 hy
            exact hK a ha
        have h2 := (ih x hx.1 hx.2).2
        rw [hB]
        have h3 : s (.before op.res) = s (.deg x) := by linarith
        rw [h3]
        rwa [hmx] at h2
  have hall := ssa_ind (fun v => (secs p v = true →
      2 ≤ comps q (ρ v) ∧ Agree c.mixed (comps q (ρ v)) (s (.deg v) + 1))) p.ops _ ht.wf.ssa harg (by
    intro op hop ih hs
    have hB := hstep op hop ih hs
    have hres : c.sec op.res = true := by rw [ht.res hop, hs]
    have hd := con_decision hf hop hres
    have ha := hp.after op hop
    by_cases hdec : s (.dec op.res) ≠ 0
    · rw [if_pos hdec] at hd
      rw [if_pos (by simp [hres, hdec])] at ha
      rw [ha, hd]
      refine ⟨le_rfl, ?_⟩
      unfold Agree
      split <;> norm_num
    · rw [if_neg hdec] at hd
      rw [if_neg (by simp [hdec])] at ha
      rw [ha, hd]
      exact hB)
  refine ⟨?_, fun op hop hs => hstep op hop (fun a ha => (hall op hop).2 a ha) hs⟩
  rintro v (hv | ⟨o, ho, rfl⟩)
  · exact harg v hv
  · exact (hall o ho).1

end Heir.Relin
