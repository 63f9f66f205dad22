import Verif.Relin.Degrees
import Verif.Mgmt.Meaning

/-! # Properties of the optimization of relinearizations -/

namespace Heir.Relin
open Heir.Mgmt

theorem told {p : Prog} (hw : p.WF) (cfg : Cfg) (rot : Nat → Bool) (mixed : Bool) :
    Told (context cfg rot mixed p) (stripProg p) where
  wf := stripProg_wf hw
  kind := fun op hop => (strip_mem p.ops id op hop).1
  sec := fun v hv => by
    show (facts cfg p v).sec = _
    rw [facts_sec, stripProg_secs hw hv]
  dim := fun v hv hs => by
    have hv' : v < p.nargs := hv
    rw [stripProg_secs hw (Or.inl hv), secs, run_of_not_res _ _ _ _ (SSA.res_ne hw.ssa v hv'), secEntry,
      if_pos hv'] at hs
    show (facts cfg p v).dim = _
    rw [facts, run_of_not_res _ _ _ _ (SSA.res_ne hw.ssa v hv'), factEntry, if_pos hv']
    simp [hs]

/-- The placement of a solution meets what the backends need. -/
theorem valid_of_feasible {c : Ctx} {p q : Prog} {s : Var → ℚ} {ρ : Nat → Nat} (ht : Told c p) (hf : Feasible c p s)
    (hp : Placement p (fun v => c.sec v && decide (s (.dec v) ≠ 0)) q ρ) : Valid c.rot c.mixed q := by
  obtain ⟨hK, hB⟩ := degrees ht hf hp
  have hone : ∀ v, (v < p.nargs ∨ ∃ o ∈ p.ops, o.res = v) → secs p v = true → s (.deg v) = 1 → comps q (ρ v) = 2 := by
    intro v hv hs hd
    obtain ⟨h1, h2⟩ := hK v hv hs
    have h2 := h2.le
    rw [hd] at h2
    have : (comps q (ρ v) : ℚ) ≤ (2 : Nat) := by push_cast; linarith
    have : comps q (ρ v) ≤ 2 := by exact_mod_cast this
    omega
  constructor
  · intro o ho hs
    rcases hp.ops o ho with ⟨op, hop, rfl⟩ | ⟨op, hop, -, rfl⟩
    · have hs' : secs p op.res = true := by rw [← (hp.sec op.res (Or.inr ⟨op, hop, rfl⟩)).1]; exact hs
      have h1 := (hB op hop hs').2.le
      have h2 := (hf.box.before op hop (by rw [ht.res hop, hs'])).2
      have : (comps q op.res : ℚ) ≤ (3 : Nat) := by push_cast; unfold maxDegree at h2; linarith
      exact_mod_cast this
    · rw [comps_res hp.wf ho]
      simp [compStep]
  · intro o ho hn x hx hs
    rcases hp.ops o ho with ⟨op, hop, rfl⟩ | ⟨op, hop, -, rfl⟩
    · obtain ⟨a, ha, rfl⟩ := List.mem_map.1 hx
      have hva := (value_of_mem ht.wf hop).2 a ha
      have hsa : secs p a = true := by rw [← (hp.sec a hva).2, hs]
      refine hone a hva hsa (con_linear hf hop ?_ ha (by rw [ht.arg hop ha, hsa]))
      rcases hn with ⟨t, hk, hr⟩ | hk | ⟨hk, b, hb, hsb⟩
      · have hk : op.kind = .other t := hk
        simp [requireLinear, hk, hr]
      · have hk : op.kind = .modReduce := hk
        simp [requireLinear, hk]
      · have hk : op.kind = .add ∨ op.kind = .sub ∨ op.kind = .mul ∨ op.kind = .insert := hk
        have hplain : ∃ b ∈ op.args.take 2, c.sec b = false := by
          have hb : (op.args.map ρ)[0]? = some b ∨ (op.args.map ρ)[1]? = some b := hb
          simp only [List.getElem?_map, Option.map_eq_some_iff] at hb
          have key : ∀ y : Nat, y ∈ op.args → ρ y = b → c.sec y = false := by
            intro y hy hyb
            rw [ht.arg hop hy, ← (hp.sec y ((value_of_mem ht.wf hop).2 y hy)).2, hyb, hsb]
          rcases hb with ⟨y, hy, hyb⟩ | ⟨y, hy, hyb⟩
          · refine ⟨y, ?_, key y (List.mem_of_getElem? hy) hyb⟩
            have : (op.args.take 2)[0]? = some y := by rw [List.getElem?_take_of_lt (by omega), hy]
            exact List.mem_of_getElem? this
          · refine ⟨y, ?_, key y (List.mem_of_getElem? hy) hyb⟩
            have : (op.args.take 2)[1]? = some y := by rw [List.getElem?_take_of_lt (by omega), hy]
            exact List.mem_of_getElem? this
        have h1 : op.args.any c.sec = true := List.any_eq_true.2 ⟨a, ha, by rw [ht.arg hop ha, hsa]⟩
        have h2 : ((op.args.take 2).any fun a => !c.sec a) = true := by
          obtain ⟨b, hb, hcb⟩ := hplain
          exact List.any_eq_true.2 ⟨b, hb, by simp [hcb]⟩
        rcases hk with hk | hk | hk | hk <;> simp [requireLinear, hk, mayBePlain, h1, h2]
    · rcases hn with ⟨t, hk, -⟩ | hk | ⟨hk, -⟩ <;> simp at hk
  · intro y hy hs
    rw [hp.yields] at hy
    obtain ⟨x, hx, rfl⟩ := List.mem_map.1 hy
    have hvx := ht.wf.yields x hx
    have hsx : secs p x = true := by rw [← (hp.sec x hvx).2, hs]
    exact hone x hvx hsx (con_yield hf hx (by rw [ht.sec x hvx, hsx]))
  · intro hm o ho x hx y hy hsx hsy
    rcases hp.ops o ho with ⟨op, hop, rfl⟩ | ⟨op, hop, -, rfl⟩
    · obtain ⟨a, ha, rfl⟩ := List.mem_map.1 hx
      obtain ⟨b, hb, rfl⟩ := List.mem_map.1 hy
      have hva := (value_of_mem ht.wf hop).2 a ha
      have hvb := (value_of_mem ht.wf hop).2 b hb
      have hsa : secs p a = true := by rw [← (hp.sec a hva).2, hsx]
      have hsb : secs p b = true := by rw [← (hp.sec b hvb).2, hsy]
      have hab := equal_of_feasible ht hf hm hop ha hb hsa hsb
      have h1 := (hK a hva hsa).2
      have h2 := (hK b hvb hsb).2
      unfold Agree at h1 h2
      simp only [hm, Bool.false_eq_true, if_false] at h1 h2
      have : (comps q (ρ a) : ℚ) = comps q (ρ b) := by rw [h1, h2, hab]
      exact_mod_cast this
    · rw [List.mem_singleton] at hx hy
      rw [hx, hy]

/-! ### From placements to solutions -/

/-- The solution that belongs to relinearizing after the operations in `H`. -/
def sol (q : Prog) (ρ : Nat → Nat) (H : Nat → Bool) : Var → ℚ
  | .dec v => if H v then 1 else 0
  | .deg v => (comps q (ρ v) : ℚ) - 1
  | .before v => (comps q v : ℚ) - 1

theorem two_le {p q : Prog} {H : Nat → Bool} {ρ : Nat → Nat} (hw : p.WF)
    (hkind : ∀ op ∈ p.ops, op.kind ≠ .relinearize) (hp : Placement p H q ρ) :
    (∀ v, (v < p.nargs ∨ ∃ o ∈ p.ops, o.res = v) → secs p v = true → 2 ≤ comps q (ρ v)) ∧
    ∀ op ∈ p.ops, secs p op.res = true → 2 ≤ comps q op.res := by
  have harg : ∀ v, v < p.nargs → secs p v = true → 2 ≤ comps q (ρ v) := fun v hv _ => by rw [hp.argd v hv]
  have hstep : ∀ op ∈ p.ops, (∀ a ∈ op.args, secs p a = true → 2 ≤ comps q (ρ a)) → secs p op.res = true →
      2 ≤ comps q op.res := by
    intro op hop ih hs
    rw [secs_res hw hop, List.any_eq_true] at hs
    obtain ⟨a, ha, hsa⟩ := hs
    have hmem : a ∈ op.args.filter (secs p) := List.mem_filter.2 ⟨ha, hsa⟩
    have h2 := ih a ha hsa
    rw [hp.before hw hop, compStep, if_neg (hkind op hop)]
    split
    · have := List.single_le_sum (l := (op.args.filter (secs p)).map fun a => comps q (ρ a) - 1) (by simp) _
        (List.mem_map.2 ⟨a, hmem, rfl⟩)
      omega
    · exact le_trans h2 (le_foldr_max _ (List.mem_map.2 ⟨a, hmem, rfl⟩))
  have hall := ssa_ind (fun v => secs p v = true → 2 ≤ comps q (ρ v)) p.ops _ hw.ssa harg (by
    intro op hop ih hs
    rw [hp.after op hop]
    split
    · exact le_rfl
    · exact hstep op hop ih hs)
  refine ⟨?_, fun op hop hs => hstep op hop (fun a ha => (hall op hop).2 a ha) hs⟩
  rintro v (hv | ⟨o, ho, rfl⟩)
  · exact harg v hv
  · exact (hall o ho).1

theorem feasible_of_valid {c : Ctx} {p q : Prog} {H : Nat → Bool} {ρ : Nat → Nat} (ht : Told c p)
    (hp : Placement p H q ρ) (hv : Valid c.rot c.mixed q) : Feasible c p (sol q ρ H) := by
  obtain ⟨hK2, hB2⟩ := two_le ht.wf ht.kind hp
  have hB3 : ∀ op ∈ p.ops, secs p op.res = true → comps q op.res ≤ 3 := by
    intro op hop hs
    refine hv.three { op with args := op.args.map ρ } (hp.mem op hop) ?_
    rw [← hs]
    exact (hp.sec op.res (Or.inr ⟨op, hop, rfl⟩)).1
  have hK3 : ∀ op ∈ p.ops, secs p op.res = true → comps q (ρ op.res) ≤ 3 := by
    intro op hop hs
    rw [hp.after op hop]
    split
    · omega
    · exact hB3 op hop hs
  have box : ∀ n : Nat, 2 ≤ n → n ≤ 3 → (0 : ℚ) ≤ (n : ℚ) - 1 ∧ (n : ℚ) - 1 ≤ maxDegree := by
    intro n h1 h2
    have h1 : (2 : ℚ) ≤ n := by exact_mod_cast h1
    have h2 : (n : ℚ) ≤ 3 := by exact_mod_cast h2
    unfold maxDegree
    constructor <;> linarith
  have hsame : c.mixed = false → ∀ op ∈ p.ops, ∀ a ∈ op.args, ∀ b ∈ op.args, secs p a = true → secs p b = true →
      comps q (ρ a) = comps q (ρ b) := by
    intro hm op hop a ha b hb hsa hsb
    refine hv.same hm _ (hp.mem op hop) (ρ a) (List.mem_map.2 ⟨a, ha, rfl⟩) (ρ b) (List.mem_map.2 ⟨b, hb, rfl⟩) ?_ ?_
    · rw [(hp.sec a ((value_of_mem ht.wf hop).2 a ha)).2, hsa]
    · rw [(hp.sec b ((value_of_mem ht.wf hop).2 b hb)).2, hsb]
  have hyield : ∀ y ∈ p.yields, c.sec y = true → comps q (ρ y) = 2 := by
    intro y hy hs
    refine hv.yields (ρ y) (by rw [hp.yields]; exact List.mem_map.2 ⟨y, hy, rfl⟩) ?_
    rw [(hp.sec y (ht.wf.yields y hy)).2, ← ht.sec y (ht.wf.yields y hy), hs]
  refine ⟨⟨?_, ?_, ?_, ?_⟩, ?_⟩
  · intro op _ _
    by_cases h : H op.res = true <;> simp [sol, h]
  · intro op hop hs
    rw [ht.res hop] at hs
    exact box _ (hB2 op hop hs) (hB3 op hop hs)
  · intro op hop hs
    rw [ht.res hop] at hs
    exact box _ (hK2 _ (Or.inr ⟨op, hop, rfl⟩) hs) (hK3 op hop hs)
  · intro v hv' hs
    simp only [sol, hp.argd v hv']
    exact box 2 le_rfl (by omega)
  · intro k hk
    simp only [constraints, List.mem_append, List.mem_flatMap] at hk
    rcases hk with (((((hk | ⟨op, hop, hk⟩) | hk) | ⟨op, hop, hk⟩) | hk) | ⟨op, hop, hk⟩) | ⟨op, hop, hk⟩
    · simp only [argCons, List.mem_map, List.mem_filter, List.mem_range] at hk
      obtain ⟨v, ⟨hv1, hv2⟩, rfl⟩ := hk
      rw [ht.sec v (Or.inl hv1)] at hv2
      simp [Con.Holds, Con.lhs, eqConst, sol, hp.argd v hv1, ht.dim v hv1 hv2]
    · unfold equalCons at hk
      cases hm : c.mixed with
      | true => simp [hm] at hk
      | false =>
        simp only [hm, Bool.false_eq_true, if_false, ht.filter hop] at hk
        split at hk
        · simp at hk
        · rename_i a as has
          obtain ⟨b, hb, rfl⟩ := List.mem_map.1 hk
          have ha : a ∈ op.args.filter (secs p) := by rw [has]; simp
          have hb : b ∈ op.args.filter (secs p) := by rw [has]; simp [(List.mem_filter.1 hb).1]
          have := hsame hm op hop a (List.mem_filter.1 ha).1 b (List.mem_filter.1 hb).1 (List.mem_filter.1 ha).2
            (List.mem_filter.1 hb).2
          simp [Con.Holds, Con.lhs, eqVar, sol, this]
    · unfold equalCons at hk
      cases hm : c.mixed with
      | true => simp [hm] at hk
      | false =>
        simp only [hm, Bool.false_eq_true, if_false] at hk
        split at hk
        · simp at hk
        · rename_i a as has
          obtain ⟨b, hb, rfl⟩ := List.mem_map.1 hk
          have ha : a ∈ p.yields.filter c.sec := by rw [has]; simp
          have hb : b ∈ p.yields.filter c.sec := by rw [has]; simp [(List.mem_filter.1 hb).1]
          have h1 := hyield a (List.mem_filter.1 ha).1 (List.mem_filter.1 ha).2
          have h2 := hyield b (List.mem_filter.1 hb).1 (List.mem_filter.1 hb).2
          simp [Con.Holds, Con.lhs, eqVar, sol, h1, h2]
    · split at hk
      · rename_i hl
        obtain ⟨a, ha, rfl⟩ := List.mem_map.1 hk
        obtain ⟨ha, hsa⟩ := List.mem_filter.1 ha
        rw [ht.arg hop ha] at hsa
        have hva := (value_of_mem ht.wf hop).2 a ha
        have h2 : comps q (ρ a) = 2 := by
          refine hv.linear _ (hp.mem op hop) ?_ (ρ a) (List.mem_map.2 ⟨a, ha, rfl⟩) (by rw [(hp.sec a hva).2, hsa])
          have hplain : ((op.args.take 2).any fun a => !c.sec a) = true →
              ∃ b, ((op.args.map ρ)[0]? = some b ∨ (op.args.map ρ)[1]? = some b) ∧ secs q b = false := by
            intro h
            obtain ⟨b, hb, hcb⟩ := List.any_eq_true.1 h
            have hb' : b ∈ op.args := List.mem_of_mem_take hb
            refine ⟨ρ b, ?_, ?_⟩
            · obtain ⟨i, hi⟩ := List.mem_iff_getElem?.1 hb
              simp only [List.getElem?_map, Option.map_eq_some_iff]
              rw [List.getElem?_take] at hi
              split at hi
              · rename_i hi2
                rcases (by omega : i = 0 ∨ i = 1) with rfl | rfl
                · exact Or.inl ⟨b, hi, rfl⟩
                · exact Or.inr ⟨b, hi, rfl⟩
              · cases hi
            · rw [(hp.sec b ((value_of_mem ht.wf hop).2 b hb')).2, ← ht.arg hop hb']
              simpa using hcb
          unfold requireLinear at hl
          split at hl
          · rename_i t hk
            exact Or.inl ⟨t, hk, hl⟩
          · rename_i hk
            exact Or.inr (Or.inl hk)
          · simp only [Bool.and_eq_true] at hl
            refine Or.inr (Or.inr ⟨?_, hplain hl.2⟩)
            have hk := hl.1.1
            revert hk
            show mayBePlain op.kind = true → (op.kind = .add ∨ op.kind = .sub ∨ op.kind = .mul ∨ op.kind = .insert)
            cases op.kind <;> simp [mayBePlain]
        simp [Con.Holds, Con.lhs, eqConst, sol, h2]
        norm_num
      · simp at hk
    · obtain ⟨y, hy, rfl⟩ := List.mem_map.1 hk
      obtain ⟨hy, hsy⟩ := List.mem_filter.1 hy
      simp [Con.Holds, Con.lhs, eqConst, sol, hyield y hy hsy]
      norm_num
    · unfold beforeCons at hk
      by_cases hres : c.sec op.res = true
      swap
      · simp [hres] at hk
      simp only [hres, if_true] at hk
      have hs : secs p op.res = true := by rw [← ht.res hop, hres]
      have hany : ∃ a ∈ op.args, secs p a = true := by
        rw [secs_res ht.wf hop, List.any_eq_true] at hs
        exact hs
      have hb := hp.before ht.wf hop
      unfold compStep at hb
      rw [if_neg (ht.kind op hop)] at hb
      by_cases hm : op.kind = .mul
      · rw [if_pos hm] at hb
        simp only [hm, if_true] at hk
        have hl := (SSA.arity ht.wf.ssa op hop).2 (Or.inr (Or.inr hm))
        have hfil := ht.filter hop
        have hsa : ∀ a ∈ op.args, c.sec a = secs p a := fun a ha => ht.arg hop ha
        have hva : ∀ a ∈ op.args, secs p a = true → 2 ≤ comps q (ρ a) :=
          fun a ha => hK2 a ((value_of_mem ht.wf hop).2 a ha)
        match hargs : op.args, hl with
        | [a, b], _ =>
          simp only [hargs] at hk hb hany hfil hsa hva
          have ea := hsa a (by simp)
          have eb := hsa b (by simp)
          cases sa : secs p a with
          | true =>
            have a2 := hva a (by simp) sa
            cases sb : secs p b with
            | true =>
              have b2 := hva b (by simp) sb
              rw [show List.filter (secs p) [a, b] = [a, b] by simp [sa, sb]] at hb
              simp only [List.map_cons, List.map_nil, List.sum_cons, List.sum_nil] at hb
              have hcast : ((comps q op.res : Nat) : ℚ) = (comps q (ρ a) : ℚ) + (comps q (ρ b) : ℚ) - 1 := by
                have : comps q op.res + 1 = comps q (ρ a) + comps q (ρ b) := by omega
                have : ((comps q op.res : Nat) : ℚ) + 1 = (comps q (ρ a) : ℚ) + (comps q (ρ b) : ℚ) := by
                  exact_mod_cast this
                linarith
              simp only [ea, eb, sa, sb, Bool.and_self, if_true] at hk
              by_cases hab : a = b
              · subst hab
                simp only [if_true, List.mem_singleton] at hk
                subst hk
                simp only [Con.Holds, Con.lhs, List.map_cons, List.map_nil, List.sum_cons, List.sum_nil, sol, if_true]
                linarith
              · simp only [if_neg hab, List.mem_singleton] at hk
                subst hk
                simp only [Con.Holds, Con.lhs, List.map_cons, List.map_nil, List.sum_cons, List.sum_nil, sol, if_true]
                linarith
            | false =>
              rw [show List.filter (secs p) [a, b] = [a] by simp [sa, sb]] at hb hfil
              simp only [List.map_cons, List.map_nil, List.sum_cons, List.sum_nil] at hb
              simp only [hfil, ea, eb, sa, sb, Bool.and_false, Bool.false_eq_true, if_false, List.headD_cons,
                List.mem_singleton] at hk
              subst hk
              have h1 : comps q op.res = comps q (ρ a) := by omega
              simp [Con.Holds, Con.lhs, eqVar, sol, h1]
          | false =>
            have sb : secs p b = true := by
              obtain ⟨x, hx, hsx⟩ := hany
              simp only [List.mem_cons, List.not_mem_nil, or_false] at hx
              rcases hx with rfl | rfl
              · rw [sa] at hsx; cases hsx
              · exact hsx
            have b2 := hva b (by simp) sb
            rw [show List.filter (secs p) [a, b] = [b] by simp [sa, sb]] at hb hfil
            simp only [List.map_cons, List.map_nil, List.sum_cons, List.sum_nil] at hb
            simp only [hfil, ea, eb, sa, sb, Bool.and_true, Bool.false_eq_true, if_false, List.headD_cons,
              List.mem_singleton] at hk
            subst hk
            have h1 : comps q op.res = comps q (ρ b) := by omega
            simp [Con.Holds, Con.lhs, eqVar, sol, h1]
      · rw [if_neg hm] at hb
        simp only [hm, if_false, ht.filter hop] at hk
        cases hmx : c.mixed with
        | true =>
          simp only [hmx, if_true] at hk
          obtain ⟨a, ha, rfl⟩ := List.mem_map.1 hk
          have : comps q (ρ a) ≤ comps q op.res := by
            rw [hb]
            exact le_foldr_max _ (List.mem_map.2 ⟨a, ha, rfl⟩)
          have : (comps q (ρ a) : ℚ) ≤ comps q op.res := by exact_mod_cast this
          simp only [Con.Holds, Con.lhs, leVar, Bool.false_eq_true, if_false, List.map_cons, List.map_nil, List.sum_cons,
            List.sum_nil, sol]
          linarith
        | false =>
          simp only [hmx, Bool.false_eq_true, if_false, List.mem_singleton] at hk
          have hne : op.args.filter (secs p) ≠ [] := by
            obtain ⟨a, ha, hsa⟩ := hany
            exact List.ne_nil_of_mem (List.mem_filter.2 ⟨ha, hsa⟩)
          obtain ⟨x, l, hxl⟩ := List.exists_cons_of_ne_nil hne
          have hx : x ∈ op.args ∧ secs p x = true := List.mem_filter.1 (by rw [hxl]; simp)
          rw [hxl, List.headD_cons] at hk
          subst hk
          have h1 : comps q op.res = comps q (ρ x) := by
            rw [hb]
            apply foldr_max_eq
            · simp [hxl]
            · intro y hy
              obtain ⟨a, ha, rfl⟩ := List.mem_map.1 hy
              obtain ⟨ha, hsa⟩ := List.mem_filter.1 ha
              exact hsame hmx op hop a ha x hx.1 hsa hx.2
          simp [Con.Holds, Con.lhs, eqVar, sol, h1]
    · unfold decisionCons at hk
      by_cases hres : c.sec op.res = true
      swap
      · simp [hres] at hk
      have hs : secs p op.res = true := by rw [← ht.res hop, hres]
      have b2 := hB2 op hop hs
      have b3 := hB3 op hop hs
      have ha := hp.after op hop
      have b2 : (2 : ℚ) ≤ comps q op.res := by exact_mod_cast b2
      have b3 : (comps q op.res : ℚ) ≤ 3 := by exact_mod_cast b3
      simp only [hres, if_true, List.mem_cons, List.not_mem_nil, or_false] at hk
      by_cases hH : H op.res = true
      · rw [if_pos hH] at ha
        rcases hk with rfl | rfl | rfl | rfl <;>
        · simp only [Con.Holds, Con.lhs, Bool.false_eq_true, if_false, List.map_cons, List.map_nil, List.sum_cons,
            List.sum_nil, ifThenAux, sol, hH, if_true, ha]
          push_cast
          linarith
      · rw [if_neg hH] at ha
        rcases hk with rfl | rfl | rfl | rfl <;>
        · simp only [Con.Holds, Con.lhs, Bool.false_eq_true, if_false, List.map_cons, List.map_nil, List.sum_cons,
            List.sum_nil, ifThenAux, sol, hH, ha]
          linarith

/-- Relinearizing after every operation is valid. -/
theorem valid_everywhere {p q : Prog} {ρ : Nat → Nat} (hw : p.WF) (hkind : ∀ op ∈ p.ops, op.kind ≠ .relinearize)
    (hp : Placement p (fun _ => true) q ρ) (rot : Nat → Bool) (mixed : Bool) : Valid rot mixed q := by
  have hK : ∀ v, (v < p.nargs ∨ ∃ o ∈ p.ops, o.res = v) → comps q (ρ v) = 2 := by
    rintro v (hv | ⟨o, ho, rfl⟩)
    · exact hp.argd v hv
    · simpa using hp.after o ho
  have harg : ∀ op ∈ p.ops, ∀ x ∈ op.args.map ρ, comps q x = 2 := by
    intro op hop x hx
    obtain ⟨a, ha, rfl⟩ := List.mem_map.1 hx
    exact hK a ((value_of_mem hw hop).2 a ha)
  constructor
  · intro o ho hs
    rcases hp.ops o ho with ⟨op, hop, rfl⟩ | ⟨op, hop, -, rfl⟩
    · show comps q op.res ≤ 3
      rw [hp.before hw hop, compStep, if_neg (hkind op hop)]
      split
      · rename_i hm
        have hl := (SSA.arity hw.ssa op hop).2 (Or.inr (Or.inr hm))
        have hlen := List.length_filter_le (secs p) op.args
        have : ((op.args.filter (secs p)).map fun a => comps q (ρ a) - 1) =
            List.replicate (op.args.filter (secs p)).length 1 := by
          rw [List.eq_replicate_iff]
          refine ⟨by simp, ?_⟩
          intro y hy
          obtain ⟨a, ha, rfl⟩ := List.mem_map.1 hy
          rw [hK a ((value_of_mem hw hop).2 a (List.mem_filter.1 ha).1)]
        rw [this, List.sum_replicate_nat]
        omega
      · refine le_trans (foldr_max_le _ 2 ?_) (by omega)
        intro y hy
        obtain ⟨a, ha, rfl⟩ := List.mem_map.1 hy
        exact (hK a ((value_of_mem hw hop).2 a (List.mem_filter.1 ha).1)).le
    · rw [comps_res hp.wf ho]
      simp [compStep]
  · intro o ho hn x hx hs
    rcases hp.ops o ho with ⟨op, hop, rfl⟩ | ⟨op, hop, -, rfl⟩
    · exact harg op hop x hx
    · rcases hn with ⟨t, hk, -⟩ | hk | ⟨hk, -⟩ <;> simp at hk
  · intro y hy hs
    rw [hp.yields] at hy
    obtain ⟨x, hx, rfl⟩ := List.mem_map.1 hy
    exact hK x (hw.yields x hx)
  · intro _ o ho x hx y hy _ _
    rcases hp.ops o ho with ⟨op, hop, rfl⟩ | ⟨op, hop, -, rfl⟩
    · rw [harg op hop x hx, harg op hop y hy]
    · rw [List.mem_singleton] at hx hy
      rw [hx, hy]

/-! ### C84 -/

/-- The pass keeps what the program computes. -/
theorem C84_result_kept {D : Type} {p : Prog} (hw : p.WF) (cfg : Cfg) (rot : Nat → Bool) (mixed : Bool) (s : Var → ℚ)
    (I : Kind → List D → D) (env : Nat → D) :
    (optimized cfg rot mixed s p).WF ∧ (optimized cfg rot mixed s p).result I env = p.result I env := by
  have h := stripProg_wf hw
  refine ⟨afterProg_wf rfl _ h, ?_⟩
  rw [optimized, insertRelins, afterProg_result rfl _ h, stripProg_result hw]

/-- The program it leaves meets what the backends need, whatever solution the solver has found. -/
theorem C84_valid {p : Prog} (hw : p.WF) (cfg : Cfg) (rot : Nat → Bool) (mixed : Bool) (s : Var → ℚ)
    (hf : Feasible (context cfg rot mixed p) (stripProg p) s) : Valid rot mixed (optimized cfg rot mixed s p) :=
  valid_of_feasible (told hw cfg rot mixed) hf (placement (stripProg_wf hw) _)

/-- There always is a solution, so the pass never fails for want of one. -/
theorem C84_feasible {p : Prog} (hw : p.WF) (cfg : Cfg) (rot : Nat → Bool) (mixed : Bool) :
    ∃ s, Feasible (context cfg rot mixed p) (stripProg p) s := by
  have ht := told hw cfg rot mixed
  have hp := placement ht.wf fun _ => true
  exact ⟨_, feasible_of_valid ht hp (valid_everywhere ht.wf ht.kind hp rot mixed)⟩

theorem relins_afterProg {p : Prog} (hk : ∀ op ∈ p.ops, op.kind ≠ .relinearize) (H : Nat → Bool) :
    relins (afterProg .relinearize (fun op => H op.res) p) = (p.ops.filter fun op => H op.res).length :=
  after_count p.ops hk _ _

theorem sum_filter (l : List Op) (f : Nat → Bool) (g : Nat → ℚ) (h : Nat → Bool)
    (hg : ∀ op ∈ l, f op.res = true → g op.res = if h op.res then 1 else 0) :
    ((l.filter fun op => f op.res).map fun op => g op.res).sum = ((l.filter fun op => f op.res && h op.res).length : ℚ) := by
  induction l with
  | nil => simp
  | cons op l ih =>
    have ih := ih fun o ho => hg o (by simp [ho])
    have h0 := hg op (by simp)
    cases hf : f op.res with
    | false => simp [hf, ih]
    | true =>
      rw [List.filter_cons_of_pos (by simpa using hf), List.map_cons, List.sum_cons, ih, h0 hf]
      cases hh : h op.res with
      | false => simp [hf, hh]
      | true => simp [hf, hh]; ring

/-- No valid placement of relinearizations after operations of the program needs fewer than an optimal solution. -/
theorem C84_least {p : Prog} (hw : p.WF) (cfg : Cfg) (rot : Nat → Bool) (mixed : Bool) (s : Var → ℚ)
    (ho : Optimal (context cfg rot mixed p) (stripProg p) s) (H : Nat → Bool)
    (hv : Valid rot mixed (afterProg .relinearize (fun op => H op.res) (stripProg p))) :
    relins (optimized cfg rot mixed s p) ≤ relins (afterProg .relinearize (fun op => H op.res) (stripProg p)) := by
  have ht := told hw cfg rot mixed
  have hf := feasible_of_valid ht (placement ht.wf H) hv
  have hle := ho.least _ hf
  unfold objective at hle
  rw [sum_filter _ _ (fun v => s (.dec v)) (fun v => decide (s (.dec v) ≠ 0)) (fun op hop hs => by
      rcases ho.box.dec op hop hs with h | h <;> simp [h]),
    sum_filter _ _ (fun v => sol _ _ H (.dec v)) H (fun op hop hs => rfl)] at hle
  have hle : ((stripProg p).ops.filter fun op => (context cfg rot mixed p).sec op.res && decide (s (.dec op.res) ≠ 0)).length ≤
      ((stripProg p).ops.filter fun op => (context cfg rot mixed p).sec op.res && H op.res).length := by
    exact_mod_cast hle
  rw [optimized, insertRelins, relins_afterProg ht.kind fun v => (context cfg rot mixed p).sec v && decide (s (.dec v) ≠ 0),
    relins_afterProg ht.kind H]
  refine le_trans hle ?_
  rw [← List.countP_eq_length_filter, ← List.countP_eq_length_filter]
  exact List.countP_mono_left fun op _ h => by simp only [Bool.and_eq_true] at h; exact h.2

/-- An optimal solution always exists, so `C84_least` applies to every program. -/
theorem C84_optimal_exists {p : Prog} (hw : p.WF) (cfg : Cfg) (rot : Nat → Bool) (mixed : Bool) :
    ∃ s, Optimal (context cfg rot mixed p) (stripProg p) s := by
  have hnat : ∀ s, Feasible (context cfg rot mixed p) (stripProg p) s →
      ∃ n : Nat, objective (context cfg rot mixed p) (stripProg p) s = n := fun s hf =>
    ⟨_, sum_filter _ _ (fun v => s (.dec v)) (fun v => decide (s (.dec v) ≠ 0)) (fun op hop hs => by
      rcases hf.box.dec op hop hs with h | h <;> simp [h])⟩
  have hex : ∃ n : Nat, ∃ s, Feasible (context cfg rot mixed p) (stripProg p) s ∧
      objective (context cfg rot mixed p) (stripProg p) s = n := by
    obtain ⟨s, hf⟩ := C84_feasible hw cfg rot mixed
    obtain ⟨n, hn⟩ := hnat s hf
    exact ⟨n, s, hf, hn⟩
  classical
  obtain ⟨s, hf, hn⟩ := Nat.find_spec hex
  refine ⟨s, hf, fun s' hf' => ?_⟩
  obtain ⟨m, hm⟩ := hnat s' hf'
  rw [hn, hm]
  exact_mod_cast Nat.find_min' hex ⟨s', hf', hm⟩

theorem two_le_comps {p : Prog} (hw : p.WF) :
    ∀ v, (v < p.nargs ∨ ∃ o ∈ p.ops, o.res = v) → secs p v = true → 2 ≤ comps p v := by
  have harg : ∀ v, v < p.nargs → secs p v = true → 2 ≤ comps p v := fun v hv _ => by rw [comps_arg hw hv]
  have hall := ssa_ind (fun v => secs p v = true → 2 ≤ comps p v) p.ops _ hw.ssa harg (by
    intro op hop ih hs
    rw [secs_res hw hop, List.any_eq_true] at hs
    obtain ⟨a, ha, hsa⟩ := hs
    have hmem : a ∈ op.args.filter (secs p) := List.mem_filter.2 ⟨ha, hsa⟩
    have h2 := ih a ha hsa
    rw [comps_res hw hop, compStep]
    split
    · exact le_rfl
    · split
      · have := List.single_le_sum (l := (op.args.filter (secs p)).map fun a => comps p a - 1) (by simp) _
          (List.mem_map.2 ⟨a, hmem, rfl⟩)
        omega
      · exact le_trans h2 (le_foldr_max _ (List.mem_map.2 ⟨a, hmem, rfl⟩)))
  rintro v (hv | ⟨o, ho, rfl⟩)
  · exact harg v hv
  · exact (hall o ho).1

theorem deriveDim_max (l : List Nat) : deriveDim false (l.map some) = some (max 2 (l.foldr max 0)) := by
  have : ∀ b : Nat, (l.map some).foldl (fun (acc : Option Nat) d =>
      match acc, d with
      | some a, some d => some (if false = true then a + d else max a d)
      | _, _ => none) (some b) = some (max b (l.foldr max 0)) := by
    induction l with
    | nil => intro b; simp
    | cons x l ih =>
      intro b
      simp only [List.map_cons, List.foldl_cons, List.foldr_cons, Bool.false_eq_true, if_false] at ih ⊢
      rw [ih, max_assoc]
  unfold deriveDim
  rw [show (if false = true then 0 else 2) = 2 from rfl]
  have h := this 2
  simp only [Bool.false_and, Bool.false_eq_true, if_false, Option.map_id_fun'] at h ⊢
  exact h

/-- The dimension the analysis computes, and with which the pass annotates the program it leaves, is the number of
components. -/
theorem C84_dimension (cfg : Cfg) {p : Prog} (hw : p.WF) {v : Nat} (hv : v < p.nargs ∨ ∃ o ∈ p.ops, o.res = v)
    (hs : secs p v = true) : (facts cfg p v).dim = some (comps p v) := by
  rw [facts_sd2]
  have harg : ∀ v, v < p.nargs → secs p v = true → (sds p v).2 = some (comps p v) := by
    intro v hv hs
    rw [secs, run_of_not_res _ _ _ _ (SSA.res_ne hw.ssa v hv), secEntry, if_pos hv] at hs
    rw [comps_arg hw hv, sds, run_of_not_res _ _ _ _ (hw.ssa.res_ne v hv), sdEntry, factEntry, if_pos hv]
    simp [hs]
  have hall := ssa_ind (fun v => secs p v = true → (sds p v).2 = some (comps p v)) p.ops _ hw.ssa harg (by
    intro op hop ih hs
    have hany : (op.args.any fun a => secs p a) = true := by
      rw [← secs_res hw hop]; exact hs
    rw [sds_res hw hop, comps_res hw hop]
    simp only [sdStep, compStep, sds1, hany, if_true]
    by_cases hk : op.kind = .relinearize
    · simp [hk]
    simp only [hk, if_false]
    have hmap : ((op.args.filter fun a => secs p a).map fun a => (sds p a).2) =
        ((op.args.filter (secs p)).map (comps p)).map some := by
      rw [List.map_map]
      exact List.map_congr_left fun a ha => ih a (List.mem_filter.1 ha).1 (List.mem_filter.1 ha).2
    have h2 : ∀ a ∈ op.args.filter (secs p), 2 ≤ comps p a := fun a ha =>
      two_le_comps hw a ((value_of_mem hw hop).2 a (List.mem_filter.1 ha).1) (List.mem_filter.1 ha).2
    have hne : op.args.filter (secs p) ≠ [] := by
      rw [secs_res hw hop, List.any_eq_true] at hs
      obtain ⟨a, ha, hsa⟩ := hs
      exact List.ne_nil_of_mem (List.mem_filter.2 ⟨ha, hsa⟩)
    rw [hmap]
    by_cases hm : op.kind = .mul
    · simp only [hm, if_true, decide_true]
      have hl := (SSA.arity hw.ssa op hop).2 (Or.inr (Or.inr hm))
      have hlen := List.length_filter_le (secs p) op.args
      match hargs : op.args.filter (secs p) with
      | [] => exact absurd hargs hne
      | [a] =>
        have := h2 a (by rw [hargs]; simp)
        simp [deriveDim]
        omega
      | [a, b] =>
        have := h2 a (by rw [hargs]; simp)
        have := h2 b (by rw [hargs]; simp)
        simp [deriveDim]
        omega
      | _ :: _ :: _ :: _ => simp [hargs] at hlen; omega
    · simp only [hm, if_false, decide_false]
      rw [deriveDim_max]
      obtain ⟨a, ha⟩ := List.exists_mem_of_ne_nil _ hne
      have h3 := le_foldr_max ((op.args.filter (secs p)).map (comps p)) (List.mem_map.2 ⟨a, ha, rfl⟩)
      have := h2 a ha
      rw [max_eq_right (by omega)])
  rcases hv with hv | ⟨o, ho, rfl⟩
  · exact harg v hv hs
  · exact (hall o ho).1 hs

/-! ### Examples -/

/-- `x * x + y * y` with a relinearization after each product. -/
def squares : Prog where
  nargs := 2
  secArg := fun _ => true
  ops := [⟨.mul, [0, 0], 2⟩, ⟨.relinearize, [2], 3⟩, ⟨.mul, [1, 1], 4⟩, ⟨.relinearize, [4], 5⟩, ⟨.add, [3, 5], 6⟩]
  yields := [6]
  next := 7

theorem squares_wf : squares.WF := by
  refine ⟨by decide, ?_, by decide⟩
  simp [squares, SSA, Kind.isMgmt]

/-- One relinearization after the addition is enough, so that is what an optimal solution has. -/
example (cfg : Cfg) (rot : Nat → Bool) (s : Var → ℚ) (ho : Optimal (context cfg rot false squares) (stripProg squares) s) :
    relins squares = 2 ∧ relins (optimized cfg rot false s squares) ≤ 1 := by
  refine ⟨by decide, ?_⟩
  have h := C84_least squares_wf cfg rot false s ho (fun v => v == 6) ?_
  · exact le_trans h (by decide)
  · have hq : afterProg .relinearize (fun op => op.res == 6) (stripProg squares) =
        { squares with
          ops := [⟨.mul, [0, 0], 2⟩, ⟨.mul, [1, 1], 4⟩, ⟨.add, [2, 4], 6⟩, ⟨.relinearize, [6], 7⟩]
          yields := [7]
          next := 8 } := by rfl
    rw [hq]
    constructor
    · decide
    · intro op hop hn
      simp only [List.mem_cons, List.not_mem_nil, or_false] at hop
      rcases hop with rfl | rfl | rfl | rfl <;>
        simp [NeedsLinear, secs, run, secStep, secEntry, squares, upd] at hn
    · decide
    · decide

end Heir.Relin
