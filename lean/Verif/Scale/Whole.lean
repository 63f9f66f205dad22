import Verif.Scale.PopulateAll

/-! # A populated program holds the messages of its input -/

namespace Heir.Scale

variable {K M : Type} [Field K] [CommRing M] [Algebra K M]

/-- The adjustments the walk creates. -/
theorem raiseOp_adjust (cfg : Cfg) (p : Prog) (T1 : Nat → Fact) (henc : Encoded T1 p) (op : Op) (hop : op ∈ p.ops)
    (hA : Arity op) (hsec : (T1 op.res).sec = op.args.any fun a => (T1 a).sec) (hk : op.kind ≠ .adjust) (n n' : Nat)
    (l : List Op) (h : raiseOp cfg T1 op n = some (l, n')) :
    ∀ o ∈ l, o.kind = .adjust → ∃ a ∈ op.args, (T1 a).scaled = true ∧ ∃ m k, o = adjustOp T1 a m k := by
  intro o ho hka
  have hself : l = [op] → False := by
    rintro rfl
    rw [List.mem_singleton] at ho
    subst ho
    exact hk hka
  have huse : ∀ v m k, l = (raiseUse T1 op v m k).1 → v ∈ op.args → (T1 v).scaled = true →
      ∃ a ∈ op.args, (T1 a).scaled = true ∧ ∃ m k, o = adjustOp T1 a m k := by
    rintro v m k rfl hv hs
    simp only [raiseUse, List.mem_cons, List.not_mem_nil, or_false] at ho
    rcases ho with rfl | rfl
    · exact ⟨v, hv, hs, m, k, rfl⟩
    · exact absurd hka hk
  unfold raiseOp at h
  split at h
  · unfold raiseAdditive at h
    split at h
    · simp only [Option.map_eq_some_iff, Prod.mk.injEq] at h
      obtain ⟨m, -, rfl, -⟩ := h
      rcases List.mem_append.1 ho with ho | ho
      · have : ∀ args n, ∀ o ∈ (raiseArgs T1 m args n).1, ∃ a ∈ args, (T1 a).scaled = true ∧
            ∃ m k, o = adjustOp T1 a m k := by
          intro args
          induction args with
          | nil => simp [raiseArgs]
          | cons a as ih =>
            intro n o ho
            rw [raiseArgs] at ho
            split at ho
            · rename_i hc
              simp only [Bool.and_eq_true, decide_eq_true_eq] at hc
              rcases List.mem_cons.1 ho with rfl | ho
              · exact ⟨a, by simp, hc.1, m, n, rfl⟩
              · obtain ⟨b, hb, h⟩ := ih _ o ho
                exact ⟨b, by simp [hb], h⟩
            · obtain ⟨b, hb, h⟩ := ih _ o ho
              exact ⟨b, by simp [hb], h⟩
        exact this _ _ o ho
      · rw [List.mem_singleton] at ho
        subst ho
        exact absurd hka hk
    · cases h; exact (hself rfl).elim
  · split at h
    · rename_i hm
      have hl := hA.1 (by simp [hm])
      have m0 := getD_mem (l := op.args) (i := 0) (by omega)
      have m1 := getD_mem (l := op.args) (i := 1) (by omega)
      unfold raiseMul at h
      simp only at h
      split at h
      · rename_i hs
        have hres : (T1 op.res).sec = true := by
          rw [hsec, List.any_eq_true]
          rw [Bool.or_eq_true] at hs
          rcases hs with hs | hs
          · exact ⟨_, m0, hs⟩
          · exact ⟨_, m1, hs⟩
        have s0 := (henc op hop).1 hres (by simp [hm]) _ m0
        have s1 := (henc op hop).1 hres (by simp [hm]) _ m1
        split at h
        · split at h
          · split at h
            · cases h; exact huse _ _ n rfl m0 s0
            · split at h
              · cases h; exact huse _ _ n rfl m0 s0
              · cases h; exact huse _ _ n rfl m1 s1
          · cases h; exact (hself rfl).elim
        · cases h
      · cases h; exact (hself rfl).elim
    · split at h
      · rename_i hm
        have m0 := headD_mem (hA.2 (by simp [hm]))
        unfold raiseModReduce at h
        simp only at h
        split at h
        · rename_i hs
          simp only [Option.map_eq_some_iff] at h
          obtain ⟨s, -, h⟩ := h
          split at h
          · cases h
            exact huse _ _ n rfl m0 (by unfold Fact.scaled; rw [hs]; rfl)
          · cases h; exact (hself rfl).elim
        · cases h; exact (hself rfl).elim
      · cases h; exact (hself rfl).elim

/-- Operations without a rule and initialisations are not touched. -/
theorem raiseOp_keep (cfg : Cfg) (t : Nat → Fact) (op : Op) (hk : op.kind = .init ∨ ∃ g, op.kind = .other g) (n n' : Nat)
    (l : List Op) (h : raiseOp cfg t op n = some (l, n')) : l = [op] := by
  unfold raiseOp at h
  rcases hk with hk | ⟨g, hk⟩ <;> simp [hk, Kind.additive] at h <;> exact h.1.symm

/-- An operation of the new program before merging: an operation of the input on operands that stand for its
operands, or an adjustment. -/
def Form (p : Prog) (T1 : Nat → Fact) (rs : List Op) (o : Op) : Prop :=
  (∃ op ∈ p.ops, ∃ args', o = { op with args := args' } ∧
      ((op.kind = .init ∨ ∃ g, op.kind = .other g) → args' = op.args) ∧
      List.Forall₂ (fun a a' => a' = a ∨ (∃ m, adjustOp T1 a m a' ∈ rs) ∧ (T1 a).scaled = true) op.args args') ∨
    ∃ a, p.Value a ∧ (T1 a).scaled = true ∧ ∃ m k, o = adjustOp T1 a m k

theorem ssa_args_value (N : Nat) (p : Prog) (h : SSA N (· < p.nargs) p.ops) :
    ∀ o ∈ p.ops, p.Value o.res ∧ ∀ a ∈ o.args, p.Value a :=
  ssa_induction N p.Value p.ops _ h (fun v hv => Or.inl hv) fun o ho _ => Or.inr ⟨o, ho, rfl⟩

theorem adjs_kind {t : Nat → Fact} {vs : List Nat} {n n' : Nat} {l : List Op} (h : Adjs t vs n l n') :
    ∀ o ∈ l, o.kind = .adjust := by
  induction h with
  | nil => simp
  | cons n v m l n' _ _ ih =>
    intro o ho
    rcases List.mem_cons.1 ho with rfl | ho
    · rfl
    · exact ih o ho

theorem raiseAll_form (cfg : Cfg) (p : Prog) (hp : p.WF) (T1 : Nat → Fact) (henc : Encoded T1 p)
    (hsec : ∀ op ∈ p.ops, (T1 op.res).sec = op.args.any fun a => (T1 a).sec)
    (hplain : ∀ op ∈ p.ops, op.kind ≠ .adjust ∧ op.kind ≠ .bootstrap) (rs : List Op) (ops : List Op)
    (hsub : ∀ o ∈ ops, o ∈ p.ops) (n n' : Nat) (l : List Op) (h : raiseAll cfg T1 ops n = some (l, n'))
    (hl : ∀ o ∈ l, o ∈ rs) : ∀ o ∈ l, Form p T1 rs o := by
  induction ops generalizing n n' l with
  | nil => cases h; simp
  | cons op ops ih =>
    rw [raiseAll, Option.bind_eq_some_iff] at h
    obtain ⟨⟨l₁, n₁⟩, h1, h⟩ := h
    simp only [Option.map_eq_some_iff, Prod.mk.injEq, Prod.exists] at h
    obtain ⟨l₂, n₂, h2, rfl, rfl⟩ := h
    intro o ho
    rcases List.mem_append.1 ho with ho | ho
    · have hop := hsub op (by simp)
      have hA := ssa_mem _ _ _ hp.ssa op hop
      have hadj := raiseOp_adjust cfg p T1 henc op hop hA (hsec op hop) (hplain op hop).1 n n₁ l₁ h1
      obtain ⟨pre, args', e, hpre, hrel⟩ := raiseOp_shape cfg T1 op hA n l₁ n₁ h1
      by_cases hka : o.kind = .adjust
      · obtain ⟨a, ha, hs, hm⟩ := hadj o ho hka
        exact Or.inr ⟨a, (ssa_args_value _ p hp.ssa op hop).2 a ha, hs, hm⟩
      · rw [e] at ho
        rcases List.mem_append.1 ho with ho | ho
        · exact absurd (adjs_kind hpre o ho) hka
        · rw [List.mem_singleton] at ho
          refine Or.inl ⟨op, hop, args', ho, ?_, ?_⟩
          · intro hk
            have e' := raiseOp_keep cfg T1 op hk n n₁ l₁ h1
            rw [e] at e'
            have : pre = [] ∧ { op with args := args' } = op := by
              cases pre with
              | nil => simpa using e'
              | cons x xs => simp at e'
            exact congrArg Op.args this.2
          · refine hrel.imp fun a a' hR => ?_
            rcases hR with h | ⟨m, hm⟩
            · exact Or.inl h
            · have hml : adjustOp T1 a m a' ∈ l₁ := by rw [e]; exact List.mem_append.2 (Or.inl hm)
              refine Or.inr ⟨⟨m, hl _ (List.mem_append.2 (Or.inl hml))⟩, ?_⟩
              obtain ⟨b, -, hs, m', k, hb⟩ := hadj _ hml rfl
              simp only [adjustOp, Op.mk.injEq, List.cons.injEq, and_true, true_and] at hb
              rw [hb.1]; exact hs
    · exact ih (fun o ho => hsub o (by simp [ho])) _ _ _ h2
        (fun o ho => hl o (List.mem_append.2 (Or.inr ho))) o ho

theorem run_none (l : List Op) (src : Nat → Option Nat) (v c : Nat) (h : run initSource l src v = some c) :
    src v = some c ∨ ∃ o ∈ l, o.kind = .init ∧ o.res = v ∧ o.args.head? = some c := by
  induction l generalizing src with
  | nil => exact Or.inl h
  | cons o l ih =>
    rw [run] at h
    rcases ih _ h with h | ⟨o', h1, h2⟩
    · by_cases hv : v = o.res
      · subst hv
        rw [upd_eq] at h
        unfold initSource at h
        split at h
        · exact Or.inr ⟨o, by simp, by assumption, rfl, h⟩
        · cases h
      · rw [upd_ne _ _ hv] at h; exact Or.inl h
    · exact Or.inr ⟨o', by simp [h1], h2⟩

theorem mapM_isSome {l : List Nat} {f : Nat → Option Int} (h : ∀ a ∈ l, f a ≠ none) :
    ∃ ss, l.mapM f = some ss ∧ ss.length = l.length := by
  induction l with
  | nil => exact ⟨[], rfl, rfl⟩
  | cons a l ih =>
    obtain ⟨ss, h1, h2⟩ := ih fun b hb => h b (by simp [hb])
    obtain ⟨x, hx⟩ := Option.ne_none_iff_exists'.1 (h a (by simp))
    exact ⟨x :: ss, by rw [List.mapM_cons, hx, h1]; rfl, by simp [h2]⟩

/-- Every secret or encoded value has a scale. -/
theorem facts_scaled (b : Bool) (cfg : Cfg) (p : Prog) (hp : p.WF)
    (hann : ∀ op ∈ p.ops, op.kind = .adjust → op.ann ≠ none) :
    AllScaled (facts b cfg p) (attrScale (facts b cfg p)) := by
  have h0 : ∀ v, v < p.nargs → (facts b cfg p v).scaled = true → (facts b cfg p v).scale ≠ none := by
    intro v hv
    unfold facts
    rw [run_of_defined _ _ _ _ _ hp.ssa v hv]
    simp only [entry, hv, if_true, Fact.scaled, Bool.or_false]
    intro h; simp [h]
  have hall := ssa_induction p.next (fun v => (facts b cfg p v).scaled = true → (facts b cfg p v).scale ≠ none)
    p.ops _ hp.ssa h0 (by
      intro o ho ih hs
      have fx := facts_fix b cfg p hp o ho
      generalize facts b cfg p = t at *
      by_cases hi : o.kind = .init
      · rw [fx]; simp [step, scaleStep, hi]
      · have hsec : (o.args.any fun a => (t a).sec) = true := by
          rw [fx] at hs
          simpa [Fact.scaled, step, hi] using hs
        obtain ⟨ss, e, hlen⟩ : ∃ ss, operandScales t o.args = some ss ∧
            ss.length = (o.args.filter fun a => (t a).scaled).length :=
          mapM_isSome fun a ha => ih a (List.mem_filter.1 ha).1 (List.mem_filter.1 ha).2
        have hpos : 0 < ss.length := by
          rw [hlen]
          obtain ⟨a, ha, hs⟩ := List.any_eq_true.1 hsec
          exact List.length_pos_of_mem (List.mem_filter.2 ⟨ha, by simp [Fact.scaled, hs]⟩)
        obtain ⟨s, ss, rfl⟩ : ∃ s ss', ss = s :: ss' := by
          cases ss with
          | nil => simp at hpos
          | cons s ss => exact ⟨s, ss, rfl⟩
        have : (t o.res).scale = scaleStep b cfg t o := by rw [fx]; rfl
        rw [this]
        unfold scaleStep
        rw [e, hsec]
        cases hk : o.kind with
        | init => exact absurd hk hi
        | adjust => exact hann o ho hk
        | mul =>
          simp only [Option.bind_some, mulScale]
          split
          · split <;> simp
          · simp
        | _ => simp [maxScale])
  intro v hs
  have hv : (facts b cfg p v).scale ≠ none := by
    by_cases hn : v < p.nargs
    · exact h0 v hn hs
    · by_cases hr : ∃ op ∈ p.ops, op.res = v
      · obtain ⟨op, hop, rfl⟩ := hr
        exact (hall op hop).1 hs
      · exfalso
        have : facts b cfg p v = entry cfg p v := by
          unfold facts
          have : ∀ (l : List Op) (t : Nat → Fact), (∀ o ∈ l, o.res ≠ v) → run (step b cfg) l t v = t v := by
            intro l
            induction l with
            | nil => intro t _; rfl
            | cons o l ih =>
              intro t h
              rw [run, ih _ fun o ho => h o (by simp [ho]), upd_ne _ _ (Ne.symm (h o (by simp)))]
          exact this _ _ fun o ho hc => hr ⟨o, ho, hc⟩
        rw [this] at hs
        simp [entry, hn, Fact.scaled] at hs
  unfold attrScale
  rw [if_pos hs]
  exact hv

/-- In the input program an operation with a secret or encoded operand has a secret result. -/
theorem scaled_sec {p : Prog} {T1 : Nat → Fact} (henc : Encoded T1 p) {op : Op} (hop : op ∈ p.ops)
    (hsec : (T1 op.res).sec = op.args.any fun a => (T1 a).sec) {a : Nat} (ha : a ∈ op.args)
    (h : (T1 a).scaled = true) : (T1 op.res).sec = true := by
  unfold Fact.scaled at h
  rw [Bool.or_eq_true] at h
  rcases h with h | h
  · rw [hsec, List.any_eq_true]; exact ⟨a, ha, h⟩
  · exact (henc op hop).2.1 a ha h

theorem populate_held (β : K) (hβ : β ≠ 0) (cfg : Cfg) (I : Kind → List M → M) (p p' : Prog) (hp : p.WF)
    (inp : Nat → M) (henc : Encoded (facts true cfg p) p) (hcov : Covered cfg (facts true cfg p) p)
    (hplain : ∀ op ∈ p.ops, op.kind ≠ .adjust ∧ op.kind ≠ .bootstrap) (hone : OthersOne (facts true cfg p) p)
    (hhom : Homogeneous K I (facts true cfg p) p) (h : populate cfg p = some p') (v : Nat) (hv : p.Value v)
    (hs : (facts true cfg p v).scaled = true) :
    ∃ s, attrScale (facts false cfg p') v = some s ∧
      held β cfg I (facts false cfg p') (attrScale (facts false cfg p')) p' inp v =
        β ^ s • messages I p inp v := by
  obtain ⟨S0, hinv, hvalid⟩ := populate_inv cfg I p p' hp inp henc hcov hplain h
  have hwf := populate_wf cfg p p' hp h
  have h' := h
  unfold populate at h'
  simp only [Option.map_eq_some_iff, Prod.exists] at h'
  obtain ⟨rs, n', hr, hp'⟩ := h'
  have hssa := (raiseAll_ssa n' p.next cfg _ p.ops p.next rs n' hr (· < p.nargs) (· < p.nargs) hp.ssa
    (fun v => by omega) (fun v hv => lt_of_lt_of_le hv hp.nargs) le_rfl le_rfl).1
  have hops : p'.ops = rs.map (mergeOp (sources rs)) := by
    rw [← hp']
    exact mergeAll_eq _ _ _ _ hssa
  have hsecres := sec_res true cfg p hp
  have hform := raiseAll_form cfg p hp _ henc hsecres hplain rs p.ops (fun o ho => ho) _ _ _ hr fun o ho => ho
  have hfix := facts_fix false cfg p' hwf
  generalize hT1 : facts true cfg p = T1 at *
  generalize hT2 : facts false cfg p' = T2 at *
  have hnargs : p'.nargs = p.nargs := by rw [← hp']
  have hval := ssa_args_value _ p hp.ssa
  -- an adjustment and what became of it
  have hadj : ∀ a m k, p.Value a → (T1 a).scaled = true → adjustOp T1 a m k ∈ rs →
      (T2 k).sec = (T1 a).sec ∧ (T2 k).scaled = true ∧
        ((T1 a).ini = false ∧ (T1 a).sec = true ∧ mergeOp (sources rs) (adjustOp T1 a m k) = adjustOp T1 a m k ∨
          ∃ c, mergeOp (sources rs) (adjustOp T1 a m k) = ⟨.init, [c], k, (T1 a).lvl, some m⟩ ∧
            (T2 c).scaled = false) := by
    intro a m k hva hsa hrs
    have hm : mergeOp (sources rs) (adjustOp T1 a m k) ∈ p'.ops := by rw [hops]; exact List.mem_map_of_mem hrs
    have fx := hfix _ hm
    rw [mergeOp_res] at fx
    cases hS : sources rs a with
    | some c =>
      have e : mergeOp (sources rs) (adjustOp T1 a m k) = ⟨.init, [c], k, (T1 a).lvl, some m⟩ := by
        simp [mergeOp, adjustOp, hS]
      rcases run_none rs _ a c hS with hc | ⟨o, ho, hk, rfl, hc⟩
      · cases hc
      · rcases hform o ho with ⟨op, hop, args', rfl, hi, -⟩ | ⟨b, -, -, m, k, rfl⟩
        · have hi' := hi (Or.inl hk)
          subst hi'
          simp only at hk hc hS hva hsa e fx
          have hcm := List.mem_of_mem_head? hc
          have hl1 := (ssa_mem _ _ _ hp.ssa op hop).2 (Or.inl hk)
          have hun := (henc op hop).2.2.1 hk c hcm
          have hci := hinv c ((hval op hop).2 c hcm)
          have hsec2 : (T1 op.res).sec = (T1 c).sec := by
            rw [hsecres op hop]
            match hq : op.args, hl1 with
            | [x], _ =>
              rw [hq] at hc
              cases hc
              simp
          rw [e] at fx
          refine ⟨?_, ?_, Or.inr ⟨c, e, by rw [hci.scaled, hun]⟩⟩
          · rw [hsec2, ← hci.sec]
            have := congrArg Fact.sec fx
            simpa [step, adjustOp] using this
          · have := congrArg Fact.ini fx
            unfold Fact.scaled
            rw [Bool.or_eq_true]
            exact Or.inr (by simpa [step, adjustOp] using this)
        · simp [adjustOp] at hk
    | none =>
      have e : mergeOp (sources rs) (adjustOp T1 a m k) = adjustOp T1 a m k := by
        simp [mergeOp, adjustOp, hS]
      have hia := hinv a hva
      rw [e] at fx
      have hsk : (T2 k).sec = (T1 a).sec := by
        rw [← hia.sec]
        have := congrArg Fact.sec fx
        simpa [step, adjustOp] using this
      have hni : (T1 a).ini = false := by
        by_contra hc
        simp only [Bool.not_eq_false] at hc
        rcases hva with hlt | ⟨op, hop, rfl⟩
        · rw [← hT1] at hc
          unfold facts at hc
          rw [run_of_defined _ _ _ _ _ hp.ssa a hlt] at hc
          simp [entry, hlt] at hc
        · have hk : op.kind = .init := by
            have := ini_res true cfg p hp op hop
            rw [hT1, hc] at this
            simpa using this.symm
          -- the initialisation is still there
          have hmem : op ∈ rs := by
            have : ∀ (ops : List Op) n n' l, op ∈ ops → raiseAll cfg T1 ops n = some (l, n') → op ∈ l := by
              intro ops
              induction ops with
              | nil => intro n n' l h; simp at h
              | cons o ops ih =>
                intro n n' l hmem h
                rw [raiseAll, Option.bind_eq_some_iff] at h
                obtain ⟨⟨l₁, n₁⟩, h1, h⟩ := h
                simp only [Option.map_eq_some_iff, Prod.mk.injEq, Prod.exists] at h
                obtain ⟨l₂, n₂, h2, rfl, rfl⟩ := h
                rcases List.mem_cons.1 hmem with rfl | hmem
                · rw [raiseOp_keep cfg T1 op (Or.inl hk) _ _ _ h1]; simp
                · exact List.mem_append.2 (Or.inr (ih _ _ _ hmem h2))
            exact this _ _ _ _ hop hr
          have hsrc := run_fix _ _ _ initSource_local rs (fun _ => none) hssa op hmem
          have : sources rs op.res = initSource (sources rs) op := hsrc
          rw [hS] at this
          have hl1 := (ssa_mem _ _ _ hp.ssa op hop).2 (Or.inl hk)
          unfold initSource at this
          rw [if_pos hk] at this
          match hq : op.args, hl1 with
          | [x], _ => rw [hq] at this; simp at this
      have hsa' : (T1 a).sec = true := by simpa [Fact.scaled, hni] using hsa
      refine ⟨hsk, ?_, Or.inl ⟨hni, hsa', e⟩⟩
      unfold Fact.scaled
      rw [hsk, hsa']; rfl
  -- operands
  have hargs : ∀ op ∈ p.ops, ∀ a ∈ op.args, ∀ a', (a' = a ∨ (∃ m, adjustOp T1 a m a' ∈ rs) ∧ (T1 a).scaled = true) →
      (T2 a').sec = (T1 a).sec ∧ (T2 a').scaled = (T1 a).scaled := by
    intro op hop a ha a' hR
    rcases hR with rfl | ⟨⟨m, hm⟩, hs⟩
    · have := hinv a' ((hval op hop).2 a' ha)
      exact ⟨this.sec, this.scaled⟩
    · obtain ⟨h1, h2, -⟩ := hadj a m a' ((hval op hop).2 a ha) hs hm
      exact ⟨h1, by rw [h2, hs]⟩
  have hresinv : ∀ op ∈ p.ops, (T2 op.res).sec = (T1 op.res).sec := fun op hop => (hinv _ (hval op hop).1).sec
  -- the operations of the new program
  have hnew : ∀ o ∈ p'.ops,
      (∃ op ∈ p.ops, ∃ args', o = { op with args := args' } ∧
        ((op.kind = .init ∨ ∃ g, op.kind = .other g) → args' = op.args) ∧
        List.Forall₂ (fun a a' => a' = a ∨ (∃ m, adjustOp T1 a m a' ∈ rs) ∧ (T1 a).scaled = true) op.args args') ∨
      (∃ a m k, p.Value a ∧ (T1 a).ini = false ∧ (T1 a).sec = true ∧ o = adjustOp T1 a m k ∧ (T2 k).sec = true) ∨
      ∃ c k m lv, o = ⟨.init, [c], k, lv, some m⟩ ∧ (T2 c).scaled = false := by
    intro o ho
    rw [hops] at ho
    obtain ⟨o', ho', rfl⟩ := List.mem_map.1 ho
    rcases hform o' ho' with ⟨op, hop, args', rfl, hi, hR⟩ | ⟨a, hva, hsa, m, k, rfl⟩
    · left
      refine ⟨op, hop, args', mergeOp_ne _ _ (hplain op hop).1, hi, hR⟩
    · right
      obtain ⟨h1, -, h3 | ⟨c, h3, h4⟩⟩ := hadj a m k hva hsa ho'
      · exact Or.inl ⟨a, m, k, hva, h3.1, h3.2.1, h3.2.2, by rw [h1, h3.2.1]⟩
      · exact Or.inr ⟨c, k, m, _, h3, h4⟩
  have henc' : Encoded T2 p' := by
    intro o ho
    rcases hnew o ho with ⟨op, hop, args', rfl, hi, hR⟩ | ⟨a, m, k, hva, hni, hsa, rfl, hsk⟩ | ⟨c, k, m, lv, rfl, hc⟩
    · simp only
      refine ⟨?_, ?_, ?_, ?_⟩
      · intro hs hk a' ha'
        obtain ⟨a, ha, haR⟩ := forall₂_mem hR a' ha'
        rw [(hargs op hop a ha a' haR).2]
        exact (henc op hop).1 (by rw [← hresinv op hop]; exact hs) hk a ha
      · intro a' ha' hini
        obtain ⟨a, ha, haR⟩ := forall₂_mem hR a' ha'
        rw [hresinv op hop]
        refine scaled_sec henc hop (hsecres op hop) ha ?_
        rw [← (hargs op hop a ha a' haR).2]
        unfold Fact.scaled; rw [hini]; simp
      · intro hk a' ha'
        rw [hi (Or.inl hk)] at ha'
        rw [(hargs op hop a' ha' a' (Or.inl rfl)).2]
        exact (henc op hop).2.2.1 hk a' ha'
      · intro hk
        have := hplain op hop
        rcases hk with hk | hk
        · exact absurd hk this.1
        · exact absurd hk this.2
    · refine ⟨by simp [adjustOp], ?_, by simp [adjustOp], fun _ => hsk⟩
      intro b hb hini
      simp only [adjustOp, List.mem_singleton] at hb
      subst hb
      rw [(hinv b hva).ini, hni] at hini
      cases hini
    · refine ⟨by simp, ?_, ?_, by simp⟩
      · intro b hb hini
        simp only [List.mem_singleton] at hb
        subst hb
        simp [Fact.scaled, hini] at hc
      · intro _ b hb
        simp only [List.mem_singleton] at hb
        subst hb
        exact hc
  have hhom' : Homogeneous K I T2 p' := by
    intro o ho hk hs c xs hlen
    rcases hnew o ho with ⟨op, hop, args', rfl, hi, hR⟩ | ⟨a, m, k, hva, hni, hsa, rfl, hsk⟩ | ⟨c, k, m, lv, rfl, hc⟩
    · simp only at *
      rw [hresinv op hop] at hs
      rw [← hhom op hop hk hs c xs (by rw [hlen, hR.length_eq])]
      congr 1
      have : ∀ (args args' : List Nat) (xs : List M), (∀ a ∈ args, a ∈ op.args) → List.Forall₂ (fun a a' => a' = a ∨
          (∃ m, adjustOp T1 a m a' ∈ rs) ∧ (T1 a).scaled = true) args args' →
          List.zipWith (fun a x => if (T2 a).scaled then c • x else x) args' xs =
            List.zipWith (fun a x => if (T1 a).scaled then c • x else x) args xs := by
        intro args args' xs hsub h
        induction h generalizing xs with
        | nil => rfl
        | @cons a a' l l' h _ ih =>
          cases xs with
          | nil => rfl
          | cons x xs =>
            rw [List.zipWith_cons_cons, List.zipWith_cons_cons, ih _ fun b hb => hsub b (by simp [hb]),
              (hargs op hop a (hsub a (by simp)) a' h).2]
      exact this _ _ _ (fun a ha => ha) hR
    · simp [adjustOp] at hk
    · simp at hk
  have hann : ∀ op ∈ p'.ops, op.kind = .adjust → op.ann ≠ none := by
    intro o ho hk
    rcases hnew o ho with ⟨op, hop, args', rfl, hi, hR⟩ | ⟨a, m, k, hva, hni, hsa, rfl, hsk⟩ | ⟨c, k, m, lv, rfl, hc⟩
    · exact absurd hk (hplain op hop).1
    · simp [adjustOp]
    · simp at hk
  have hall : AllScaled T2 (attrScale T2) := by
    rw [← hT2]
    exact facts_scaled false cfg p' hwf hann
  have hoth : OthersKeep T2 (attrScale T2) p' := by
    intro o ho ⟨g, hk⟩ hs a ha hsa
    rcases hnew o ho with ⟨op, hop, args', rfl, hi, hR⟩ | ⟨a, m, k, hva, hni, hsa, rfl, hsk⟩ | ⟨c, k, m, lv, rfl, hc⟩
    · have hi' := hi (Or.inr ⟨g, hk⟩)
      subst hi'
      have e : (⟨op.kind, op.args, op.res, op.lvl, op.ann⟩ : Op) = op := rfl
      simp only at hk ha hs
      have hu : ∀ b ∈ op.args, (T2 b).scaled = true → b = a := by
        intro b hb hsb
        refine hone op hop ⟨g, hk⟩ b hb a ha ?_ ?_
        · rw [← (hargs op hop b hb b (Or.inl rfl)).2]; exact hsb
        · rw [← (hargs op hop a ha a (Or.inl rfl)).2]; exact hsa
      have fx := hfix op ho
      have hsc : (T2 op.res).scale = (T2 a).scale := by
        have := congrArg Fact.scale fx
        have hany : (op.args.any fun a => (T2 a).sec) = true := by
          rw [← hs, fx]; rfl
        simp only [step, scaleStep, hk, hany, if_true] at this
        rw [this]
        unfold operandScales
        have hmem : a ∈ op.args.filter fun a => (T2 a).scaled := List.mem_filter.2 ⟨ha, hsa⟩
        have huf : ∀ b ∈ op.args.filter fun a => (T2 a).scaled, b = a := fun b hb =>
          hu b (List.mem_filter.1 hb).1 (List.mem_filter.1 hb).2
        obtain ⟨x, hx⟩ : ∃ x, (T2 a).scale = some x := by
          have := hall a hsa
          unfold attrScale at this
          rw [if_pos hsa] at this
          exact Option.ne_none_iff_exists'.1 this
        cases hq : op.args.filter fun a => (T2 a).scaled with
        | nil => rw [hq] at hmem; simp at hmem
        | cons b l =>
          rw [hq] at huf
          have hl : ∀ c ∈ l, (T2 c).scale ≠ none := by
            intro c hc
            rw [huf c (by simp [hc]), hx]; simp
          obtain ⟨ss, hss, -⟩ := mapM_isSome hl
          rw [List.mapM_cons, huf b (by simp), hx, hss]
          rfl
      simp only
      unfold attrScale
      have hsr : (T2 op.res).scaled = true := by unfold Fact.scaled; rw [hs]; rfl
      rw [if_pos hsa, if_pos hsr, hsc]
    · simp [adjustOp] at hk
    · simp at hk
  have hv' : p'.Value v := by
    rcases hv with hlt | ⟨op, hop, rfl⟩
    · exact Or.inl (by rw [hnargs]; exact hlt)
    · right
      have : ∀ (ops : List Op) n n' l, op ∈ ops → (∀ o ∈ ops, o ∈ p.ops) → raiseAll cfg T1 ops n = some (l, n') →
          ∃ o ∈ l, o.res = op.res := by
        intro ops
        induction ops with
        | nil => intro n n' l h; simp at h
        | cons o ops ih =>
          intro n n' l hmem hsub h
          rw [raiseAll, Option.bind_eq_some_iff] at h
          obtain ⟨⟨l₁, n₁⟩, h1, h⟩ := h
          simp only [Option.map_eq_some_iff, Prod.mk.injEq, Prod.exists] at h
          obtain ⟨l₂, n₂, h2, rfl, rfl⟩ := h
          rcases List.mem_cons.1 hmem with rfl | hmem
          · obtain ⟨pre, args', rfl, -, -⟩ := raiseOp_shape cfg T1 op (ssa_mem _ _ _ hp.ssa op hop) _ _ _ h1
            exact ⟨{ op with args := args' }, by simp, rfl⟩
          · obtain ⟨o', h1, h2⟩ := ih _ _ _ hmem (fun o ho => hsub o (by simp [ho])) h2
            exact ⟨o', List.mem_append.2 (Or.inr h1), h2⟩
      obtain ⟨o, ho, he⟩ := this _ _ _ _ hop (fun o ho => ho) hr
      refine ⟨mergeOp (sources rs) o, by rw [hops]; exact List.mem_map_of_mem ho, ?_⟩
      rw [mergeOp_res, he]
  have hheld := held_eq β hβ false cfg I p' hwf (attrScale T2) inp
  rw [hT2] at hheld
  have := hheld hall henc' hhom' hoth hvalid v hv'
  have hs2 : (T2 v).scaled = true := by rw [(hinv v hv).scaled]; exact hs
  obtain ⟨s, hse⟩ := Option.ne_none_iff_exists'.1 (hall v hs2)
  refine ⟨s, hse, ?_⟩
  unfold Holds at this
  rw [if_pos hs2, hse] at this
  rw [this, (hinv v hv).msg]
  rfl

end Heir.Scale
