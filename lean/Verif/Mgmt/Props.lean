import Verif.Mgmt.DepthMatch

/-! # Properties of the insertion of ciphertext management -/

namespace Heir.Mgmt

/-! ## C73: the program computes the same -/

/-- Management insertion for BGV and CKKS yields a well-formed program with the same result, whatever the
arithmetic operations mean. -/
theorem C73_insertion_keeps_result (o : Opts) (cfg : Cfg) {p q : Prog} (hw : p.WF)
    (h : insertMgmt o cfg p = some q) :
    q.WF ∧ ∀ {D : Type} (I : Kind → List D → D) (env : Nat → D), q.result I env = p.result I env :=
  insertMgmt_wf o cfg hw h

/-- The same for B/FV. -/
theorem C73_bfv_insertion_keeps_result (cfg : Cfg) {p : Prog} (hw : p.WF) :
    (insertMgmtBFV cfg p).WF ∧
      ∀ {D : Type} (I : Kind → List D → D) (env : Nat → D), (insertMgmtBFV cfg p).result I env = p.result I env := by
  refine ⟨afterProg_wf rfl _ (insertInit_wf cfg hw), fun I env => ?_⟩
  rw [insertMgmtBFV, relinearize, afterProg_result rfl _ (insertInit_wf cfg hw),
    (insertInit_ins cfg p).result (by rintro k rfl; rfl) hw]

/-- `x * x + x * c` with a secret `x` and a plain `c`. -/
def sample : Prog where
  nargs := 2
  secArg := fun v => v == 0
  ops := [⟨.mul, [0, 0], 2⟩, ⟨.mul, [2, 0], 3⟩, ⟨.mul, [0, 1], 4⟩, ⟨.add, [3, 4], 5⟩]
  yields := [5]
  next := 6

theorem sample_wf : sample.WF := by
  refine ⟨by decide, ?_, ?_⟩
  · simp [sample, SSA, Kind.isMgmt]
  · intro y hy
    simp [sample] at hy
    subst hy
    exact Or.inr ⟨⟨.add, [3, 4], 5⟩, by simp [sample], rfl⟩

example : (insertMgmt ⟨true, false, false⟩ ⟨10, 0⟩ sample).map (fun q => (q.ops, q.yields)) =
    some ([⟨.mul, [0, 0], 2⟩, ⟨.relinearize, [2], 10⟩, ⟨.modReduce, [10], 7⟩,
      ⟨.adjustScale 0, [0], 12⟩, ⟨.modReduce, [12], 13⟩,
      ⟨.mul, [7, 13], 3⟩, ⟨.relinearize, [3], 11⟩, ⟨.modReduce, [11], 8⟩, ⟨.init, [1], 6⟩, ⟨.mul, [0, 6], 4⟩,
      ⟨.modReduce, [4], 9⟩, ⟨.adjustScale 1, [9], 14⟩, ⟨.modReduce, [14], 15⟩, ⟨.add, [8, 15], 5⟩], [5]) := by
  decide +kernel

/-! ## C74: operands are at one level -/

/-- Management insertion never looks up a missing analysis state, and in the program it produces the secret
operands of every addition, subtraction, multiplication and insertion are at the level of the result.  The
levels of the values that were there before levels were matched have not changed. -/
theorem C74_levels_match (o : Opts) (cfg : Cfg) {p : Prog} (hw : p.WF) (hi : InsertsTwo cfg p) :
    ∃ q, insertMgmt o cfg p = some q ∧ LevelsMatch cfg q ∧
      ∀ op ∈ (insertMgmtPre o cfg p).ops,
        (facts cfg q op.res).lvl = (facts cfg (insertMgmtPre o cfg p) op.res).lvl :=
  insertMgmt_levels o cfg hw hi

example : sample.WF ∧ InsertsTwo ⟨10, 0⟩ sample ∧ ¬ LevelsMatch ⟨10, 0⟩ (insertMgmtPre ⟨true, false, false⟩ ⟨10, 0⟩ sample) := by
  refine ⟨sample_wf, ?_, ?_⟩
  · intro op hop hk
    simp [sample] at hop
    rcases hop with rfl | rfl | rfl | rfl <;> simp at hk
  · intro h
    have := h ⟨.add, [8, 9], 5⟩ (by decide) (Or.inl rfl) (by decide) (by decide) 9 (by decide) (by decide)
    exact absurd this (by decide)

/-- Said of the ciphertexts instead of the analysis: as long as no path drops more moduli than the budget, the
operands of each such operation have had the same number of moduli dropped, along whatever paths. -/
theorem C74_dropped_moduli_match (o : Opts) (cfg : Cfg) {p : Prog} (hw : p.WF) (hi : InsertsTwo cfg p)
    (ho : OthersOne p) (hn : ∀ op ∈ p.ops, op.kind ≠ .levelReduceMin) :
    ∃ q, insertMgmt o cfg p = some q ∧
      ((∀ v k, Drops cfg.consumed q v k → k ≤ cfg.budget) →
        ∀ op ∈ q.ops, op.kind.needsSameLevel → ∀ a ∈ op.args, ∀ b ∈ op.args, ∀ k l,
          Drops cfg.consumed q a k → Drops cfg.consumed q b l → k = l) := by
  obtain ⟨q, hq, hm, _⟩ := insertMgmt_levels o cfg hw hi
  have hwq := (insertMgmt_wf o cfg hw hq).1
  have hnq := insertMgmt_noMin o cfg hw hn hq
  have hoq := (insertMgmt_same o cfg hw hq).oneSec hwq (ho.oneSec hw)
  refine ⟨q, hq, fun hb op hop hk a ha b hb' k l hka hlb => ?_⟩
  have h1 := drops_level cfg hwq hnq hb hm hoq hka
  have h2 := drops_level cfg hwq hnq hb hm hoq hlb
  have hs : secs q op.res = true := by
    rw [secs_res hwq hop, List.any_eq_true]
    exact ⟨a, ha, drops_sec hwq hka⟩
  obtain ⟨m, _, hl⟩ := level_drops cfg hwq hnq hb (Or.inr ⟨op, hop, rfl⟩) hs
  have e1 := hm op hop hk (by rw [facts_sec]; exact hs) (by rw [facts_sl2, hl]; simp) a ha
    (by rw [facts_sec]; exact drops_sec hwq hka)
  have e2 := hm op hop hk (by rw [facts_sec]; exact hs) (by rw [facts_sl2, hl]; simp) b hb'
    (by rw [facts_sec]; exact drops_sec hwq hlb)
  rw [facts_sl2, facts_sl2, h1] at e1
  rw [facts_sl2, facts_sl2, h2] at e2
  rw [← e1] at e2
  injection e2 with e2
  exact e2.symm

example : OthersOne sample ∧ (∀ op ∈ sample.ops, op.kind ≠ .levelReduceMin) ∧ Drops 0 sample 5 0 := by
  refine ⟨?_, by decide, ?_⟩
  · intro op hop hk
    simp [sample] at hop
    rcases hop with rfl | rfl | rfl | rfl <;> exact absurd (by simp [Kind.needsSameLevel]) hk
  · refine Drops.keep ⟨.add, [3, 4], 5⟩ 4 0 (by decide) (by decide) ?_ (by simp) (by simp) (by simp) (by simp)
    refine Drops.keep ⟨.mul, [0, 1], 4⟩ 0 0 (by decide) (by decide) ?_ (by simp) (by simp) (by simp) (by simp)
    exact Drops.arg 0 (by decide) rfl

/-! ## C75: products of ciphertexts are relinearized -/

/-- After management insertion for BGV and CKKS only relinearizations see ciphertexts of dimension other than
two. -/
theorem C75_products_relinearized (o : Opts) (cfg : Cfg) {p q : Prog} (hw : p.WF)
    (h : insertMgmt o cfg p = some q) : Linear cfg q :=
  insertMgmt_linear o cfg hw h

/-- Said of the ciphertexts instead of the analysis: only relinearizations see ciphertexts with a number of
components other than two, and the yielded ones have two. -/
theorem C75_two_components (o : Opts) (cfg : Cfg) {p q : Prog} (hw : p.WF) (h : insertMgmt o cfg p = some q) :
    (∀ op ∈ q.ops, op.kind ≠ .relinearize → ∀ a ∈ op.args, ∀ d, Comps q a d → d = 2) ∧
      ∀ y ∈ q.yields, ∀ d, Comps q y d → d = 2 :=
  linear_comps cfg (insertMgmt_wf o cfg hw h).1 (insertMgmt_linear o cfg hw h)

example : Comps sample 2 3 ∧ Comps sample 3 4 := by
  have h0 : Comps sample 0 2 := Comps.arg 0 (by decide) rfl
  have h2 : Comps sample 2 3 := Comps.mul ⟨.mul, [0, 0], 2⟩ 0 0 2 2 (by decide) rfl rfl h0 h0
  exact ⟨h2, Comps.mul ⟨.mul, [2, 0], 3⟩ 2 0 3 2 (by decide) rfl rfl h2 h0⟩

/-- `x * x * x` -/
def cube : Prog where
  nargs := 1
  secArg := fun _ => true
  ops := [⟨.mul, [0, 0], 1⟩, ⟨.mul, [1, 0], 2⟩]
  yields := [2]
  next := 3

theorem cube_wf : cube.WF := by
  refine ⟨by decide, ?_, ?_⟩
  · simp [cube, SSA, Kind.isMgmt]
  · intro y hy
    simp [cube] at hy
    subst hy
    exact Or.inr ⟨⟨.mul, [1, 0], 2⟩, by simp [cube], rfl⟩

/-- The B/FV pass leaves the second product of a chain of products without relinearization: the solver has no
state for the relinearized first product, so it does not count as secret. -/
theorem C75_bfv_relinearization_violated :
    cube.WF ∧ ∀ cfg : Cfg, (insertMgmtBFV cfg cube).yields = [2] ∧ Comps (insertMgmtBFV cfg cube) 2 3 := by
  refine ⟨cube_wf, fun cfg => ?_⟩
  have e : insertMgmtBFV cfg cube = insertMgmtBFV ⟨0, 0⟩ cube := by
    simp only [insertMgmtBFV, relinearize, insertInit, facts_sec]
  rw [e]
  refine ⟨by decide, ?_⟩
  have h0 : Comps (insertMgmtBFV ⟨0, 0⟩ cube) 0 2 := Comps.arg 0 (by decide) rfl
  have h1 := Comps.mul (p := insertMgmtBFV ⟨0, 0⟩ cube) ⟨.mul, [0, 0], 1⟩ 0 0 2 2 (by decide) rfl rfl h0 h0
  have h3 := Comps.relin (p := insertMgmtBFV ⟨0, 0⟩ cube) ⟨.relinearize, [1], 3⟩ 1 3 (by decide) (by decide) h1 rfl
  exact Comps.mul (p := insertMgmtBFV ⟨0, 0⟩ cube) ⟨.mul, [3, 0], 2⟩ 3 0 2 2 (by decide) rfl rfl h3 h0

/-- It does relinearize all products when no operand of a product of ciphertexts is itself a product of
ciphertexts.  Missing: the programs with such an operand. -/
theorem C75_bfv_relinearization_partial (cfg : Cfg) {p : Prog} (hw : p.WF) (h : ProductsApart cfg p) :
    Linear cfg (insertMgmtBFV cfg p) ∧
      (∀ op ∈ (insertMgmtBFV cfg p).ops, op.kind ≠ .relinearize → ∀ a ∈ op.args, ∀ d,
        Comps (insertMgmtBFV cfg p) a d → d = 2) ∧
      ∀ y ∈ (insertMgmtBFV cfg p).yields, ∀ d, Comps (insertMgmtBFV cfg p) y d → d = 2 :=
  ⟨insertMgmtBFV_linear cfg hw h,
    linear_comps cfg (C73_bfv_insertion_keeps_result cfg hw).1 (insertMgmtBFV_linear cfg hw h)⟩

/-- `x * x + x` satisfies the hypothesis and has a product. -/
example : ProductsApart ⟨0, 0⟩ ⟨1, fun _ => true, [⟨.mul, [0, 0], 1⟩, ⟨.add, [1, 0], 2⟩], [2], 3⟩ ∧
    (facts ⟨0, 0⟩ ⟨1, fun _ => true, [⟨.mul, [0, 0], 1⟩, ⟨.add, [1, 0], 2⟩], [2], 3⟩ 2).dim = some 3 := by
  refine ⟨?_, by decide⟩
  intro op hop hk _ op' hop' hk' _
  simp at hop hop'
  rcases hop with rfl | rfl <;> rcases hop' with rfl | rfl <;> simp at hk hk' ⊢

/-! ## C76: multiplicative depth -/

/-- When no path has more than 40 multiplications the analysis finds the largest number of multiplications on
a path for every secret value, and the maximum over all results.  Missing: deeper programs, see
`C76_depth_violated_beyond_budget`. -/
theorem C76_depth_counts_paths_partial {p : Prog} (hw : p.WF) (hb : ∀ v k, Reach p v k → k ≤ 40) :
    (∀ v, (v < p.nargs ∨ ∃ o ∈ p.ops, o.res = v) →
      ((depths p v).sec = true ↔ ∃ k, Reach p v k) ∧
      ((depths p v).sec = true → ∃ d, (depths p v).dep = .int d ∧ IsDepth p v d)) ∧
    ∃ m, maxMulDepth (depths p) p.ops = some m ∧ (∀ op ∈ p.ops, ∀ k, Reach p op.res k → k ≤ m) ∧
      (m = 0 ∨ ∃ op ∈ p.ops, Reach p op.res m) := by
  have hd : ∀ v, (v < p.nargs ∨ ∃ o ∈ p.ops, o.res = v) → (depths p v).sec = true →
      ∃ d, (depths p v).dep = .int d ∧ IsDepth p v d := by
    intro v hv hs
    rcases depthOk hw hv hs with ⟨d, h1, _, h2⟩ | ⟨_, k, h1, h2⟩
    · exact ⟨d, h1, h2⟩
    · have := hb v k h2
      simp only [depthBudget] at h1
      omega
  have hu : ∀ op ∈ p.ops, (depths p op.res).sec = false → (depths p op.res).dep = .uninit := by
    intro op hop hs
    rw [depths_fix hw hop] at hs ⊢
    have hs' : (op.args.any fun a => (depths p a).sec) = false := hs
    simp only [depthStep, hs']
    rfl
  refine ⟨fun v hv => ⟨⟨fun hs => ?_, ?_⟩, hd v hv⟩, ?_⟩
  · obtain ⟨d, _, h⟩ := hd v hv hs
    exact ⟨d, h.1⟩
  · rintro ⟨k, hk⟩
    rw [depths_sec]; exact reach_sec hw hk
  · obtain ⟨m, h1, h2, h3⟩ := maxMulDepth_some (depths p) p.ops (by
      intro op hop hc
      cases hs : (depths p op.res).sec with
      | false => rw [hu op hop hs] at hc; exact absurd hc (by simp)
      | true =>
        obtain ⟨d, e, _⟩ := hd op.res (Or.inr ⟨op, hop, rfl⟩) hs
        rw [e] at hc; exact absurd hc (by simp))
    refine ⟨m, h1, ?_, ?_⟩
    · intro op hop k hk
      have hs : (depths p op.res).sec = true := by rw [depths_sec]; exact reach_sec hw hk
      obtain ⟨d, e, hdd⟩ := hd op.res (Or.inr ⟨op, hop, rfl⟩) hs
      exact Nat.le_trans (hdd.2 k hk) (h2 op hop d e)
    · rcases h3 with h | ⟨op, hop, e⟩
      · exact Or.inl h
      · right
        refine ⟨op, hop, ?_⟩
        cases hs : (depths p op.res).sec with
        | false => rw [hu op hop hs] at e; exact absurd e (by simp)
        | true =>
          obtain ⟨d, e', hdd⟩ := hd op.res (Or.inr ⟨op, hop, rfl⟩) hs
          rw [e] at e'
          injection e' with e'
          subst e'
          exact hdd.1

/-- As soon as a path has more than 40 multiplications the maximum is not computed: the assertion that the
state is not invalid fails.  There are such programs for every depth. -/
theorem C76_depth_violated_beyond_budget :
    (∀ {p : Prog}, p.WF → ∀ op ∈ p.ops, ∀ k, Reach p op.res k → 40 < k → maxMulDepth (depths p) p.ops = none) ∧
      ∀ n, (squarings n).WF ∧ Reach (squarings n) n n ∧
        (40 < n → maxMulDepth (depths (squarings n)) (squarings n).ops = none) := by
  have key : ∀ {p : Prog}, p.WF → ∀ op ∈ p.ops, ∀ k, Reach p op.res k → 40 < k →
      maxMulDepth (depths p) p.ops = none := by
    intro p hw op hop k hk hlt
    refine maxMulDepth_none _ _ hop ?_
    have hs : (depths p op.res).sec = true := by rw [depths_sec]; exact reach_sec hw hk
    rcases depthOk hw (Or.inr ⟨op, hop, rfl⟩) hs with ⟨d, _, h1, h2⟩ | ⟨h, _⟩
    · have := h2.2 k hk
      simp only [depthBudget] at h1
      omega
    · exact h
  refine ⟨key, fun n => ⟨squarings_wf n, squarings_reach n n (Nat.le_refl _), fun hn => ?_⟩⟩
  have hop : (⟨.mul, [n - 1, n - 1], n - 1 + 1⟩ : Op) ∈ (squarings n).ops :=
    List.mem_map.2 ⟨n - 1, by simp; omega, rfl⟩
  have e : n - 1 + 1 = n := by omega
  refine key (squarings_wf n) _ hop n ?_ hn
  rw [show ({ kind := Kind.mul, args := [n - 1, n - 1], res := n - 1 + 1 } : Op).res = n from e]
  exact squarings_reach n n (Nat.le_refl _)

example : maxMulDepth (depths sample) sample.ops = some 2 := by decide

/-! ## C77: fresh operands -/

/-- In the program produced for BGV no addition, subtraction, multiplication or insertion has an operand that
was never multiplied beside one that was multiplied once. -/
theorem C77_fresh_operands_adjusted (o : Opts) (cfg : Cfg) (ho : o.ckks = false) {p q : Prog} (hw : p.WF)
    (hi : InsertsTwo cfg p) (h : insertMgmt o cfg p = some q) :
    ∀ op ∈ q.ops, op.kind.needsSameLevel → ∀ a ∈ op.args, ∀ b ∈ op.args, IsDepth q a 0 → ¬ IsDepth q b 1 :=
  insertMgmt_depths o cfg ho hw hi h

/-- `x * x + x`, which has such operands when modulus reductions come before multiplications. -/
example : (insertMgmt ⟨false, false, false⟩ ⟨10, 0⟩
      ⟨1, fun _ => true, [⟨.mul, [0, 0], 1⟩, ⟨.add, [1, 0], 2⟩], [2], 3⟩).map (fun q => (q.ops, q.yields)) =
    some ([⟨.mul, [0, 0], 1⟩, ⟨.relinearize, [1], 4⟩, ⟨.adjustScale 0, [0], 5⟩, ⟨.add, [4, 5], 2⟩,
      ⟨.modReduce, [2], 3⟩], [3]) := by
  decide +kernel

end Heir.Mgmt
