import Verif.Scale.Whole
import Mathlib.Algebra.Algebra.Rat
import Mathlib.Tactic.NormNum

/-! # Properties of CKKS scales -/

namespace Heir.Scale

variable {K M : Type} [Field K] [CommRing M] [Algebra K M]

/-! ## C78: populated programs validate -/

/-- What `--populate-scale-ckks` produces passes `--validate-scale`, keeps every value, and leaves the levels and
the messages of all values as they were.  Missing: programs with adjustments or bootstraps of their own, programs
in which a value reduced below the default scale meets no operand at it (see the violations), and loops and
branches. -/
theorem C78_populated_validates_partial (cfg : Cfg) (I : Kind → List M → M) (p p' : Prog) (hp : p.WF)
    (henc : Encoded (facts true cfg p) p) (hcov : Covered cfg (facts true cfg p) p)
    (hplain : ∀ op ∈ p.ops, op.kind ≠ .adjust ∧ op.kind ≠ .bootstrap) (h : populate cfg p = some p') :
    p'.WF ∧
    validate cfg (attrScale (facts false cfg p')) (fun v => (facts false cfg p' v).lvl) p'.ops = true ∧
    ∀ v, p.Value v → (facts false cfg p' v).sec = (facts true cfg p v).sec ∧
      (facts false cfg p' v).lvl = (facts true cfg p v).lvl ∧
      ∀ inp, messages I p' inp v = messages I p inp v := by
  obtain ⟨S, hinv, hvalid⟩ := populate_inv cfg I p p' hp (fun _ => 0) henc hcov hplain h
  refine ⟨populate_wf cfg p p' hp h, hvalid, fun v hv => ⟨(hinv v hv).sec, (hinv v hv).lvl, fun inp => ?_⟩⟩
  obtain ⟨S', hinv', -⟩ := populate_inv cfg I p p' hp inp henc hcov hplain h
  exact (hinv' v hv).msg

/-- `x * y + x` and `(x * y + x) * c` with secret `x` and `y` and a plain `c`, reduced after multiplications.  The
modulus of the top level is larger than the default scale. -/
def sample : Prog where
  nargs := 3
  secArg := fun v => v < 2
  argLvl := fun _ => 2
  ops := [⟨.mul, [0, 1], 3, 2, none⟩, ⟨.other 0, [3], 4, 2, none⟩, ⟨.modReduce, [4], 5, 1, none⟩,
    ⟨.modReduce, [0], 6, 1, none⟩, ⟨.add, [5, 6], 7, 1, none⟩, ⟨.init, [2], 8, 1, none⟩,
    ⟨.mul, [7, 8], 9, 1, none⟩, ⟨.modReduce, [9], 10, 0, none⟩]
  next := 11

/-- Its parameters. -/
def sampleCfg : Cfg := ⟨45, [60, 47, 50], 45⟩

theorem sample_wf : sample.WF := by
  refine ⟨by decide, ?_⟩
  simp [sample, SSA]

theorem sample_encoded : Encoded (facts true sampleCfg sample) sample := by
  unfold Encoded
  decide +kernel

theorem sample_covered : Covered sampleCfg (facts true sampleCfg sample) sample := by
  have low : ∀ v, Lowered sampleCfg (facts true sampleCfg sample) sample v → v = 6 := by
    rintro v ⟨⟨op, hop, rfl, hk⟩, -, s, hs, hlt⟩
    have : ∀ op ∈ sample.ops, op.kind = .modReduce → op.res ≠ 6 →
        ((facts true sampleCfg sample op.res).scale.getD 0 < 45) = False := by decide +kernel
    by_contra hne
    have := this op hop hk hne
    rw [hs] at this
    exact this.mp hlt
  intro op hop a ha hl
  have ha6 := low a hl
  subst ha6
  have : ∀ op ∈ sample.ops, 6 ∈ op.args → op.kind.additive = true ∧ 5 ∈ op.args := by decide +kernel
  obtain ⟨h1, h2⟩ := this op hop ha
  exact Or.inl ⟨h1, 5, h2, by decide +kernel, 45, by decide +kernel, by decide⟩

theorem sample_plain : ∀ op ∈ sample.ops, op.kind ≠ .adjust ∧ op.kind ≠ .bootstrap := by decide +kernel

/-- What the pass makes of it: `y` is raised by five bits, `x` is raised before it is reduced, the second
adjustment of it is one from 45 to 45, and `c` is encoded with the bits missing for the prime of level one. -/
example : (populate sampleCfg sample).map (fun q => q.ops.map fun op => (op.kind, op.args, op.res, op.ann)) =
    some [(.adjust, [1], 11, some 50), (.mul, [0, 11], 3, none), (.other 0, [3], 4, none), (.modReduce, [4], 5, none),
      (.adjust, [0], 12, some 95), (.modReduce, [12], 6, none), (.adjust, [6], 13, some 45),
      (.add, [5, 13], 7, none), (.init, [2], 8, none), (.init, [2], 14, some 47), (.mul, [7, 14], 9, none),
      (.modReduce, [9], 10, none)] := by
  decide +kernel

/-- Nothing is adjusted between two reduced fresh values and their product: the walk trusts the first solver, which
does not know of the adjustments before the reductions, so the product is at 135 and is added to one at 90. -/
def mixed : Prog where
  nargs := 2
  secArg := fun v => v < 2
  argLvl := fun _ => 2
  ops := [⟨.modReduce, [0], 2, 1, none⟩, ⟨.modReduce, [1], 3, 1, none⟩, ⟨.mul, [2, 3], 4, 1, none⟩,
    ⟨.mul, [0, 1], 5, 2, none⟩, ⟨.modReduce, [5], 6, 1, none⟩, ⟨.mul, [6, 6], 7, 1, none⟩, ⟨.add, [4, 7], 8, 1, none⟩]
  next := 9

/-- The property without the condition on reduced values is false: here the populated program does not validate. -/
theorem C78_reduced_operands_violated : ∃ (cfg : Cfg) (p p' : Prog), p.WF ∧ Encoded (facts true cfg p) p ∧
    (∀ op ∈ p.ops, op.kind ≠ .adjust ∧ op.kind ≠ .bootstrap) ∧ cfg.input = cfg.dflt ∧ populate cfg p = some p' ∧
    validate cfg (attrScale (facts false cfg p')) (fun v => (facts false cfg p' v).lvl) p'.ops = false := by
  have hpop : (populate ⟨45, [45, 45, 45], 45⟩ mixed).isSome = true := by decide +kernel
  obtain ⟨p', hp'⟩ := Option.isSome_iff_exists.1 hpop
  refine ⟨⟨45, [45, 45, 45], 45⟩, mixed, p', ⟨by decide, by simp [mixed, SSA]⟩, by unfold Encoded; decide +kernel,
    by decide +kernel, rfl, hp', ?_⟩
  have : (populate ⟨45, [45, 45, 45], 45⟩ mixed).map (fun q => validate ⟨45, [45, 45, 45], 45⟩
      (attrScale (facts false ⟨45, [45, 45, 45], 45⟩ q)) (fun v => (facts false ⟨45, [45, 45, 45], 45⟩ q v).lvl)
      q.ops) = some false := by decide +kernel
  rw [hp'] at this
  simpa using this

/-- A bootstrapped argument. -/
def boot : Prog where
  nargs := 1
  secArg := fun _ => true
  argLvl := fun _ => 0
  ops := [⟨.bootstrap, [0], 1, 2, none⟩]
  next := 2

/-- With twice the default scale for inputs (`before-mul-include-first-mul`) a program with a bootstrap is
annotated with a scale validation rejects. -/
theorem C78_bootstrap_violated : ∃ (cfg : Cfg) (p p' : Prog), p.WF ∧ Encoded (facts true cfg p) p ∧
    cfg.input = 2 * cfg.dflt ∧ cfg.input < cfg.logq.headD 0 ∧ populate cfg p = some p' ∧
    validate cfg (attrScale (facts false cfg p')) (fun v => (facts false cfg p' v).lvl) p'.ops = false := by
  have hpop : (populate ⟨20, [60, 20, 20], 40⟩ boot).isSome = true := by decide +kernel
  obtain ⟨p', hp'⟩ := Option.isSome_iff_exists.1 hpop
  refine ⟨⟨20, [60, 20, 20], 40⟩, boot, p', ⟨by decide, by simp [boot, SSA]⟩, by unfold Encoded; decide +kernel,
    rfl, by decide, hp', ?_⟩
  have : (populate ⟨20, [60, 20, 20], 40⟩ boot).map (fun q => validate ⟨20, [60, 20, 20], 40⟩
      (attrScale (facts false ⟨20, [60, 20, 20], 40⟩ q)) (fun v => (facts false ⟨20, [60, 20, 20], 40⟩ q v).lvl)
      q.ops) = some false := by decide +kernel
  rw [hp'] at this
  simpa using this

/-! ## C79: scales are what they claim -/

/-- In a program that passes validation every secret or encoded value holds its message times two to the power of
its annotated scale, and every other value its message.  Missing: validation does not look at the operations
without a rule, so that these keep the scale is an assumption; rounding is not modelled. -/
theorem C79_validated_scales_hold_partial (β : K) (hβ : β ≠ 0) (assume : Bool) (cfg : Cfg) (I : Kind → List M → M)
    (p : Prog) (hp : p.WF) (sc : Nat → Option Int) (inp : Nat → M) (hall : AllScaled (facts assume cfg p) sc)
    (henc : Encoded (facts assume cfg p) p) (hhom : Homogeneous K I (facts assume cfg p) p)
    (hoth : OthersKeep (facts assume cfg p) sc p)
    (hval : validate cfg sc (fun v => (facts assume cfg p v).lvl) p.ops = true) (v : Nat) (hv : p.Value v) :
    held β cfg I (facts assume cfg p) sc p inp v =
      if (facts assume cfg p v).scaled then β ^ ((sc v).getD 0) • messages I p inp v else messages I p inp v :=
  held_eq β hβ assume cfg I p hp sc inp hall henc hhom hoth hval v hv

/-- After `--populate-scale-ckks` every secret or encoded value of the input has a scale and holds the message it
had in the input times two to the power of that scale.  Missing: as in C78, and operations without a rule with
several secret operands. -/
theorem C79_populated_scales_hold_partial (β : K) (hβ : β ≠ 0) (cfg : Cfg) (I : Kind → List M → M) (p p' : Prog)
    (hp : p.WF) (inp : Nat → M) (henc : Encoded (facts true cfg p) p) (hcov : Covered cfg (facts true cfg p) p)
    (hplain : ∀ op ∈ p.ops, op.kind ≠ .adjust ∧ op.kind ≠ .bootstrap) (hone : OthersOne (facts true cfg p) p)
    (hhom : Homogeneous K I (facts true cfg p) p) (h : populate cfg p = some p') (v : Nat) (hv : p.Value v)
    (hs : (facts true cfg p v).scaled = true) :
    ∃ s, attrScale (facts false cfg p') v = some s ∧
      held β cfg I (facts false cfg p') (attrScale (facts false cfg p')) p' inp v = β ^ s • messages I p inp v :=
  populate_held β hβ cfg I p p' hp inp henc hcov hplain hone hhom h v hv hs

/-- Populating changes no argument: secret arguments are at the scale inputs are encrypted at. -/
theorem C79_arguments_at_input_scale (cfg : Cfg) (p p' : Prog) (hp : p.WF) (h : populate cfg p = some p') (v : Nat)
    (hv : v < p.nargs) :
    attrScale (facts false cfg p') v = if p.secArg v then some cfg.input else none := by
  have hwf := populate_wf cfg p p' hp h
  unfold populate at h
  simp only [Option.map_eq_some_iff, Prod.exists] at h
  obtain ⟨rs, n', -, hp'⟩ := h
  have hn : p'.nargs = p.nargs := by rw [← hp']
  have hs : p'.secArg = p.secArg := by rw [← hp']
  have he : facts false cfg p' v = entry cfg p' v := run_of_defined _ _ _ _ _ hwf.ssa v (by rw [hn]; exact hv)
  unfold attrScale
  rw [he]
  unfold entry
  rw [hn, hs, if_pos hv]
  cases p.secArg v <;> simp [Fact.scaled]

example : attrScale (facts false sampleCfg sample) 0 = some 45 := by decide +kernel

/-- What validation accepts for bootstrapping is a factor of two below the last modulus, and the result is at the
default scale. -/
theorem C79_bootstrap_room (cfg : Cfg) (sc : Nat → Option Int) (lv : Nat → Int) (ops : List Op)
    (hval : validate cfg sc lv ops = true) (op : Op) (hop : op ∈ ops) (hk : op.kind = .bootstrap) (a r : Int)
    (ha : sc (op.args.headD 0) = some a) (hr : sc op.res = some r) :
    (2 : ℚ) ^ a * 2 ≤ 2 ^ cfg.logq.headD 0 ∧ r = cfg.dflt := by
  have := List.all_eq_true.1 hval op hop
  unfold validOp at this
  simp only [hk, ha, hr, Bool.and_eq_true, decide_eq_true_eq] at this
  obtain ⟨⟨-, h1⟩, h2⟩ := this
  refine ⟨?_, h2⟩
  have : (2 : ℚ) ^ a * 2 = 2 ^ (a + 1) := by rw [zpow_add_one₀ (by norm_num)]
  rw [this]
  exact zpow_le_zpow_right₀ (by norm_num) (by omega)

example : validate ⟨45, [60, 45], 45⟩ (fun _ => some 45) (fun _ => 0) boot.ops = true := by decide +kernel

/-- The sum of the operands for the operations left open. -/
def sumI (_ : Kind) (xs : List ℚ) : ℚ := xs.sum

example : OthersOne (facts true sampleCfg sample) sample ∧ Homogeneous ℚ sumI (facts true sampleCfg sample) sample := by
  constructor
  · rintro op hop ⟨g, hg⟩ a ha b hb - -
    have : ∀ op ∈ sample.ops, (match op.kind with | .other _ => true | _ => false) = true → op.args = [3] := by
      decide +kernel
    have h := this op hop (by rw [hg])
    rw [h] at ha hb
    simp at ha hb
    rw [ha, hb]
  · intro op hop hk hs c xs hlen
    have : ∀ op ∈ sample.ops, (match op.kind with | .insert | .other _ => true | _ => false) = true →
        op.args = [3] := by decide +kernel
    have h := this op hop (by rcases hk with hk | ⟨g, hk⟩ <;> rw [hk])
    have h3 : (facts true sampleCfg sample 3).scaled = true := by decide +kernel
    rw [h] at hlen ⊢
    match xs, hlen with
    | [x], _ => simp [sumI, h3]

/-- Two values of different scales in one container. -/
def container : Prog where
  nargs := 2
  secArg := fun _ => true
  argLvl := fun _ => 1
  ops := [⟨.mul, [0, 1], 2, 1, none⟩, ⟨.other 0, [2, 0], 3, 1, none⟩]
  next := 4

/-- An operation without a rule that combines operands of different scales is neither adjusted nor rejected, and
what it holds is no multiple of its message. -/
theorem C79_containers_violated : ∃ (cfg : Cfg) (p p' : Prog), p.WF ∧ Encoded (facts true cfg p) p ∧
    (∀ op ∈ p.ops, op.kind ≠ .adjust ∧ op.kind ≠ .bootstrap) ∧ Homogeneous ℚ sumI (facts true cfg p) p ∧
    populate cfg p = some p' ∧
    validate cfg (attrScale (facts false cfg p')) (fun v => (facts false cfg p' v).lvl) p'.ops = true ∧
    ∃ inp : Nat → ℚ, ∃ v s, p.Value v ∧ attrScale (facts false cfg p') v = some s ∧
      held (2 : ℚ) cfg sumI (facts false cfg p') (attrScale (facts false cfg p')) p' inp v ≠
        (2 : ℚ) ^ s • messages sumI p inp v := by
  have hpop : populate ⟨1, [1, 1], 1⟩ container = some container := by rfl
  refine ⟨⟨1, [1, 1], 1⟩, container, container, ⟨by decide, by simp [container, SSA]⟩,
    by unfold Encoded; decide +kernel, by decide +kernel, ?_, hpop, by decide +kernel, fun _ => 1, 3, 2,
    Or.inr ⟨⟨.other 0, [2, 0], 3, 1, none⟩, by simp [container], rfl⟩, by decide +kernel, ?_⟩
  · intro op hop hk hs c xs hlen
    have : ∀ op ∈ container.ops, (match op.kind with | .insert | .other _ => true | _ => false) = true →
        op.args = [2, 0] := by decide +kernel
    have h := this op hop (by rcases hk with hk | ⟨g, hk⟩ <;> rw [hk])
    have h0 : (facts true ⟨1, [1, 1], 1⟩ container 0).scaled = true := by decide +kernel
    have h2 : (facts true ⟨1, [1, 1], 1⟩ container 2).scaled = true := by decide +kernel
    rw [h] at hlen ⊢
    match xs, hlen with
    | [x, y], _ => simp [sumI, h0, h2, mul_add]
  · have e0 : attrScale (facts false ⟨1, [1, 1], 1⟩ container) 0 = some 1 := by decide +kernel
    have e1 : attrScale (facts false ⟨1, [1, 1], 1⟩ container) 1 = some 1 := by decide +kernel
    have s0 : (facts false ⟨1, [1, 1], 1⟩ container 0).sec = true := by decide +kernel
    have s1 : (facts false ⟨1, [1, 1], 1⟩ container 1).sec = true := by decide +kernel
    unfold held messages
    simp only [container] at e0 e1 s0 s1
    simp [container, run, heldOp, msgOp, upd, sumI, e0, e1, s0, s1]
    norm_num

end Heir.Scale
