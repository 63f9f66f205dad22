import Verif.Place.Depth

/-! # C88-C91: placing bootstraps and rescalings by a linear program -/

namespace Heir.Place
open Heir.Mgmt

/-! ## Witnesses -/

/-- `(x * x)² + x`, with an old rescaling the pass erases. -/
def exProg : Prog where
  nargs := 1
  secArg := fun _ => true
  ops := [⟨.mul, [0, 0], 1⟩, ⟨.modReduce, [1], 4⟩, ⟨.mul, [4, 4], 2⟩, ⟨.add, [2, 0], 3⟩]
  yields := [3]
  next := 5

def exOpts : Opts := ⟨true, 1, 40, 51, 0⟩

/-- The first product is bootstrapped. -/
def exZ : Var → Int
  | .level v => if v ≤ 1 then 1 else 0
  | .scale v => if v = 0 then 40 else 51
  | .inLevel v => if v ≤ 2 then 1 else 0
  | .inScale v => if v = 1 then 80 else if v = 2 then 102 else 51
  | .rescale v => if v = 2 then 1 else 0
  | .boot v => if v = 1 then 1 else 0
  | .edgeScale v _ => if v = 1 then 40 else 51
  | .edgeRescale _ _ => 0

def exS (v : Var) : ℚ := (exZ v : ℚ)

def noAttr (_ : Nat) : Option Attr := none
def exRes (_ : Nat) : Option Attr := some ⟨0, some 51⟩

theorem exProg_wf : exProg.WF := by
  refine ⟨by decide, ?_, ?_⟩
  · simp [SSA, exProg, Kind.isMgmt]
  · intro y hy
    simp only [exProg, List.mem_singleton] at hy
    subst hy
    exact Or.inr ⟨⟨.add, [2, 0], 3⟩, by simp [exProg], rfl⟩

theorem exFeasible : Feasible exOpts (context (eraseProg exProg) (fun _ => false) noAttr exRes) (eraseProg exProg) exS :=
  checkZ_feasible (z := exZ) (by decide +kernel)

theorem exPlain : PlainsConst (fun _ => false) (eraseProg exProg) := by
  have : ∀ op ∈ (eraseProg exProg).ops, ∀ a ∈ op.args, (facts ⟨0, 0⟩ (eraseProg exProg) a).sec = true := by decide +kernel
  intro op hop _ _ a ha hs
  rw [this op hop a ha] at hs
  exact absurd hs (by simp)

/-! ## C88 -/

/-- **C88** `_partial`: a plaintext factor that is not the result of `arith.constant` is taken to have no scale, so it
has to be excluded; see `C88_plain_violated`.  `mgmt.level_reduce_min` is not modelled by the code.

Whatever solution the solver returns, decoding it does not fail; the program placed computes the same values, products
are relinearized, and it runs on ciphertexts: every ciphertext stays within the levels and scales there are, operands
are at one level and where needed at one scale, bootstraps start where they may, and the yielded ciphertexts are as
annotated. -/
theorem C88_sound_partial {o : Opts} {const : Nat → Bool} {argAttr resAttr : Nat → Option Attr} {s : Var → ℚ} {p : Prog}
    (hw : p.WF) (hk : ∀ op ∈ p.ops, op.kind ≠ .levelReduceMin) (hsw : 0 < o.sw) (hfb : 0 < o.factorBits)
    (hlb : 0 ≤ o.lower) (hc : PlainsConst const (eraseProg p))
    (h : Feasible o (context (eraseProg p) const argAttr resAttr) (eraseProg p) s) (cfg : Cfg) :
    ∃ q, place o const argAttr resAttr s p = some q ∧ q.WF ∧
      (∃ t', Exec o (start o argAttr p) q.ops t' ∧ Pinned o resAttr q.yields t' ∧
        ∀ v, (facts cfg q v).sec = (t' v).isSome) ∧
      Linear cfg q ∧ ∀ (D : Type) (I : Kind → List D → D) (env : Nat → D), q.result I env = p.result I env := by
  have hwe := eraseProg_wf hw
  have hke := eraseProg_kinds hk
  have ht := context_told hwe const argAttr resAttr hke
  obtain ⟨q, h1, h2, t', h3, h4, h5⟩ := placed_exec hwe hke hsw hfb hlb hc h
  refine ⟨q, h1, h2, ⟨t', h3, h4, fun v => by rw [facts_sec]; exact h5 v⟩, ?_, ?_⟩
  · refine (placeProg_linear ht ?_ ?_ cfg h1).1
    · intro v hv
      show (facts ⟨0, 0⟩ (eraseProg p) v).sec = _
      rw [facts_sec, secs_arg hwe hv]
    · exact fun op hop hm => (SSA.arity hwe.ssa op hop).2 (Or.inr (Or.inr hm))
  · intro D I env
    rw [placeProg_result hwe h1 I env, eraseProg_result hw I env]

example : ∃ q, place exOpts (fun _ => false) noAttr exRes exS exProg = some q ∧
    ∃ t', Exec exOpts (start exOpts noAttr exProg) q.ops t' ∧ Pinned exOpts exRes q.yields t' := by
  obtain ⟨q, h1, _, ⟨t', h2, h3, _⟩, _⟩ := C88_sound_partial exProg_wf (by decide) (by decide) (by decide) (by decide)
    exPlain exFeasible ⟨40, 0⟩
  exact ⟨q, h1, t', h2, h3⟩

/-- What the pass makes of the example: the rescaling before the bootstrap, the one of the second product, and the level
and scale of `x` at the sum. -/
example : (place exOpts (fun _ => false) noAttr exRes exS exProg).map (·.ops) =
    some [⟨.mul, [0, 0], 1⟩, ⟨.relinearize, [1], 5⟩, ⟨.adjustScale 0, [5], 6⟩, ⟨.modReduce, [6], 7⟩, ⟨.bootstrap, [7], 8⟩,
      ⟨.mul, [8, 8], 2⟩, ⟨.relinearize, [2], 9⟩, ⟨.modReduce, [9], 10⟩,
      ⟨.levelReduce 1, [0], 11⟩, ⟨.adjustScale 1, [11], 12⟩, ⟨.add, [10, 12], 3⟩] := by decide +kernel

/-- `x * y` with a plaintext argument `y`. -/
def plainProg : Prog where
  nargs := 2
  secArg := fun v => v == 0
  ops := [⟨.mul, [0, 1], 2⟩]
  yields := [2]
  next := 3

def plainZ : Var → Int
  | .level _ | .inLevel _ => 1
  | .scale _ | .inScale _ | .edgeScale _ _ => 40
  | _ => 0

/-- **C88 is violated** for plaintexts that are not constants: the solution takes the product to be at scale 40, the
scale of `x`, and as the result is annotated so nothing is placed; the product is at scale 80. -/
theorem C88_plain_violated :
    Feasible exOpts (context (eraseProg plainProg) (fun _ => false) noAttr (fun _ => some ⟨1, some 40⟩)) (eraseProg plainProg)
      (fun v => (plainZ v : ℚ)) ∧
    ∃ q, place exOpts (fun _ => false) noAttr (fun _ => some ⟨1, some 40⟩) (fun v => (plainZ v : ℚ)) plainProg = some q ∧
      ¬ ∃ t', Exec exOpts (start exOpts noAttr plainProg) q.ops t' ∧ Pinned exOpts (fun _ => some ⟨1, some 40⟩) q.yields t' := by
  refine ⟨checkZ_feasible (z := plainZ) (by decide +kernel), ?_⟩
  have hq : (place exOpts (fun _ => false) noAttr (fun _ => some ⟨1, some 40⟩) (fun v => (plainZ v : ℚ)) plainProg).map
      (fun q => (q.ops, q.yields)) = some ([⟨.mul, [0, 1], 2⟩], [2]) := by decide +kernel
  rw [Option.map_eq_some_iff] at hq
  obtain ⟨q, hq, hqe⟩ := hq
  simp only [Prod.mk.injEq] at hqe
  refine ⟨q, hq, ?_⟩
  rintro ⟨t', he, hp⟩
  rw [hqe.1] at he
  rw [hqe.2] at hp
  cases he with
  | cons _ _ _ _ x hs hv he =>
    cases he
    have hf : ([0, 1] : List Nat).filterMap (start exOpts noAttr plainProg) = [⟨1, 40⟩] := by decide
    rw [step_mul rfl] at hs
    simp only [hf] at hs
    rcases hs with ⟨h, _⟩ | ⟨l, _, hl, hx⟩
    · exact absurd h (by simp)
    · have := hp 0 2 _ _ rfl (by rw [upd_eq]; exact hx) rfl
      have h2 := this.2 rfl 40 rfl
      simp [exOpts] at h2

/-! ## C89 -/

/-- **C89** `_partial`: it is assumed that no argument is annotated (all are at the waterline), that the target's bootstraps
consume no levels and that the waterline is within the level budget; see `C89_consumed_violated` and
`C89_annotated_violated`.

The level analysis `annotate-mgmt` runs at the end finds for every ciphertext the waterline minus its level in the
solution, and all operands that have to be at one level are. -/
theorem C89_levels_partial {o : Opts} {const : Nat → Bool} {resAttr : Nat → Option Attr} {s : Var → ℚ} {p : Prog}
    (hw : p.WF) (hk : ∀ op ∈ p.ops, op.kind ≠ .levelReduceMin) (hsw : 0 < o.sw) (hfb : 0 < o.factorBits)
    (hlb : 0 ≤ o.lower) (hwl : 0 ≤ o.waterline) (hc : PlainsConst const (eraseProg p))
    (h : Feasible o (context (eraseProg p) const noAttr resAttr) (eraseProg p) s) (cfg : Cfg)
    (hb : o.waterline ≤ cfg.budget) (h0 : cfg.consumed = 0) {q : Prog} (hq : place o const noAttr resAttr s p = some q) :
    LevelsMatch cfg q ∧
      ∃ t', Exec o (start o noAttr p) q.ops t' ∧ ∀ v x, t' v = some x →
        (facts cfg q v).lvl = .int (o.waterline - x.level).toNat ∧ x.level ≤ o.waterline := by
  have hwe := eraseProg_wf hw
  have hke := eraseProg_kinds hk
  obtain ⟨q', h1, h2, t', h3, h4, h5⟩ := placed_exec hwe hke hsw hfb hlb hc h
  have hqq : q' = q := by
    have : place o const noAttr resAttr s p = some q' := h1
    rw [hq] at this
    exact (Option.some.inj this).symm
  subst hqq
  have hsm : o.sw ≤ o.scaleMax := by
    have hsf := Opts.sf_pos hsw hfb
    unfold Opts.scaleMax
    split
    · omega
    · exact le_refl _
  have hargs : q'.nargs = p.nargs ∧ q'.secArg = p.secArg := by
    obtain ⟨n, σ, ops, _, rfl⟩ := placeProg_some h1
    exact ⟨rfl, rfl⟩
  have hnk : ∀ op ∈ q'.ops, op.kind ≠ .levelReduceMin := by
    obtain ⟨n, σ, ops, hp, rfl⟩ := placeProg_some h1
    have hem := placeOps_emitted _ hp
    have hz := emitted_count .levelReduceMin (f := fun _ _ _ => 0) (g := fun _ => 0) hem (fun op hop => (hke op hop).2)
      (by rintro op _ j a ks _ ⟨ms, id, _, rfl⟩
          rw [List.countP_eq_zero]
          intro k hk hk'
          rw [beq_iff_eq] at hk'
          exact (kinds_mgmt ms id k hk).2.2.2 hk')
      (by rintro op _ ks ⟨ms, id, _, rfl⟩
          rw [List.countP_eq_zero]
          intro k hk hk'
          rw [beq_iff_eq] at hk'
          rcases List.mem_append.1 hk with hk | hk
          · rw [relinOf_mem k hk] at hk'
            exact absurd hk' (by simp)
          · exact (kinds_mgmt ms id k hk).2.2.2 hk')
    have hsum : ∀ l : List Op, (l.map fun op => argSum (fun _ _ => 0) 0 op.args + 0).sum = 0 := by
      intro l
      induction l with
      | nil => rfl
      | cons op l ih => rw [List.map_cons, List.sum_cons, ih, argSum_zero _ _ fun _ _ _ => rfl]
    rw [hsum, count, List.countP_eq_zero] at hz
    intro op hop hk
    exact hz op hop (by simp [hk])
  obtain ⟨l1, l2⟩ := exec_levels (cfg := cfg) hb h3 (slEntry q')
    (fun op hop => ⟨fun _ => h0, hnk op hop, (SSA.arity h2.ssa op hop).1⟩) (by
      intro v
      simp only [slEntry, factEntry, hargs.1, hargs.2]
      show Lev o (start o noAttr p v) _
      by_cases hv : v < p.nargs
      · cases hs : p.secArg v
        · have : start o noAttr p v = none := by simp [start, hs]
          rw [this, if_pos hv]
          exact ⟨rfl, Or.inr rfl⟩
        · have : start o noAttr p v = some ⟨o.waterline, o.sw⟩ := by
            simp only [start, hv, hs, and_self, if_true]
            simp [noAttr]
          rw [this, if_pos hv]
          refine lev_some.2 ⟨by simp, hwl, le_refl _, hsw, hsm⟩
      · have : start o noAttr p v = none := by simp [start, hv]
        rw [this, if_neg hv]
        exact ⟨rfl, Or.inl rfl⟩)
  refine ⟨(levels_iff cfg h2).2 l1, t', h3, fun v x hx => ?_⟩
  have := l2 v
  rw [hx, lev_some] at this
  rw [facts_sl2]
  exact ⟨congrArg Prod.snd this.1, this.2.2.1⟩

example : ∃ q, place exOpts (fun _ => false) noAttr exRes exS exProg = some q ∧ LevelsMatch ⟨40, 0⟩ q := by
  obtain ⟨q, h1, _⟩ := C88_sound_partial exProg_wf (by decide) (by decide) (by decide) (by decide)
    exPlain exFeasible ⟨40, 0⟩
  exact ⟨q, h1, (C89_levels_partial exProg_wf (by decide) (by decide) (by decide) (by decide) (by decide) exPlain exFeasible
    ⟨40, 0⟩ (by decide) rfl h1).1⟩

/-- The operands of an operation of `q` at two levels. -/
theorem not_match {cfg : Cfg} {q : Prog} (op : Op) (a : Nat) (h1 : op ∈ q.ops) (h2 : op.kind = .add) (ha : a ∈ op.args)
    (h3 : (facts cfg q op.res).sec = true) (h4 : (facts cfg q op.res).lvl ≠ .invalid)
    (h5 : (facts cfg q a).sec = true) (h6 : (facts cfg q a).lvl ≠ (facts cfg q op.res).lvl) : ¬ LevelsMatch cfg q :=
  fun h => h6 (h op h1 (Or.inl h2) h3 h4 a ha h5)

/-- `(x * x) + x` where both have to be at the waterline. -/
def sumProg : Prog where
  nargs := 1
  secArg := fun _ => true
  ops := [⟨.mul, [0, 0], 1⟩, ⟨.add, [1, 0], 2⟩]
  yields := [1, 2]
  next := 3

def flatOpts : Opts := ⟨false, 1, 40, 51, 0⟩

/-- Without scales: the product is bootstrapped. -/
def sumZ : Var → Int
  | .level _ | .inLevel _ => 1
  | .scale _ | .inScale _ | .edgeScale _ _ => 40
  | .boot v => if v = 1 then 1 else 0
  | _ => 0

theorem facts_yields (cfg : Cfg) (na : Nat) (sa : Nat → Bool) (ops : List Op) (ys : List Nat) (nx : Nat) :
    facts cfg ⟨na, sa, ops, ys, nx⟩ = facts cfg ⟨na, sa, ops, [], 0⟩ := rfl

/-- **C89 is violated** on targets whose bootstraps consume levels (16 or 22): the analysis puts a bootstrapped ciphertext
there, while the solution has it at the waterline with the arguments, so the operands of the sum are at levels 22 and
0. -/
theorem C89_consumed_violated :
    Feasible flatOpts (context (eraseProg sumProg) (fun _ => false) noAttr (fun _ => some ⟨1, none⟩)) (eraseProg sumProg)
      (fun v => (sumZ v : ℚ)) ∧
    ∃ q, place flatOpts (fun _ => false) noAttr (fun _ => some ⟨1, none⟩) (fun v => (sumZ v : ℚ)) sumProg = some q ∧
      ¬ LevelsMatch ⟨40, 22⟩ q := by
  refine ⟨checkZ_feasible (z := sumZ) (by decide +kernel), ?_⟩
  have hq : (place flatOpts (fun _ => false) noAttr (fun _ => some ⟨1, none⟩) (fun v => (sumZ v : ℚ)) sumProg).map
      (fun q => (q.nargs, q.ops)) = some (1, [⟨.mul, [0, 0], 1⟩, ⟨.relinearize, [1], 3⟩, ⟨.levelReduce 1, [3], 4⟩,
        ⟨.bootstrap, [4], 5⟩, ⟨.add, [5, 0], 2⟩]) := by decide +kernel
  have hsa : ∀ q, place flatOpts (fun _ => false) noAttr (fun _ => some ⟨1, none⟩) (fun v => (sumZ v : ℚ)) sumProg = some q →
      q.secArg = fun _ => true := by
    intro q h
    obtain ⟨n, σ, ops, _, rfl⟩ := placeProg_some h
    rfl
  rw [Option.map_eq_some_iff] at hq
  obtain ⟨q, hq, hqe⟩ := hq
  have hqs := hsa q hq
  refine ⟨q, hq, ?_⟩
  obtain ⟨na, sa, ops, ys, nx⟩ := q
  simp only [Prod.mk.injEq] at hqe hqs
  obtain ⟨rfl, rfl⟩ := hqe
  subst hqs
  refine not_match ⟨.add, [5, 0], 2⟩ 0 (by simp) rfl (by simp) ?_ ?_ ?_ ?_ <;> rw [facts_yields] <;> decide +kernel

/-- `x + y`. -/
def twoProg : Prog where
  nargs := 2
  secArg := fun _ => true
  ops := [⟨.add, [0, 1], 2⟩]
  yields := [2]
  next := 3

/-- `x` is annotated with level 0. -/
def twoZ : Var → Int
  | .level v => if v = 1 then 1 else 0
  | .scale _ | .inScale _ | .edgeScale _ _ => 40
  | _ => 0

/-- **C89 is violated** for arguments annotated below the waterline: the analysis starts at 0 for all arguments, so the
argument brought down to the annotated one ends at a different level. -/
theorem C89_annotated_violated :
    Feasible flatOpts (context (eraseProg twoProg) (fun _ => false) (fun v => if v = 0 then some ⟨0, none⟩ else none) noAttr)
      (eraseProg twoProg) (fun v => (twoZ v : ℚ)) ∧
    ∃ q, place flatOpts (fun _ => false) (fun v => if v = 0 then some ⟨0, none⟩ else none) noAttr (fun v => (twoZ v : ℚ))
      twoProg = some q ∧ ¬ LevelsMatch ⟨40, 0⟩ q := by
  refine ⟨checkZ_feasible (z := twoZ) (by decide +kernel), ?_⟩
  have hq : (place flatOpts (fun _ => false) (fun v => if v = 0 then some ⟨0, none⟩ else none) noAttr
      (fun v => (twoZ v : ℚ)) twoProg).map (fun q => (q.nargs, q.ops)) =
      some (2, [⟨.levelReduce 1, [1], 3⟩, ⟨.add, [0, 3], 2⟩]) := by decide +kernel
  have hsa : ∀ q, place flatOpts (fun _ => false) (fun v => if v = 0 then some ⟨0, none⟩ else none) noAttr
      (fun v => (twoZ v : ℚ)) twoProg = some q → q.secArg = fun _ => true := by
    intro q h
    obtain ⟨n, σ, ops, _, rfl⟩ := placeProg_some h
    rfl
  rw [Option.map_eq_some_iff] at hq
  obtain ⟨q, hq, hqe⟩ := hq
  have hqs := hsa q hq
  refine ⟨q, hq, ?_⟩
  obtain ⟨na, sa, ops, ys, nx⟩ := q
  simp only [Prod.mk.injEq] at hqe hqs
  obtain ⟨rfl, rfl⟩ := hqe
  subst hqs
  refine not_match ⟨.add, [0, 3], 2⟩ 0 (by simp) rfl (by simp) ?_ ?_ ?_ ?_ <;> rw [facts_yields] <;> decide +kernel

/-! ## C90 -/

theorem objective_boot (c : Ctx) (k : Cost) (p : Prog) (s : Var → ℚ) (b : ℚ) :
    objective c { k with boot := b } p s = objective c { k with boot := 0 } p s +
      ((tracked c p).map fun op => b * s (.boot op.res)).sum := by
  have h0 : ((tracked c p).map fun op => (0 : ℚ) * s (.boot op.res)).sum = 0 := by simp
  unfold objective
  dsimp only
  rw [h0]
  ring

theorem objective_rescale (c : Ctx) (k : Cost) (p : Prog) (s : Var → ℚ) (b : ℚ) :
    objective c { k with rescale := b } p s = objective c { k with rescale := 0 } p s +
      (((tracked c p).map fun op => b * s (.rescale op.res)).sum +
      ((tracked c p).flatMap fun op => (edges c op).map fun x => b * s (.edgeRescale op.res x.1)).sum) := by
  have h0 : ((tracked c p).map fun op => (0 : ℚ) * s (.rescale op.res)).sum = 0 := by simp
  have h1 : ((tracked c p).flatMap fun op => (edges c op).map fun x => (0 : ℚ) * s (.edgeRescale op.res x.1)).sum = 0 := by
    simp only [zero_mul]
    induction tracked c p with
    | nil => simp
    | cons x l ih => rw [List.flatMap_cons, List.sum_append, ih]; simp
  unfold objective
  dsimp only
  rw [h0, h1]
  ring

theorem sum_scaled {α : Type} (l : List α) (f : α → ℚ) (b : ℚ) : (l.map fun x => b * f x).sum = b * (l.map f).sum := by
  induction l with
  | nil => simp
  | cons x l ih => rw [List.map_cons, List.sum_cons, ih, List.map_cons, List.sum_cons]; ring

theorem sum_scaled_flat {α β : Type} (l : List α) (g : α → List β) (f : α → β → ℚ) (b : ℚ) :
    (l.flatMap fun x => (g x).map fun y => b * f x y).sum = b * (l.flatMap fun x => (g x).map (f x)).sum := by
  induction l with
  | nil => simp
  | cons x l ih => rw [List.flatMap_cons, List.sum_append, ih, List.flatMap_cons, List.sum_append, sum_scaled]; ring

/-- **C90**: what the objective charges for bootstraps is the cost of one for each bootstrap placed. -/
theorem C90_bootstraps {o : Opts} {const : Nat → Bool} {argAttr resAttr : Nat → Option Attr} {s : Var → ℚ} {p : Prog}
    (hw : p.WF) (hk : ∀ op ∈ p.ops, op.kind ≠ .levelReduceMin) (hsw : 0 < o.sw) (hfb : 0 < o.factorBits)
    (hlb : 0 ≤ o.lower) (h : Feasible o (context (eraseProg p) const argAttr resAttr) (eraseProg p) s) {q : Prog}
    (hq : place o const argAttr resAttr s p = some q) (k : Cost) (b : ℚ) :
    objective (context (eraseProg p) const argAttr resAttr) { k with boot := b } (eraseProg p) s =
      objective (context (eraseProg p) const argAttr resAttr) { k with boot := 0 } (eraseProg p) s +
        b * count .bootstrap q.ops := by
  have ht := context_told (eraseProg_wf hw) const argAttr resAttr (eraseProg_kinds hk)
  rw [objective_boot, sum_scaled, h.bootstraps ht hsw hfb hlb hq, ← sum_boot h]

/-- Costs with nothing but bootstraps and rescalings. -/
def exCost : Cost := ⟨69320650, 2060000, fun _ => none⟩

example : ∃ q, place exOpts (fun _ => false) noAttr exRes exS exProg = some q ∧ count .bootstrap q.ops = 1 ∧
    objective (context (eraseProg exProg) (fun _ => false) noAttr exRes) exCost (eraseProg exProg) exS =
      objective (context (eraseProg exProg) (fun _ => false) noAttr exRes) { exCost with boot := 0 } (eraseProg exProg) exS +
        69320650 * 1 := by
  obtain ⟨q, h1, _⟩ := C88_sound_partial exProg_wf (by decide) (by decide) (by decide) (by decide) exPlain exFeasible ⟨40, 0⟩
  have h2 : (place exOpts (fun _ => false) noAttr exRes exS exProg).map (fun q => count .bootstrap q.ops) = some 1 := by
    decide +kernel
  rw [h1, Option.map_some, Option.some.injEq] at h2
  have := C90_bootstraps exProg_wf (by decide) (by decide) (by decide) (by decide) exFeasible h1 exCost 69320650
  rw [h2] at this
  exact ⟨q, h1, h2, by simpa [exCost] using this⟩

theorem rescalings_charged {o : Opts} {const : Nat → Bool} {argAttr resAttr : Nat → Option Attr} {s : Var → ℚ} {p : Prog}
    (hw : p.WF) (hk : ∀ op ∈ p.ops, op.kind ≠ .levelReduceMin) (hsw : 0 < o.sw) (hfb : 0 < o.factorBits)
    (hlb : 0 ≤ o.lower) (h : Feasible o (context (eraseProg p) const argAttr resAttr) (eraseProg p) s) {q : Prog}
    (hq : place o const argAttr resAttr s p = some q) (hb : count .bootstrap q.ops = 0) :
    ((count .modReduce q.ops : Nat) : ℚ) ≤
      ((tracked (context (eraseProg p) const argAttr resAttr) (eraseProg p)).map fun op => s (.rescale op.res)).sum +
      ((tracked (context (eraseProg p) const argAttr resAttr) (eraseProg p)).flatMap fun op =>
        (edges (context (eraseProg p) const argAttr resAttr) op).map fun x => s (.edgeRescale op.res x.1)).sum := by
  have ht := context_told (eraseProg_wf hw) const argAttr resAttr (eraseProg_kinds hk)
  rw [h.bootstraps ht hsw hfb hlb hq, List.countP_eq_zero] at hb
  have hr := h.rescalings ht hsw hfb hlb (fun op hop => by simpa using hb op hop) hq
  have cast1 : ∀ l : List Op, (∀ op ∈ l, op ∈ tracked (context (eraseProg p) const argAttr resAttr) (eraseProg p)) →
      (l.map fun op => s (.rescale op.res)).sum = (((l.map fun op => rounded (s (.rescale op.res))).sum : Int) : ℚ) := by
    intro l
    induction l with
    | nil => intro _; simp
    | cons x l ih =>
      intro hl
      rw [List.map_cons, List.sum_cons, List.map_cons, List.sum_cons, ih fun y hy => hl y (by simp [hy]), Int.cast_add,
        ← (h.box.rescale x (hl x (by simp))).spec.1]
  have cast3 : ∀ op ∈ tracked (context (eraseProg p) const argAttr resAttr) (eraseProg p), ∀ l : List (Nat × Nat),
      (∀ x ∈ l, x ∈ edges (context (eraseProg p) const argAttr resAttr) op) →
      (l.map fun x => s (.edgeRescale op.res x.1)).sum =
        (((l.map fun x => rounded (s (.edgeRescale op.res x.1))).sum : Int) : ℚ) := by
    intro op hop l
    induction l with
    | nil => intro _; simp
    | cons x l ih =>
      intro hl
      obtain ⟨hx1, hx2⟩ := List.mem_filter.1 (hl x (by simp))
      rw [List.map_cons, List.sum_cons, List.map_cons, List.sum_cons, ih fun y hy => hl y (by simp [hy]), Int.cast_add,
        ← (h.box.edgeRescale op hop x hx1 hx2).spec.1]
  have cast2 : ∀ l : List Op, (∀ op ∈ l, op ∈ tracked (context (eraseProg p) const argAttr resAttr) (eraseProg p)) →
      (l.flatMap fun op => (edges (context (eraseProg p) const argAttr resAttr) op).map fun x => s (.edgeRescale op.res x.1)).sum =
      (((l.flatMap fun op => (edges (context (eraseProg p) const argAttr resAttr) op).map
        fun x => rounded (s (.edgeRescale op.res x.1))).sum : Int) : ℚ) := by
    intro l
    induction l with
    | nil => intro _; simp
    | cons x l ih =>
      intro hl
      rw [List.flatMap_cons, List.sum_append, List.flatMap_cons, List.sum_append, ih fun y hy => hl y (by simp [hy]),
        cast3 x (hl x (by simp)) _ fun _ h => h, Int.cast_add]
  rw [cast1 _ fun _ h => h, cast2 _ fun _ h => h]
  exact_mod_cast hr

/-- **C90** `_partial`: without bootstraps no more rescalings are placed than the objective charges for; with them, those before a
bootstrap come on top, see `C90_uncharged_violated`. -/
theorem C90_rescalings_partial {o : Opts} {const : Nat → Bool} {argAttr resAttr : Nat → Option Attr} {s : Var → ℚ} {p : Prog}
    (hw : p.WF) (hk : ∀ op ∈ p.ops, op.kind ≠ .levelReduceMin) (hsw : 0 < o.sw) (hfb : 0 < o.factorBits)
    (hlb : 0 ≤ o.lower) (h : Feasible o (context (eraseProg p) const argAttr resAttr) (eraseProg p) s) {q : Prog}
    (hq : place o const argAttr resAttr s p = some q) (hb : count .bootstrap q.ops = 0) (k : Cost) {b : ℚ} (h0 : 0 ≤ b) :
    objective (context (eraseProg p) const argAttr resAttr) { k with rescale := 0 } (eraseProg p) s +
        b * (count .modReduce q.ops : Nat) ≤
      objective (context (eraseProg p) const argAttr resAttr) { k with rescale := b } (eraseProg p) s := by
  have := rescalings_charged hw hk hsw hfb hlb h hq hb
  generalize context (eraseProg p) const argAttr resAttr = c at this ⊢
  generalize eraseProg p = p' at this ⊢
  have e := objective_rescale c k p' s b
  rw [sum_scaled, sum_scaled_flat _ (edges c) fun op x => s (.edgeRescale op.res x.1), ← mul_add] at e
  refine le_of_le_of_eq ?_ e.symm
  exact add_le_add (le_refl _) (mul_le_mul_of_nonneg_left this h0)

/-- `x * x`, rescaled once. -/
def sqProg : Prog where
  nargs := 1
  secArg := fun _ => true
  ops := [⟨.mul, [0, 0], 1⟩]
  yields := [1]
  next := 2

def sqZ : Var → Int
  | .level v => if v = 0 then 1 else 0
  | .inLevel _ => 1
  | .inScale _ => 80
  | .scale _ | .edgeScale _ _ => 40
  | .rescale _ => 1
  | _ => 0

example : ∃ q, place exOpts (fun _ => false) noAttr noAttr (fun v => (sqZ v : ℚ)) sqProg = some q ∧
    count .bootstrap q.ops = 0 ∧ count .modReduce q.ops = 1 ∧
    Feasible exOpts (context (eraseProg sqProg) (fun _ => false) noAttr noAttr) (eraseProg sqProg) (fun v => (sqZ v : ℚ)) := by
  have h2 : (place exOpts (fun _ => false) noAttr noAttr (fun v => (sqZ v : ℚ)) sqProg).map
      (fun q => (count .bootstrap q.ops, count .modReduce q.ops)) = some (0, 1) := by decide +kernel
  rw [Option.map_eq_some_iff] at h2
  obtain ⟨q, h1, h2⟩ := h2
  simp only [Prod.mk.injEq] at h2
  exact ⟨q, h1, h2.1, h2.2, checkZ_feasible (z := sqZ) (by decide +kernel)⟩

/-- **C90 is violated** when bootstraps are placed: the rescaling that brings the first product to the scale a bootstrap
starts from is not charged; two are placed and one is paid for. -/
theorem C90_uncharged_violated :
    Feasible exOpts (context (eraseProg exProg) (fun _ => false) noAttr exRes) (eraseProg exProg) exS ∧
    objective (context (eraseProg exProg) (fun _ => false) noAttr exRes) exCost (eraseProg exProg) exS =
      objective (context (eraseProg exProg) (fun _ => false) noAttr exRes) { exCost with rescale := 0 } (eraseProg exProg) exS +
        exCost.rescale * 1 ∧
    (place exOpts (fun _ => false) noAttr exRes exS exProg).map (fun q => count .modReduce q.ops) = some 2 :=
  ⟨exFeasible, by decide +kernel, by decide +kernel⟩

/-! ## C91 -/

/-- **C91** `_partial`: it is assumed that no bootstrap is placed or that the lower bound of the levels is positive; the default
is zero, see `C91_product_violated`.

Without scales, along every path there are between two bootstraps at most as many multiplications as the waterline. -/
theorem C91_depth_partial {o : Opts} {const : Nat → Bool} {argAttr resAttr : Nat → Option Attr} {s : Var → ℚ} {p : Prog}
    (hw : p.WF) (hk : ∀ op ∈ p.ops, op.kind ≠ .levelReduceMin) (hflat : o.ckks = false) (hsw : 0 < o.sw)
    (hfb : 0 < o.factorBits) (hlb : 0 ≤ o.lower) (hwl : 0 ≤ o.waterline)
    (h : Feasible o (context (eraseProg p) const argAttr resAttr) (eraseProg p) s) {q : Prog}
    (hq : place o const argAttr resAttr s p = some q) (hb : 1 ≤ o.lower ∨ count .bootstrap q.ops = 0)
    {v k : Nat} (hr : Reach q v k) : (k : Int) ≤ o.waterline := by
  have hwe := eraseProg_wf hw
  have ht := context_told hwe const argAttr resAttr (eraseProg_kinds hk)
  refine placeProg_depth h ht ?_ hflat hsw hfb hlb hwl ?_ hq hr
  · intro v hv
    show (facts ⟨0, 0⟩ (eraseProg p) v).sec = _
    rw [facts_sec, secs_arg hwe hv]
  · refine hb.imp_right fun hb => ?_
    rw [h.bootstraps ht hsw hfb hlb hq, List.countP_eq_zero] at hb
    exact fun op hop => by simpa using hb op hop

/-- `x ^ 4` at waterline 1: the second product runs at level 0 and is bootstrapped. -/
def quadProg : Prog where
  nargs := 1
  secArg := fun _ => true
  ops := [⟨.mul, [0, 0], 1⟩, ⟨.mul, [1, 1], 2⟩]
  yields := [2]
  next := 3

def quadZ : Var → Int
  | .level v => if v = 1 then 0 else 1
  | .inLevel v => if v = 1 then 1 else 0
  | .scale _ | .inScale _ | .edgeScale _ _ => 40
  | .boot v => if v = 2 then 1 else 0
  | _ => 0

/-- The same with one more level. -/
def quadZ2 : Var → Int
  | .level v => if v = 0 then 2 else if v = 1 then 1 else 0
  | .inLevel v => if v = 1 then 2 else 1
  | .scale _ | .inScale _ | .edgeScale _ _ => 40
  | _ => 0

example : ∃ q, place ⟨false, 2, 40, 51, 0⟩ (fun _ => false) noAttr noAttr (fun v => (quadZ2 v : ℚ)) quadProg = some q ∧
    count .bootstrap q.ops = 0 ∧
    Feasible ⟨false, 2, 40, 51, 0⟩ (context (eraseProg quadProg) (fun _ => false) noAttr noAttr) (eraseProg quadProg)
      (fun v => (quadZ2 v : ℚ)) ∧ Reach q 2 2 := by
  have h2 : (place ⟨false, 2, 40, 51, 0⟩ (fun _ => false) noAttr noAttr (fun v => (quadZ2 v : ℚ)) quadProg).map
      (fun q => (q.nargs, q.ops)) = some (1, [⟨.mul, [0, 0], 1⟩, ⟨.relinearize, [1], 3⟩, ⟨.levelReduce 1, [3], 4⟩,
        ⟨.mul, [4, 4], 2⟩, ⟨.relinearize, [2], 5⟩, ⟨.levelReduce 1, [5], 6⟩]) := by decide +kernel
  rw [Option.map_eq_some_iff] at h2
  obtain ⟨q, h1, h2⟩ := h2
  simp only [Prod.mk.injEq] at h2
  have hsa : q.secArg = fun _ => true := by
    obtain ⟨n, σ, ops, _, rfl⟩ := placeProg_some h1
    rfl
  refine ⟨q, h1, by rw [h2.2]; decide, checkZ_feasible (z := quadZ2) (by decide +kernel), ?_⟩
  have r0 : Reach q 0 0 := .arg 0 (by rw [h2.1]; decide) (by rw [hsa])
  have r1 : Reach q 1 1 := .up ⟨.mul, [0, 0], 1⟩ 0 0 (by rw [h2.2]; simp) (by simp) r0 (Or.inl rfl)
  have r2 : Reach q 3 1 := .keep ⟨.relinearize, [1], 3⟩ 1 1 (by rw [h2.2]; simp) (by simp) r1 (by simp) (by simp) (by simp)
  have r3 : Reach q 4 1 := .keep ⟨.levelReduce 1, [3], 4⟩ 3 1 (by rw [h2.2]; simp) (by simp) r2 (by simp) (by simp) (by simp)
  exact .up ⟨.mul, [4, 4], 2⟩ 4 1 (by rw [h2.2]; simp) (by simp) r3 (Or.inl rfl)

/-- **C91 is violated** by default: a product may be computed at level 0 when its result is bootstrapped, so two
multiplications in a row are placed with waterline 1. -/
theorem C91_product_violated :
    Feasible flatOpts (context (eraseProg quadProg) (fun _ => false) noAttr (fun _ => some ⟨1, none⟩)) (eraseProg quadProg)
      (fun v => (quadZ v : ℚ)) ∧
    ∃ q, place flatOpts (fun _ => false) noAttr (fun _ => some ⟨1, none⟩) (fun v => (quadZ v : ℚ)) quadProg = some q ∧
      Reach q 2 2 ∧ flatOpts.waterline = 1 := by
  refine ⟨checkZ_feasible (z := quadZ) (by decide +kernel), ?_⟩
  have h2 : (place flatOpts (fun _ => false) noAttr (fun _ => some ⟨1, none⟩) (fun v => (quadZ v : ℚ)) quadProg).map
      (fun q => (q.nargs, q.ops)) = some (1, [⟨.mul, [0, 0], 1⟩, ⟨.relinearize, [1], 3⟩, ⟨.levelReduce 1, [3], 4⟩,
        ⟨.mul, [4, 4], 2⟩, ⟨.relinearize, [2], 5⟩, ⟨.bootstrap, [5], 6⟩]) := by decide +kernel
  rw [Option.map_eq_some_iff] at h2
  obtain ⟨q, h1, h2⟩ := h2
  simp only [Prod.mk.injEq] at h2
  have hsa : q.secArg = fun _ => true := by
    obtain ⟨n, σ, ops, _, rfl⟩ := placeProg_some h1
    rfl
  refine ⟨q, h1, ?_, rfl⟩
  have r0 : Reach q 0 0 := .arg 0 (by rw [h2.1]; decide) (by rw [hsa])
  have r1 : Reach q 1 1 := .up ⟨.mul, [0, 0], 1⟩ 0 0 (by rw [h2.2]; simp) (by simp) r0 (Or.inl rfl)
  have r2 : Reach q 3 1 := .keep ⟨.relinearize, [1], 3⟩ 1 1 (by rw [h2.2]; simp) (by simp) r1 (by simp) (by simp) (by simp)
  have r3 : Reach q 4 1 := .keep ⟨.levelReduce 1, [3], 4⟩ 3 1 (by rw [h2.2]; simp) (by simp) r2 (by simp) (by simp) (by simp)
  exact .up ⟨.mul, [4, 4], 2⟩ 4 1 (by rw [h2.2]; simp) (by simp) r3 (Or.inl rfl)

end Heir.Place
