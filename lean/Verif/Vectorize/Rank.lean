import Verif.Vectorize.Lemmas

/-! # The graph of candidates gives ranks -/

namespace Heir.Vectorize

open Graph (upd Cmd IsVertex IsEdge build)

variable {K α : Type} {vec : K → Bool} {block : List (Node K)}

theorem transGen_mono {β : Type} {r s : β → β → Prop} (h : ∀ a b, r a b → s a b) {a b : β}
    (hab : Relation.TransGen r a b) : Relation.TransGen s a b := by
  induction hab with
  | single h1 => exact .single (h _ _ h1)
  | tail _ h1 ih => exact ih.tail (h _ _ h1)

theorem transGen_flat {β : Type} {r : β → β → Prop} {a b : β}
    (hab : Relation.TransGen (Relation.TransGen r) a b) : Relation.TransGen r a b := by
  induction hab with
  | single h1 => exact h1
  | tail _ h1 ih => exact ih.trans h1

/-! ## The slice -/

theorem operands_of_mem (hn : (block.map Node.id).Nodup) {i : Nat} {k : K} {args captured : List Nat}
    (h : Node.op i k args captured ∈ block) : operands block i = args := by
  unfold operands
  have := find_id hn h
  rw [show (Node.op i k args captured).id = i from rfl] at this
  rw [this]

theorem any_id {nodes : List (Node K)} {i : Nat} :
    nodes.any (fun n => n.id == i) = true ↔ Defined nodes i := by
  simp [Defined]

/-- A use by operand. -/
def ArgUses (block : List (Node K)) (u v : Nat) : Prop := Defined block u ∧ u ∈ operands block v

theorem slice_complete (hn : (block.map Node.id).Nodup) (ho : Ordered block)
    (hsub : ∀ u v, ArgUses block u v → Uses block u v) : ∀ (fuel : Nat) {u v : Nat},
    pos block v ≤ fuel → Relation.TransGen (ArgUses block) u v → u ∈ slice block fuel v := by
  intro fuel
  induction fuel with
  | zero =>
    intro u v hp h
    have : pos block u < pos block v :=
      pos_lt_trans hn ho (transGen_mono hsub h)
    omega
  | succ fuel ih =>
    intro u v hp h
    unfold slice
    rw [List.mem_flatMap]
    rcases Relation.TransGen.tail'_iff.1 h with ⟨w, huw, hd, hw⟩
    refine ⟨w, hw, ?_⟩
    rw [if_pos (any_id.2 hd)]
    rcases Relation.reflTransGen_iff_eq_or_transGen.1 huw with rfl | huw
    · exact List.mem_cons_self
    · have : pos block w < pos block v := pos_lt hn ho (hsub _ _ ⟨hd, hw⟩)
      exact List.mem_cons_of_mem _ (ih (by omega) huw)

theorem slice_sound : ∀ (fuel : Nat) {u v : Nat}, u ∈ slice block fuel v →
    Relation.TransGen (ArgUses block) u v := by
  intro fuel
  induction fuel with
  | zero => intro u v h; simp [slice] at h
  | succ fuel ih =>
    intro u v h
    unfold slice at h
    rw [List.mem_flatMap] at h
    obtain ⟨r, hr, h⟩ := h
    split at h
    · rename_i hd
      have hs : ArgUses block r v := ⟨any_id.1 hd, hr⟩
      rcases List.mem_cons.1 h with rfl | h
      · exact .single hs
      · exact (ih h).tail hs
    · simp at h

theorem argUses_sub (hn : (block.map Node.id).Nodup) (hop : ∀ n ∈ block, ∃ i k args captured,
    n = Node.op i k args captured) : ∀ u v, ArgUses block u v → Uses block u v := by
  rintro u v ⟨hd, hu⟩
  refine ⟨hd, ?_⟩
  by_cases hv : Defined block v
  · obtain ⟨n, hnb, rfl⟩ := hv
    obtain ⟨i, k, args, captured, rfl⟩ := hop n hnb
    refine ⟨_, hnb, rfl, ?_⟩
    rw [show (Node.op i k args captured).id = i from rfl, operands_of_mem hn hnb] at hu
    simp [Node.refs, hu]
  · unfold operands at hu
    have : block.find? (fun n => n.id == v) = none := by
      rw [List.find?_eq_none]
      intro n hnb e
      exact hv ⟨n, hnb, by simpa using e⟩
    rw [this] at hu
    simp at hu

/-- Paths that start at candidates go through operands only. -/
theorem argPath (hn : (block.map Node.id).Nodup) (hop : ∀ n ∈ block, ∃ i k args captured,
    n = Node.op i k args captured) (hc : CapturesClear vec block) {u v : Nat} (hu : IsVec vec block u)
    (h : Relation.TransGen (Uses block) u v) : Relation.TransGen (ArgUses block) u v := by
  have step : ∀ w v, Relation.ReflTransGen (Uses block) u w → Uses block w v → ArgUses block w v := by
    rintro w v huw ⟨hd, n, hnb, rfl, hr⟩
    obtain ⟨i, k, args, captured, rfl⟩ := hop n hnb
    refine ⟨hd, ?_⟩
    rw [show (Node.op i k args captured).id = i from rfl, operands_of_mem hn hnb]
    rcases List.mem_append.1 hr with hr | hr
    · exact hr
    · exact absurd huw (hc i k args captured hnb w hr u hu)
  induction h with
  | single h => exact .single (step _ _ .refl h)
  | tail h1 h2 ih => exact ih.tail (step _ _ h1.to_reflTransGen h2)

/-! ## The graph as calls -/

/-- The calls for one operation. -/
def nodeCmds (vec : K → Bool) (block : List (Node K)) (n : Node K) : List (Cmd Nat) :=
  if n.isVec vec then
    .vertex n.id :: (slice block block.length n.id).map fun u => .edge u n.id
  else []

/-- All calls. -/
def cmds (vec : K → Bool) (block : List (Node K)) : List (Cmd Nat) :=
  block.flatMap (nodeCmds vec block)

theorem buildGraph_eq : buildGraph vec block = build (cmds vec block) := by
  have key : ∀ (l : List (Node K)) (g : Graph.Graph Nat),
      l.foldl (fun g n => if n.isVec vec then
        (slice block block.length n.id).foldl (fun g u => (g.addEdge u n.id).1) (g.addVertex n.id)
        else g) g =
      (l.flatMap (nodeCmds vec block)).foldl (fun g c => match c with
        | .vertex v => g.addVertex v
        | .edge s t => (g.addEdge s t).1) g := by
    intro l
    induction l with
    | nil => intro g; rfl
    | cons n l ih =>
      intro g
      rw [List.foldl_cons, List.flatMap_cons, List.foldl_append, ih]
      congr 1
      unfold nodeCmds
      split
      · rw [List.foldl_cons, List.foldl_map]
      · rfl
  unfold buildGraph build cmds
  rw [key block Graph.Graph.empty]
  congr 1
  funext g c
  cases c <;> rfl

theorem isVertex_iff {v : Nat} : IsVertex (cmds vec block) v ↔ IsVec vec block v := by
  unfold IsVertex cmds IsVec
  rw [List.mem_flatMap]
  constructor
  · rintro ⟨n, hn, h⟩
    unfold nodeCmds at h
    split at h
    · rename_i hv
      rcases List.mem_cons.1 h with e | h
      · exact ⟨n, hn, hv, (Cmd.vertex.inj e).symm⟩
      · obtain ⟨u, -, e⟩ := List.mem_map.1 h
        cases e
    · simp at h
  · rintro ⟨n, hn, hv, rfl⟩
    refine ⟨n, hn, ?_⟩
    rw [nodeCmds, if_pos hv]
    exact List.mem_cons_self

theorem isEdge_slice {u v : Nat} (h : IsEdge (cmds vec block) u v) :
    u ∈ slice block block.length v := by
  obtain ⟨pre, post, e, -, -⟩ := h
  have hm : Cmd.edge u v ∈ cmds vec block := by rw [e]; simp
  obtain ⟨n, hn, h⟩ := List.mem_flatMap.1 hm
  unfold nodeCmds at h
  split at h
  · rcases List.mem_cons.1 h with e | h
    · cases e
    · obtain ⟨w, hw, e⟩ := List.mem_map.1 h
      cases e
      exact hw
  · simp at h

theorem isEdge_of_slice (hn : (block.map Node.id).Nodup) (ho : Ordered block)
    (hop : ∀ n ∈ block, ∃ i k args captured, n = Node.op i k args captured) {u v : Nat}
    (hu : IsVec vec block u) (hv : IsVec vec block v) (h : u ∈ slice block block.length v) :
    IsEdge (cmds vec block) u v := by
  have hlt : pos block u < pos block v :=
    pos_lt_trans hn ho (transGen_mono (argUses_sub hn hop) (slice_sound _ h))
  obtain ⟨n, hnb, hvn, rfl⟩ := hv
  obtain ⟨m, hmb, hvm, rfl⟩ := hu
  obtain ⟨A, B, hAB⟩ := List.append_of_mem hnb
  obtain ⟨S, T, hST⟩ := List.append_of_mem h
  have hmA : m ∈ A := by
    rw [hAB] at hmb
    rcases List.mem_append.1 hmb with hm | hm
    · exact hm
    · exfalso
      have hnA : n.id ∉ A.map Node.id := by
        intro h
        rw [hAB, List.map_append, List.nodup_append] at hn
        exact hn.2.2 _ h _ (by simp) rfl
      have hmA' : m.id ∉ A.map Node.id := by
        intro h
        rw [hAB, List.map_append, List.nodup_append] at hn
        exact hn.2.2 _ h _ (List.mem_map.2 ⟨m, hm, rfl⟩) rfl
      unfold pos at hlt
      rw [hAB, List.map_append, List.idxOf_append_of_notMem hnA, List.idxOf_append_of_notMem hmA',
        List.map_cons, List.idxOf_cons_self] at hlt
      omega
  refine ⟨A.flatMap (nodeCmds vec block) ++ .vertex n.id :: S.map (fun u => .edge u n.id),
    T.map (fun u => .edge u n.id) ++ B.flatMap (nodeCmds vec block), ?_, ?_, ?_⟩
  · have e1 : cmds vec block = A.flatMap (nodeCmds vec block) ++ (nodeCmds vec block n ++
        B.flatMap (nodeCmds vec block)) := by
      conv_lhs => rw [cmds, hAB]
      rw [List.flatMap_append, List.flatMap_cons, ← hAB]
    rw [e1, nodeCmds, if_pos hvn, hST]
    simp
  · apply List.mem_append_left
    refine List.mem_flatMap.2 ⟨m, hmA, ?_⟩
    rw [nodeCmds, if_pos hvm]
    exact List.mem_cons_self
  · simp

/-! ## Ranks -/

open Classical in
/-- The level up to which candidates are upstream. -/
noncomputable def lam (vec : K → Bool) (block : List (Node K)) (lev : Nat → Nat) (i : Nat) : Nat :=
  if IsVec vec block i then lev i + 1
  else ((block.map Node.id).toFinset.filter fun w =>
    IsVec vec block w ∧ Relation.TransGen (Uses block) w i).sup fun w => lev w + 1

open Classical in
/-- The rank before the rewriting. -/
noncomputable def rank0 (vec : K → Bool) (block : List (Node K)) (lev : Nat → Nat) (i : Nat) : Nat :=
  lam vec block lev i * (block.length + 3) + if IsVec vec block i then 0 else 2 + pos block i

theorem IsVec.defined {i : Nat} (h : IsVec vec block i) : Defined block i := by
  obtain ⟨n, hn, -, e⟩ := h
  exact ⟨n, hn, e⟩

theorem lam_nonvec_le {lev : Nat → Nat} {i b : Nat} (hi : ¬ IsVec vec block i)
    (h : ∀ w, IsVec vec block w → Relation.TransGen (Uses block) w i → lev w + 1 ≤ b) :
    lam vec block lev i ≤ b := by
  classical
  unfold lam
  rw [if_neg hi]
  apply Finset.sup_le
  intro w hw
  rw [Finset.mem_filter] at hw
  exact h w hw.2.1 hw.2.2

theorem le_lam_nonvec {lev : Nat → Nat} {i w : Nat} (hi : ¬ IsVec vec block i)
    (hw : IsVec vec block w) (h : Relation.TransGen (Uses block) w i) :
    lev w + 1 ≤ lam vec block lev i := by
  classical
  unfold lam
  rw [if_neg hi]
  obtain ⟨n, hn, e⟩ := hw.defined
  exact Finset.le_sup (f := fun w => lev w + 1) (Finset.mem_filter.2
    ⟨List.mem_toFinset.2 (List.mem_map.2 ⟨n, hn, e⟩), hw, h⟩)

theorem rank0_vec {lev : Nat → Nat} {i : Nat} (h : IsVec vec block i) :
    rank0 vec block lev i = (lev i + 1) * (block.length + 3) := by
  unfold rank0 lam
  rw [if_pos h, if_pos h, Nat.add_zero]

theorem rank0_nonvec {lev : Nat → Nat} {i : Nat} (h : ¬ IsVec vec block i) :
    rank0 vec block lev i = lam vec block lev i * (block.length + 3) + (2 + pos block i) := by
  unfold rank0
  rw [if_neg h]

/-- A use goes up in rank, and by two from a candidate. -/
theorem rank0_lt (hn : (block.map Node.id).Nodup) (ho : Ordered block) {lev : Nat → Nat}
    (hlev : ∀ u v, IsVec vec block u → IsVec vec block v → Relation.TransGen (Uses block) u v →
      lev u < lev v) {u v : Nat} (h : Uses block u v) :
    rank0 vec block lev u < rank0 vec block lev v ∧
      (IsVec vec block u → rank0 vec block lev u + 1 < rank0 vec block lev v) := by
  have hpu : pos block u < block.length := pos_lt_length h.1
  have hp := pos_lt hn ho h
  have hM : 1 ≤ block.length + 3 := by omega
  by_cases hu : IsVec vec block u
  · have key : rank0 vec block lev u + 1 < rank0 vec block lev v := by
      rw [rank0_vec hu]
      by_cases hv : IsVec vec block v
      · rw [rank0_vec hv]
        have := Nat.mul_le_mul_right (block.length + 3)
          (Nat.add_le_add_right (hlev u v hu hv (.single h)) 1)
        rw [Nat.succ_mul] at this
        omega
      · rw [rank0_nonvec hv]
        have := Nat.mul_le_mul_right (block.length + 3)
          (le_lam_nonvec (lev := lev) hv hu (.single h))
        omega
    exact ⟨by omega, fun _ => key⟩
  · refine ⟨?_, fun h => absurd h hu⟩
    rw [rank0_nonvec hu]
    by_cases hv : IsVec vec block v
    · rw [rank0_vec hv]
      have hl : lam vec block lev u ≤ lev v :=
        lam_nonvec_le hu fun w hw hwu => hlev w v hw hv (hwu.tail h)
      have := Nat.mul_le_mul_right (block.length + 3) hl
      rw [Nat.succ_mul]
      omega
    · rw [rank0_nonvec hv]
      have hl : lam vec block lev u ≤ lam vec block lev v :=
        lam_nonvec_le hu fun w hw hwu => le_lam_nonvec hv hw (hwu.tail h)
      have := Nat.mul_le_mul_right (block.length + 3) hl
      omega

/-! ## The pass -/

/-- The state after the pass. -/
theorem vectorize_inv {sem : K → List (Val α) → List (Val α) → Val α} {compat : Node K → Node K → Bool}
    (hc : PartialEquiv compat) (par : Int) {next : Nat} (hb : Block vec next block)
    (hcap : CapturesClear vec block) {env e0 : Nat → Option (Val α)} (henv : Outside block next env)
    (hrun : run sem env block = some e0) :
    ∃ st σ R, vectorize vec compat par next block = some st.nodes ∧
      Inv sem env (IsVec vec block) st σ R ∧ (∀ i < next, σ i = values e0 i) ∧
      ∀ i, ¬ IsVec vec block i → Defined block i → Defined st.nodes i := by
  have ho : Ordered block := ordered_of_run hrun henv.1
  have hop : ∀ n ∈ block, ∃ i k args captured, n = Node.op i k args captured := fun n hn => by
    obtain ⟨i, k, args, captured, e, -⟩ := hb.isOp n hn
    exact ⟨i, k, args, captured, e⟩
  have hac : Graph.Acyclic (cmds vec block) := by
    intro v hv
    have : pos block v < pos block v := by
      apply pos_lt_trans hb.nodup ho
      exact transGen_flat (transGen_mono (fun a b hab =>
        transGen_mono (argUses_sub hb.nodup hop) (slice_sound _ (isEdge_slice hab))) hv)
    omega
  obtain ⟨levels, hlv, hmem, huniq, hnd, hedge, -⟩ := Graph.C39_sortGraphByLevels _ hac
  have hgetD : ∀ i v, v ∈ levels.getD i [] → ∃ h : i < levels.length, v ∈ levels[i] := by
    intro i v hv
    by_cases hi : i < levels.length
    · exact ⟨hi, by rwa [List.getD_eq_getElem _ _ hi] at hv⟩
    · rw [List.getD_eq_default _ _ (by omega)] at hv
      simp at hv
  have hex : ∀ v, ∃ i, IsVec vec block v → v ∈ levels.getD i [] := by
    intro v
    by_cases hv : IsVec vec block v
    · obtain ⟨i, hi⟩ := (hmem v).1 (isVertex_iff.2 hv)
      exact ⟨i, fun _ => hi⟩
    · exact ⟨0, fun h => absurd h hv⟩
  choose lev hlevmem using hex
  have hlev : ∀ u v, IsVec vec block u → IsVec vec block v → Relation.TransGen (Uses block) u v →
      lev u < lev v := by
    intro u v hu hv h
    refine hedge u v _ _ (isEdge_of_slice hb.nodup ho hop hu hv ?_) (hlevmem u hu) (hlevmem v hv)
    exact slice_complete hb.nodup ho (argUses_sub hb.nodup hop) _
      (le_of_lt (pos_lt_length hv.defined)) (argPath hb.nodup hop hcap hu h)
  have hsome : ∀ i, (env i).isSome → i < next := by
    intro i hi
    by_contra hlt
    rw [henv.2 i (by omega)] at hi
    simp at hi
  have hinit : Inv sem env (IsVec vec block) ⟨block, next⟩ (values e0) (rank0 vec block lev) := by
    refine ⟨hb.nodup, fun n hn => (hb.fresh n hn).1, fun n hn => (hb.fresh n hn).2, ?_, ?_,
      sat_of_run hb.nodup hrun henv.1, refs_of_run hrun, ?_, ?_, hsome⟩
    · intro n hn r hr hd
      exact (rank0_lt hb.nodup ho hlev ⟨hd, n, hn, rfl, hr⟩).1
    · intro n hn r hr hw
      exact (rank0_lt hb.nodup ho hlev ⟨hw.defined, n, hn, rfl, hr⟩).2 hw
    · rintro n hn ⟨m, hm, hvm, e⟩
      have : m = n := by
        have h1 := find_id hb.nodup hm
        have h2 := find_id hb.nodup hn
        rw [e, h2] at h1
        exact (Option.some.inj h1).symm
      subst this
      obtain ⟨i, k, args, captured, rfl, hcp⟩ := hb.isOp m hn
      exact ⟨i, k, args, by rw [hcp hvm]⟩
    · rintro i ⟨n, hn, -, rfl⟩
      exact (hb.fresh n hn).1
  have hflat : levels.flatten.Nodup := by
    rw [List.nodup_flatten]
    constructor
    · intro l hl
      obtain ⟨i, hi, rfl⟩ := List.getElem_of_mem hl
      have := hnd i
      rwa [List.getD_eq_getElem _ _ hi] at this
    · rw [List.pairwise_iff_getElem]
      intro i j hi hj hij
      intro v h1 h2
      have := huniq i j v (by rwa [List.getD_eq_getElem _ _ hi])
        (by rwa [List.getD_eq_getElem _ _ hj])
      omega
  obtain ⟨st, σ, R, r, hinv, hstep⟩ := rewriteLevels_ok hc par levels hinit hflat (by
    intro level hl
    obtain ⟨i, hi, rfl⟩ := List.getElem_of_mem hl
    refine ⟨(i + 1) * (block.length + 3), fun o ho => ?_⟩
    have hov : IsVec vec block o := isVertex_iff.1 ((hmem o).2 ⟨i, by
      rwa [List.getD_eq_getElem _ _ hi]⟩)
    refine ⟨hov.defined, hov, ?_⟩
    rw [rank0_vec hov, huniq (lev o) i o (hlevmem o hov) (by rwa [List.getD_eq_getElem _ _ hi])])
  refine ⟨st, σ, R, ?_, hinv, hstep.val, ?_⟩
  · unfold vectorize
    rw [buildGraph_eq, hlv]
    simp only [r, Option.map_some]
  · intro i hi hd
    refine hstep.keep i ?_ hd
    intro hm
    obtain ⟨l, hl, hil⟩ := List.mem_flatten.1 hm
    obtain ⟨j, hj, rfl⟩ := List.getElem_of_mem hl
    exact hi (isVertex_iff.1 ((hmem i).2 ⟨j, by rwa [List.getD_eq_getElem _ _ hj]⟩))

/-! ## Orders -/

/-- Whatever runs without a use before its definition computes the values. -/
theorem run_values {sem : K → List (Val α) → List (Val α) → Val α} {σ : Nat → Val α} :
    ∀ {l : List (Node K)} {env e : Nat → Option (Val α)},
    (∀ n ∈ l, n.eval sem (total σ) = some (σ n.id)) → (∀ i v, env i = some v → σ i = v) →
    run sem env l = some e → ∀ i v, e i = some v → σ i = v
  | [], env, e, _, henv, h => by
    rw [run, Option.some.injEq] at h
    subst h
    exact henv
  | n :: l, env, e, hl, henv, h => by
    rw [run, Option.bind_eq_some_iff] at h
    obtain ⟨v, hv, h⟩ := h
    have hv' : v = σ n.id := by
      have h1 := eval_mono sem (g := total σ) (fun i w hi => by rw [total, henv i w hi]) n hv
      rw [hl n List.mem_cons_self] at h1
      exact (Option.some.inj h1).symm
    refine run_values (fun m hm => hl m (List.mem_cons_of_mem _ hm)) ?_ h
    intro i w hi
    by_cases e : i = n.id
    · rw [e, upd_eq] at hi
      rw [e, ← hv']
      exact Option.some.inj hi
    · rw [upd_ne _ _ e] at hi
      exact henv i w hi

/-- An order by rank runs. -/
theorem run_sorted {sem : K → List (Val α) → List (Val α) → Val α} {σ : Nat → Val α} :
    ∀ {l : List (Node K)} {env : Nat → Option (Val α)},
    (∀ n ∈ l, n.eval sem (total σ) = some (σ n.id)) → (∀ i v, env i = some v → σ i = v) →
    (∀ A n B, l = A ++ n :: B → ∀ r ∈ n.refs, Defined A r ∨ (env r).isSome) →
    ∃ e, run sem env l = some e
  | [], env, _, _, _ => ⟨env, rfl⟩
  | n :: l, env, hl, henv, ho => by
    have hr : ∀ r ∈ n.refs, env r = some (σ r) := by
      intro r hr
      rcases ho [] n l rfl r hr with ⟨m, hm, -⟩ | h
      · simp at hm
      · obtain ⟨v, hv⟩ := Option.isSome_iff_exists.1 h
        rw [hv, henv r v hv]
    have hv : n.eval sem env = some (σ n.id) := eval_of_total sem (hl n List.mem_cons_self) hr
    obtain ⟨e, he⟩ := run_sorted (l := l) (env := upd env n.id (some (σ n.id)))
      (fun m hm => hl m (List.mem_cons_of_mem _ hm)) (by
        intro i w hi
        by_cases e : i = n.id
        · rw [e, upd_eq] at hi
          rw [e]
          exact Option.some.inj hi
        · rw [upd_ne _ _ e] at hi
          exact henv i w hi) (by
        intro A m B hAB r hr
        rcases ho (n :: A) m B (by rw [hAB]; rfl) r hr with ⟨m', hm', e⟩ | h
        · rcases List.mem_cons.1 hm' with rfl | hm'
          · right
            rw [← e, upd_eq]; rfl
          · exact Or.inl ⟨m', hm', e⟩
        · right
          by_cases e : r = n.id
          · rw [e, upd_eq]; rfl
          · rw [upd_ne _ _ e]; exact h)
    exact ⟨e, by rw [run, hv]; exact he⟩

end Heir.Vectorize
