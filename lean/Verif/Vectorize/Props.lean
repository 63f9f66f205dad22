import Verif.Vectorize.Batch

/-! # C100: vectorization preserves values -/

namespace Heir.Vectorize

variable {K α : Type}

/-- The vectorizers succeed on a block that runs: no erased operation is read, nothing used is erased.
The operations they leave have an order in which they run, and in every such order all operations that
are no candidates have the values they had, the terminator included. No assumption on the order in the
levels or on what the operations compute, and none on the limit.

Missing: blocks where a region uses a value that depends on a candidate, see
`C100_captured_violated`. -/
theorem C100_vectorize_partial {vec : K → Bool} {compat : Node K → Node K → Bool}
    (hc : PartialEquiv compat) (par : Int) {next : Nat} {block : List (Node K)}
    (hb : Block vec next block) (hcap : CapturesClear vec block)
    {sem : K → List (Val α) → List (Val α) → Val α} {env e0 : Nat → Option (Val α)}
    (henv : Outside block next env) (hrun : run sem env block = some e0) :
    ∃ nodes, vectorize vec compat par next block = some nodes ∧
      (∃ l e, l.Perm nodes ∧ run sem env l = some e) ∧
      ∀ l e, l.Perm nodes → run sem env l = some e →
        ∀ i, Defined block i → ¬ IsVec vec block i → e i = e0 i := by
  obtain ⟨st, σ, R, hv, hi, hσ, hkeep⟩ := vectorize_inv hc par hb hcap henv hrun
  have henvσ : ∀ i v, env i = some v → σ i = v := by
    intro i v h
    have hnd : ¬ Defined block i := fun hd => by rw [henv.1 i hd] at h; cases h
    have hlt : i < next := by
      by_contra hge
      rw [henv.2 i (by omega)] at h
      cases h
    rw [hσ i hlt, values, run_other sem hrun i hnd, h]
    rfl
  refine ⟨st.nodes, hv, ?_, ?_⟩
  · let le : Node K → Node K → Bool := fun a b => decide (R a.id ≤ R b.id)
    have hp := List.mergeSort_perm st.nodes le
    have hpw : (st.nodes.mergeSort le).Pairwise fun a b => le a b = true := by
      apply List.pairwise_mergeSort
      · intro a b c h1 h2
        simp only [le, decide_eq_true_eq] at h1 h2 ⊢
        omega
      · intro a b
        simp only [le, Bool.or_eq_true, decide_eq_true_eq]
        omega
    have hsat : ∀ n ∈ st.nodes.mergeSort le, n.eval sem (total σ) = some (σ n.id) :=
      fun n hn => hi.sat n (hp.mem_iff.1 hn)
    obtain ⟨e, he⟩ := run_sorted (env := env) hsat henvσ (by
      intro A n B hs r hr
      have hn : n ∈ st.nodes := hp.mem_iff.1 (by rw [hs]; simp)
      rcases hi.known n hn r hr with hd | hd
      · left
        have hlt := hi.rank n hn r hr hd
        obtain ⟨m, hm, rfl⟩ := hd
        have hm' := hp.mem_iff.2 hm
        rw [hs, List.mem_append, List.mem_cons] at hm'
        rcases hm' with hm' | rfl | hm'
        · exact ⟨m, hm', rfl⟩
        · omega
        · rw [hs, List.pairwise_append] at hpw
          have := (List.pairwise_cons.1 hpw.2.1).1 m hm'
          simp only [le, decide_eq_true_eq] at this
          omega
      · exact Or.inr hd)
    exact ⟨_, e, hp, he⟩
  · intro l e hl he i hd hnv
    have hdn := hkeep i hnv hd
    have hdl : Defined l i := by
      obtain ⟨n, hn, e⟩ := hdn
      exact ⟨n, hl.mem_iff.2 hn, e⟩
    obtain ⟨v, hv'⟩ := Option.isSome_iff_exists.1 (run_defined sem he i hdl)
    obtain ⟨w, hw⟩ := Option.isSome_iff_exists.1 (run_defined sem hrun i hd)
    have h1 := run_values (fun n hn => hi.sat n (hl.mem_iff.1 hn)) henvσ he i v hv'
    obtain ⟨n, hn, rfl⟩ := hd
    rw [hσ _ (hb.fresh n hn).1, values, hw] at h1
    rw [hv', hw, ← h1]
    rfl

/-- Blocks without captured values. -/
theorem C100_vectorize_straight {vec : K → Bool} {compat : Node K → Node K → Bool}
    (hc : PartialEquiv compat) (par : Int) {next : Nat} {block : List (Node K)}
    (hb : Block vec next block) (hcap : ∀ i k args captured, Node.op i k args captured ∈ block →
      captured = [])
    {sem : K → List (Val α) → List (Val α) → Val α} {env e0 : Nat → Option (Val α)}
    (henv : Outside block next env) (hrun : run sem env block = some e0) :
    ∃ nodes, vectorize vec compat par next block = some nodes ∧
      (∃ l e, l.Perm nodes ∧ run sem env l = some e) ∧
      ∀ l e, l.Perm nodes → run sem env l = some e →
        ∀ i, Defined block i → ¬ IsVec vec block i → e i = e0 i :=
  C100_vectorize_partial hc par hb (fun i k args captured hm r hr => by
    rw [hcap i k args captured hm] at hr
    simp at hr) henv hrun

/-! ## What is batched -/

theorem levels_unique {vec : K → Bool} {next : Nat} {block : List (Node K)} (hb : Block vec next block)
    {sem : K → List (Val α) → List (Val α) → Val α} {env e0 : Nat → Option (Val α)}
    (henv : Outside block next env) (hrun : run sem env block = some e0) {levels : List (List Nat)}
    (hl : (buildGraph vec block).sortGraphByLevels = some (some levels)) :
    ∀ i j v, v ∈ levels.getD i [] → v ∈ levels.getD j [] → i = j := by
  have ho : Ordered block := ordered_of_run hrun henv.1
  have hop : ∀ n ∈ block, ∃ i k args captured, n = Node.op i k args captured := fun n hn => by
    obtain ⟨i, k, args, captured, e, -⟩ := hb.isOp n hn
    exact ⟨i, k, args, captured, e⟩
  have hac : Graph.Acyclic (cmds vec block) := by
    intro v hv
    have : pos block v < pos block v := by
      apply pos_lt_trans hb.nodup ho
      exact transGen_flat (transGen_mono (fun a b hab =>
        transGen_mono (argUses_sub hb.nodup hop) (slice_sound _ (isEdge_slice hab))) hv)
    omega
  obtain ⟨levels', hlv, -, huniq, -⟩ := Graph.C39_sortGraphByLevels _ hac
  rw [buildGraph_eq, hlv] at hl
  obtain rfl : levels' = levels := by simpa using hl
  exact huniq

/-- Two candidates of one level with compatible kinds are replaced, whatever the limit. -/
theorem C100_batched {vec : K → Bool} {c : K → K → Bool} (hc : PartialEquiv (byKind c)) {par : Int}
    {next : Nat} {block nodes : List (Node K)} (hb : Block vec next block)
    {sem : K → List (Val α) → List (Val α) → Val α} {env e0 : Nat → Option (Val α)}
    (henv : Outside block next env) (hrun : run sem env block = some e0)
    (hv : vectorize vec (byKind c) par next block = some nodes) {levels : List (List Nat)}
    (hl : (buildGraph vec block).sortGraphByLevels = some (some levels)) {i u v : Nat} {ku kv : K}
    {au av cu cv : List Nat} (hu : Node.op u ku au cu ∈ block) (hvb : Node.op v kv av cv ∈ block)
    (hne : u ≠ v) (huv : c ku kv = true) (hui : u ∈ levels.getD i []) (hvi : v ∈ levels.getD i []) :
    ¬ Defined nodes u ∧ ¬ Defined nodes v := by
  unfold vectorize at hv
  rw [hl] at hv
  dsimp only at hv
  obtain ⟨st, hst, rfl⟩ := Option.map_eq_some_iff.1 hv
  have hlen : i < levels.length := by
    by_contra h
    rw [List.getD_eq_default _ _ (by omega)] at hui
    simp at hui
  have hsplit : levels = levels.take i ++ levels.getD i [] :: levels.drop (i + 1) := by
    rw [List.getD_eq_getElem _ _ hlen, List.getElem_cons_drop, List.take_append_drop]
  have hx : ∀ w, w ∈ levels.getD i [] → ∀ l ∈ levels.take i, w ∉ l := by
    intro w hw l hl' hwl
    obtain ⟨j, hj, rfl⟩ := List.getElem_of_mem hl'
    have hji : j < i := by
      rw [List.length_take] at hj
      omega
    rw [List.getElem_take] at hwl
    have := levels_unique hb henv hrun hl i j w hw (by rwa [List.getD_eq_getElem _ _ (by omega)])
    omega
  rw [hsplit] at hst
  have hkind : ∀ {w k a cc}, Node.op w k a cc ∈ block → ∀ n ∈ block, n.id = w → n.kind = some k := by
    intro w k a cc hw n hn e
    have := hb.nodup
    have : n = Node.op w k a cc := by
      apply List.inj_on_of_nodup_map hb.nodup hn hw
      rw [e]
      rfl
    rw [this]
    rfl
  exact levels_gone hc huv hne hst hui hvi (fun l hl' => ⟨hx u hui l hl', hx v hvi l hl'⟩)
    ⟨(hb.fresh _ hu).1, (hb.fresh _ hvb).1⟩ ⟨⟨_, hu, rfl⟩, ⟨_, hvb, rfl⟩⟩ (hkind hu) (hkind hvb)

/-- A batched operation has at least one lane, and at most as many as the parallelism if it is
positive. -/
theorem C100_parallelism {vec : K → Bool} {compat : Node K → Node K → Bool} {par : Int} {next : Nat}
    {block nodes : List (Node K)} (hb : Block vec next block)
    (hv : vectorize vec compat par next block = some nodes) {i : Nat} {lanes : List (K × List Nat)}
    (hn : Node.packed i lanes ∈ nodes) : 0 < lanes.length ∧ (0 < par → (lanes.length : Int) ≤ par) := by
  unfold vectorize at hv
  split at hv
  · obtain ⟨st, hst, rfl⟩ := Option.map_eq_some_iff.1 hv
    have key := rewriteLevels_all (K := K)
      (Q := fun n => ∀ i lanes, n = .packed i lanes →
        0 < lanes.length ∧ (0 < par → (lanes.length : Int) ≤ par))
      (P := fun len => 0 < len ∧ (0 < par → (len : Int) ≤ par)) (par := par)
      ⟨fun old new n hq i lanes e => by
        cases n with
        | packed j l =>
          simp only [Node.rename, Node.packed.injEq] at e
          have := hq j l rfl
          rw [← e.2, List.length_map]
          exact this
        | op => simp [Node.rename] at e
        | extract => simp [Node.rename] at e, fun _ _ _ _ _ e => by cases e⟩
      ⟨⟨by omega, fun h => by omega⟩, fun b hb' hr => ⟨by omega, fun h => by
        unfold hasRoom at hr
        rw [if_neg (by omega)] at hr
        simp only [Bool.or_eq_true, beq_iff_eq, decide_eq_true_eq] at hr
        omega⟩⟩
      (fun i lanes hp j l e => by
        obtain ⟨-, rfl⟩ := Node.packed.inj e
        exact hp) (fun n hn i lanes e => by
        obtain ⟨j, k, a, c, e', -⟩ := hb.isOp n hn
        rw [e'] at e
        cases e) hst
    exact key _ hn i lanes rfl
  · cases hv

/-! ## Compatibility -/

theorem byKind_equiv {c : K → K → Bool} (hc : PartialEquiv c) : PartialEquiv (byKind c) := by
  constructor
  · intro a b h
    cases a <;> cases b <;> first | exact hc.symm _ _ h | exact absurd h Bool.false_ne_true
  · intro a b d h1 h2
    cases a <;> cases b <;> cases d <;>
      first
        | exact hc.trans _ _ _ h1 h2
        | exact absurd h1 Bool.false_ne_true
        | exact absurd h2 Bool.false_ne_true

/-- The compatibility of the CGGI operations is symmetric and transitive: no operation is in two
buckets. -/
theorem C100_batchCompatible : PartialEquiv (byKind Kind.batchCompatible) := by
  apply byKind_equiv
  constructor
  · rintro ⟨n, r, a⟩ ⟨n', r', a'⟩ h
    unfold Kind.batchCompatible at h ⊢
    cases n <;> simp_all
  · rintro ⟨n, r, a⟩ ⟨n', r', a'⟩ ⟨n'', r'', a''⟩ h1 h2
    unfold Kind.batchCompatible at h1 h2 ⊢
    cases n <;> simp_all

/-- So is that of the straight-line vectorizer. -/
theorem C100_areCompatible (mappable : Name → Bool) :
    PartialEquiv (byKind (Kind.areCompatible mappable)) := by
  apply byKind_equiv
  constructor
  · rintro ⟨n, r, a⟩ ⟨n', r', a'⟩ h
    simp only [Kind.areCompatible, Bool.and_eq_true, beq_iff_eq] at h ⊢
    obtain ⟨⟨⟨h1, h2⟩, h3⟩, h4⟩ := h
    exact ⟨⟨⟨h1.symm, h2.symm⟩, h3.symm⟩, h1 ▸ h4⟩
  · rintro ⟨n, r, a⟩ ⟨n', r', a'⟩ ⟨n'', r'', a''⟩ h1 h2
    simp only [Kind.areCompatible, Bool.and_eq_true, beq_iff_eq] at h1 h2 ⊢
    obtain ⟨⟨⟨h1, h3⟩, h4⟩, h5⟩ := h1
    obtain ⟨⟨⟨h6, h7⟩, h8⟩, -⟩ := h2
    exact ⟨⟨⟨h1.trans h6, h3.trans h7⟩, h4.trans h8⟩, h5⟩

/-- Operations that are batched are of one class, and but for lookup tables have the same type and
attributes: one type of tensor fits all lanes. -/
theorem C100_sameKind_partial (k l : Kind) :
    (Kind.batchCompatible k l = true → k.name = l.name ∧ k.boolVec = true ∧
      (k.name ≠ .lut3 → k.result = l.result ∧ k.attrs = l.attrs)) ∧
    ∀ mappable, Kind.areCompatible mappable k l = true → k = l ∧ mappable k.name = true := by
  constructor
  · intro h
    obtain ⟨n, r, a⟩ := k
    obtain ⟨n', r', a'⟩ := l
    unfold Kind.batchCompatible at h
    cases n <;> simp_all [Kind.boolVec]
  · intro m h
    obtain ⟨n, r, a⟩ := k
    obtain ⟨n', r', a'⟩ := l
    simp only [Kind.areCompatible, Bool.and_eq_true, beq_iff_eq] at h
    obtain ⟨⟨⟨rfl, rfl⟩, rfl⟩, h4⟩ := h
    exact ⟨rfl, h4⟩

/-- Operations of one kind are compatible if they are candidates. -/
theorem C100_sameKind_batched (k : Kind) :
    (k.boolVec = true → Kind.batchCompatible k k = true) ∧
    ∀ mappable, mappable k.name = true → Kind.areCompatible mappable k k = true := by
  obtain ⟨n, r, a⟩ := k
  constructor
  · intro h
    cases n <;> simp_all [Kind.batchCompatible, Kind.boolVec]
  · intro m h
    simp [Kind.areCompatible, h]

/-- Lookup tables on ciphertexts of different types are batched: no type of tensor fits. -/
theorem C100_lut3_violated : ∃ k l : Kind, Kind.batchCompatible k l = true ∧ k.result ≠ l.result :=
  ⟨⟨.lut3, 0, 0⟩, ⟨.lut3, 1, 0⟩, rfl, by decide⟩

/-! ## Violations -/

/-- A candidate, an operation whose region uses it, and a candidate that uses that one. -/
def captured : List (Node Bool) :=
  [.op 0 true [] [], .op 1 false [] [0], .op 2 true [1] []]

/-- The slice leaves the uses in regions out, so the two candidates are batched although the second
needs the first: no order of the operations left runs. -/
theorem C100_captured_violated (sem : Bool → List (Val α) → List (Val α) → Val α) (par : Int)
    (hpar : par ≤ 0 ∧ -2 ^ 63 ≤ par ∨ 2 ≤ par) :
    (∃ e, run sem (fun _ => none) captured = some e) ∧
    ∃ nodes, vectorize id (byKind fun a b => a && b) par 3 captured = some nodes ∧
      ∀ l, l.Perm nodes → run sem (fun _ => none) l = none := by
  refine ⟨⟨_, rfl⟩, ?_⟩
  have hroom : hasRoom par [0] = true := by
    unfold hasRoom
    simp only [Bool.or_eq_true, beq_iff_eq, decide_eq_true_eq, List.length_singleton]
    split <;> omega
  refine ⟨[.op 1 false [] [4], .packed 3 [(true, []), (true, [1])], .extract 4 3 0, .extract 5 3 1],
    ?_, ?_⟩
  · have hl : (buildGraph id captured).sortGraphByLevels = some (some [[0, 2]]) := by decide +kernel
    have hbk : buildCompatibleOps (compatIn (byKind fun a b => a && b) captured) par [0, 2]
        = [(0, [[0, 2]])] := by
      have h0 : ∀ m, addOp (compatIn (byKind fun a b => a && b) captured) par [] m = [(m, [[m]])] :=
        fun m => rfl
      have hc : compatIn (byKind fun a b : Bool => a && b) captured 0 2 = true := rfl
      unfold buildCompatibleOps
      rw [List.foldl_cons, h0, List.foldl_cons, List.foldl_nil]
      simp only [addOp, List.any_cons, hc, List.any_nil, Bool.or_false, if_true, List.map_cons,
        List.map_nil, addToBuckets, hroom, List.singleton_append]
    unfold vectorize
    rw [hl]
    dsimp only
    rw [List.foldlM_cons, rewriteLevel_eq, hbk]
    rfl
  · intro l hl
    by_contra hne
    obtain ⟨e, he⟩ := Option.ne_none_iff_exists'.1 hne
    have hnd : (l.map Node.id).Nodup := (hl.map _).nodup_iff.2 (by decide)
    have ho : Ordered l := ordered_of_run he (fun _ _ => rfl)
    have hm : ∀ n, n ∈ l ↔ _ := fun n => hl.mem_iff
    have d1 : Uses l 4 1 := ⟨⟨.extract 4 3 0, (hm _).2 (by simp), rfl⟩, .op 1 false [] [4],
      (hm _).2 (by simp), rfl, by simp [Node.refs]⟩
    have d2 : Uses l 3 4 := ⟨⟨.packed 3 [(true, []), (true, [1])], (hm _).2 (by simp), rfl⟩,
      .extract 4 3 0, (hm _).2 (by simp), rfl, by simp [Node.refs]⟩
    have d3 : Uses l 1 3 := ⟨⟨.op 1 false [] [4], (hm _).2 (by simp), rfl⟩,
      .packed 3 [(true, []), (true, [1])], (hm _).2 (by simp), rfl, by simp [Node.refs]⟩
    have p1 := pos_lt hnd ho d1
    have p2 := pos_lt hnd ho d2
    have p3 := pos_lt hnd ho d3
    omega

/-- The straight-line vectorizer types the `from_elements` of the operands by the result: two
comparisons of 32-bit integers are compatible, and their operands do not have the type given. -/
theorem C100_types_violated : ∃ (k : Kind) (operandTypes : List (List Nat)),
    Kind.areCompatible (fun _ => true) k k = true ∧ ¬ fromElementsTyped k.result operandTypes := by
  refine ⟨⟨.other 0, 1, 0⟩, [[32, 32], [32, 32]], rfl, ?_⟩
  intro h
  exact absurd (h [32, 32] (by simp) 32 (by simp)) (by decide)

/-! ## The hypotheses can be met -/

/-- Three gates, the third on the first two, and a use of the third. -/
def gates : List (Node Bool) :=
  [.op 2 true [0, 1] [], .op 3 true [1, 0] [], .op 4 true [2, 3] [], .op 5 false [4] []]

example : Block id 6 gates ∧ CapturesClear id gates ∧ vectorize id (byKind fun a b => a && b) 0 6 gates =
    some [.op 4 true [7, 8] [], .op 5 false [4] [],
      .packed 6 [(true, [0, 1]), (true, [1, 0])], .extract 7 6 0, .extract 8 6 1] := by
  refine ⟨⟨by decide, ?_, by decide⟩, ?_, ?_⟩
  · intro n hn
    simp only [gates, List.mem_cons, List.not_mem_nil, or_false] at hn
    rcases hn with rfl | rfl | rfl | rfl <;> exact ⟨_, _, _, _, rfl, fun _ => rfl⟩
  · intro i k args captured h r hr
    simp only [gates, List.mem_cons, List.not_mem_nil, or_false, Node.op.injEq] at h
    rcases h with ⟨-, -, -, rfl⟩ | ⟨-, -, -, rfl⟩ | ⟨-, -, -, rfl⟩ | ⟨-, -, -, rfl⟩ <;> simp at hr
  · have hl : (buildGraph id gates).sortGraphByLevels = some (some [[2, 3], [4]]) := by decide +kernel
    unfold vectorize
    rw [hl]
    rfl

example : PartialEquiv (byKind fun a b : Bool => a && b) :=
  byKind_equiv ⟨by decide, by decide⟩

/-- With a limit of one lane each gate of the level is packed alone. -/
example : ((vectorize id (byKind fun a b => a && b) 1 6 gates).map fun l => l.length) = some 6 := by
  have hl : (buildGraph id gates).sortGraphByLevels = some (some [[2, 3], [4]]) := by decide +kernel
  unfold vectorize
  rw [hl]
  rfl

end Heir.Vectorize
