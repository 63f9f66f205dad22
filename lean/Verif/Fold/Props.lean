import Verif.Fold.Lemmas

/-! # Properties of the constant folds -/

namespace Heir.Fold

variable {α : Type}

/-- C64 (auxiliary): splitting a position into indices and flattening them are inverse. -/
theorem C64_indices {s : List Nat} {k : Nat} (hk : k < s.prod) : ∃ is,
    getIndicesFromRowMajorShape k s = some is ∧ pos s is = some k ∧
      (s.prod < 2147483648 → Forward.getFlattenedIndex s (is.map Int.ofNat) = some (k : Int)) := by
  obtain ⟨is, h1, h2⟩ := unflatten_pos hk
  refine ⟨is, ?_, h2, fun hs => Forward.getFlattenedIndex_eq (pos_rowMajor h2) hs⟩
  unfold getIndicesFromRowMajorShape
  rw [foldl_mul, h1]

example : getIndicesFromRowMajorShape 17 [2, 3, 4] = some [1, 1, 1] ∧
    Forward.getFlattenedIndex [2, 3, 4] [1, 1, 1] = some 17 := by decide

theorem permuted_prod {p s : List Nat} (hp : p.Perm (List.range s.length)) :
    (permuted p s).prod = s.prod := by
  unfold permuted
  rw [(hp.map _).prod_eq]
  congr 1
  apply List.ext_getElem
  · simp
  · intro i h1 h2
    simp [h2]

/-- C64: the folded transpose has at the permuted index the element of the constant.

Partial: for fewer than 2^31 elements; the counter of the loop is an `int`. -/
theorem C64_transpose_partial {l : List α} {shape perm : List Nat}
    (hp : perm.Perm (List.range shape.length)) (hl : l.length = shape.prod)
    (hs : shape.prod < 2147483648) : ∃ r, foldTranspose l shape perm = some r ∧
      r.length = (permuted perm shape).prod ∧
      ∀ idx k, pos shape idx = some k →
        (∃ k', pos (permuted perm shape) (permuted perm idx) = some k') ∧
        elem r (permuted perm shape) (permuted perm idx) = elem l shape idx := by
  have hperm := permuted_prod hp
  have hlt : ∀ p ∈ perm, p < shape.length := fun p h => List.mem_range.1 (hp.subset h)
  have hlen : perm.length = shape.length := by rw [hp.length_eq, List.length_range]
  have hnd : perm.Nodup := hp.nodup_iff.2 List.nodup_range
  have hext : perm.mapM (fun p => shape[p]?) = some (permuted perm shape) := by
    have key : ∀ q : List Nat, (∀ p ∈ q, p < shape.length) →
        q.mapM (fun p => shape[p]?) = some (permuted q shape) := by
      intro q
      induction q with
      | nil => intro _; rfl
      | cons p q ih =>
        intro h
        have hp := h p List.mem_cons_self
        simp [List.mapM_cons, ih fun x hx => h x (List.mem_cons_of_mem _ hx), permuted, hp]
    exact key perm hlt
  -- the permuted index of an index is inside
  have inside : ∀ (q idx : List Nat), (∀ p ∈ q, p < shape.length) →
      (∀ x < shape.length, idx.getD x 0 < shape.getD x 0) →
      ∃ k', pos (permuted q shape) (permuted q idx) = some k' := by
    intro q idx
    induction q with
    | nil => intro _ _; exact ⟨0, rfl⟩
    | cons p q ih =>
      intro h hb
      obtain ⟨k', e⟩ := ih (fun x hx => h x (List.mem_cons_of_mem _ hx)) hb
      exact ⟨_, pos_cons.2 ⟨hb p (h p List.mem_cons_self), k', e, rfl⟩⟩
  have bounds : ∀ {s idx : List Nat} {k : Nat}, pos s idx = some k →
      ∀ x < s.length, idx.getD x 0 < s.getD x 0 := by
    intro s
    induction s with
    | nil => intro idx k _ x hx; exact absurd hx (by simp)
    | cons d ds ih =>
      intro idx k h x hx
      cases idx with
      | nil => exact absurd h (by simp [pos])
      | cons i is =>
        obtain ⟨h1, k', h2, -⟩ := pos_cons.1 h
        cases x with
        | zero => simpa using h1
        | succ x => simpa using ih h2 x (by simpa using hx)
  -- one element
  have conv : ∀ idx k, pos shape idx = some k → ∃ k',
      pos (permuted perm shape) (permuted perm idx) = some k' ∧
      convertTransposedIndexToOriginalIndex shape l.length perm k' = some k := by
    intro idx k h
    obtain ⟨k', e⟩ := inside perm idx hlt (bounds h)
    refine ⟨k', e, ?_⟩
    unfold convertTransposedIndexToOriginalIndex
    rw [hext, Option.bind_some, transposedLoop_eq, hl]
    have h1 := indices_of_pos e
    unfold getIndicesFromRowMajorShape at h1
    rw [foldl_mul, hperm] at h1
    rw [h1, Option.bind_some]
    have hidx : idx.length = shape.length := (pos_lt h).2.symm
    obtain ⟨r, r1, r2, r3⟩ := scatter_spec (v := idx) (out := List.replicate perm.length 0) hnd
      (by intro p hp; rw [List.length_replicate, hlen]; exact hlt p hp)
      (by rw [List.length_replicate, hlen, hidx])
    unfold permuted
    rw [r1, Option.bind_some]
    have : r = idx := by
      apply List.ext_getElem
      · rw [r2, List.length_replicate, hlen, hidx]
      · intro i hi1 hi2
        have := r3 i (by rw [List.length_replicate, hlen, ← hidx]; exact hi2)
        rw [if_pos (hp.symm.subset (List.mem_range.2 (hidx ▸ hi2)))] at this
        simpa [List.getD_eq_getElem?_getD, hi1, hi2] using this
    rw [this, originalIndex_eq h, Nat.zero_add]
  -- every position of the result arises
  have surj : ∀ i < l.length, ∃ k, k < l.length ∧
      convertTransposedIndexToOriginalIndex shape l.length perm i = some k := by
    intro i hi
    obtain ⟨js, -, hj⟩ := unflatten_pos (s := permuted perm shape) (k := i) (by rw [hperm, ← hl]; exact hi)
    have hjl : js.length = perm.length := by
      rw [← (pos_lt hj).2]; simp [permuted]
    -- the index it comes from
    obtain ⟨idx, e1, e2⟩ : ∃ idx : List Nat, idx.length = shape.length ∧ permuted perm idx = js := by
      refine ⟨(List.range shape.length).map fun x => js.getD (perm.idxOf x) 0, by simp, ?_⟩
      apply List.ext_getElem
      · simp [permuted, hjl]
      · intro n h1 h2
        have hn : n < perm.length := by rw [← hjl]; exact h2
        have hpn : perm[n] < shape.length := hlt _ (List.getElem_mem hn)
        simp only [permuted, List.getElem_map, List.getD_eq_getElem?_getD, List.getElem?_map,
          List.getElem?_range hpn, Option.map_some, Option.getD_some]
        rw [hnd.idxOf_getElem n hn]
        simp [h2]
    have hin : ∃ k, pos shape idx = some k := by
      have hb := bounds hj
      have key : ∀ (s idx : List Nat), idx.length = s.length →
          (∀ x < s.length, idx.getD x 0 < s.getD x 0) → ∃ k, pos s idx = some k := by
        intro s
        induction s with
        | nil => intro idx h _; rw [List.length_eq_zero_iff.1 h]; exact ⟨0, rfl⟩
        | cons d ds ih =>
          intro idx h hb
          cases idx with
          | nil => exact absurd h (by simp)
          | cons j js =>
            obtain ⟨k, hk⟩ := ih js (by simpa using h) fun x hx => by
              simpa using hb (x + 1) (by simpa using hx)
            exact ⟨_, pos_cons.2 ⟨by simpa using hb 0 (by simp), k, hk, rfl⟩⟩
      refine key shape idx e1 fun x hx => ?_
      obtain ⟨n, hn, rfl⟩ := List.getElem_of_mem (hp.symm.subset (List.mem_range.2 hx))
      have := hb n (by simpa [permuted] using hn)
      rw [← e2] at this
      simpa [permuted, List.getD_eq_getElem?_getD, hn] using this
    obtain ⟨k, hk⟩ := hin
    obtain ⟨k', f1, f2⟩ := conv idx k hk
    rw [e2, hj] at f1
    injection f1 with f1
    subst f1
    exact ⟨k, by rw [hl]; exact (pos_lt hk).1, f2⟩
  obtain ⟨r, r1, r2, r3⟩ := mapM_range (n := l.length) (f := fun i =>
    (convertTransposedIndexToOriginalIndex shape l.length perm i).bind fun k => l[k]?) (by
      intro i hi
      obtain ⟨k, hk, e⟩ := surj i hi
      exact ⟨l[k], by rw [e]; simp [hk]⟩)
  refine ⟨r, ?_, by rw [r2, hl, hperm], ?_⟩
  · unfold foldTranspose
    rw [if_neg (by omega)]
    exact r1
  · intro idx k h
    obtain ⟨k', f1, f2⟩ := conv idx k h
    refine ⟨⟨k', f1⟩, ?_⟩
    unfold elem
    rw [f1, h, Option.bind_some, Option.bind_some,
      r3 k' (by rw [hl, ← hperm]; exact (pos_lt f1).1), f2, Option.bind_some]

/-- A 2 x 3 matrix. -/
example : foldTranspose [1, 2, 3, 4, 5, 6] [2, 3] [1, 0] = some [1, 4, 2, 5, 3, 6] ∧
    [1, 0].Perm (List.range [2, 3].length) := by decide

/-- C64: the folded broadcast has at every index the element of the constant at the index without
the added dimensions.

Partial: for constants of fewer than 2^31 elements; their positions are computed in `int`. -/
theorem C64_broadcast_partial {l : List α} {outShape dims : List Nat}
    (hl : l.length = (without dims outShape).prod)
    (hs : (without dims outShape).prod < 2147483648) : ∃ r,
      foldBroadcast l (without dims outShape) outShape dims = some r ∧ r.length = outShape.prod ∧
      ∀ idx k, pos outShape idx = some k →
        elem r outShape idx = elem l (without dims outShape) (without dims idx) := by
  have one : ∀ idx k, pos outShape idx = some k →
      ((getIndicesFromRowMajorShape k outShape).bind fun is =>
        readFlat l (without dims outShape) (keep dims 0 is)) =
        elem l (without dims outShape) (without dims idx) ∧
      ∃ a, elem l (without dims outShape) (without dims idx) = some a := by
    intro idx k h
    obtain ⟨k', hk'⟩ := without_pos (dims := dims) (n := 0) h
    rw [keep_zero, keep_zero] at hk'
    refine ⟨?_, ?_⟩
    · rw [indices_of_pos h, Option.bind_some, keep_zero, readFlat_eq hk' hs]
      unfold elem
      rw [hk', Option.bind_some]
    · have hlt : k' < l.length := by rw [hl]; exact (pos_lt hk').1
      refine ⟨l[k'], ?_⟩
      unfold elem
      rw [hk']
      simp [hlt]
  obtain ⟨r, r1, r2, r3⟩ := mapM_range (n := outShape.prod) (f := fun i =>
    (getIndicesFromRowMajorShape i outShape).bind fun is =>
      readFlat l (without dims outShape) (keep dims 0 is)) (by
      intro i hi
      obtain ⟨is, -, h2⟩ := unflatten_pos hi
      obtain ⟨e, a, ha⟩ := one is i h2
      exact ⟨a, e.trans ha⟩)
  refine ⟨r, ?_, r2, ?_⟩
  · unfold foldBroadcast
    rw [foldl_mul]
    exact r1
  · intro idx k h
    rw [← (one idx k h).1]
    unfold elem
    rw [h, Option.bind_some, r3 k (pos_lt h).1]

/-- A vector of 2 along the last dimension of 2 x 3, and of 3 along the first. -/
example : foldBroadcast [1, 2] (without [1] [2, 3]) [2, 3] [1] = some [1, 1, 1, 2, 2, 2] ∧
    foldBroadcast [1, 2, 3] (without [0] [2, 3]) [2, 3] [0] = some [1, 2, 3, 1, 2, 3] := by decide

/-- C64: the folded slice of a broadcast has at every index the element of the constant at the
source index without the added dimensions, for slices that stay inside.

Partial: for constants of fewer than 2^31 elements. -/
theorem C64_slice_partial {l : List α} {bShape dims offsets strides resultShape : List Nat}
    {dropped : List Bool} (hl : l.length = (without dims bShape).prod)
    (hs : (without dims bShape).prod < 2147483648)
    (hin : ∀ idx k, pos resultShape idx = some k → ∃ full k',
      SliceIndex dropped offsets strides idx full ∧ pos bShape full = some k') : ∃ r,
      foldBroadcastSlice l (without dims bShape) dims dropped offsets strides resultShape = some r ∧
      r.length = resultShape.prod ∧
      ∀ idx k, pos resultShape idx = some k → ∀ full, SliceIndex dropped offsets strides idx full →
        elem r resultShape idx = elem l (without dims bShape) (without dims full) := by
  have one : ∀ idx k, pos resultShape idx = some k → ∀ full,
      SliceIndex dropped offsets strides idx full →
      ((getIndicesFromRowMajorShape k resultShape).bind fun is =>
        (fullSourceIndices dropped offsets strides is).bind fun full =>
        readFlat l (without dims bShape) (keep dims 0 full)) =
        elem l (without dims bShape) (without dims full) ∧
      ∃ a, elem l (without dims bShape) (without dims full) = some a := by
    intro idx k h full hf
    obtain ⟨full', k₁, hf', hb⟩ := hin idx k h
    have : full' = full := Option.some.inj ((full_spec hf').symm.trans (full_spec hf))
    subst this
    obtain ⟨k', hk'⟩ := without_pos (dims := dims) (n := 0) hb
    rw [keep_zero, keep_zero] at hk'
    refine ⟨?_, ?_⟩
    · rw [indices_of_pos h, Option.bind_some, full_spec hf, Option.bind_some, keep_zero,
        readFlat_eq hk' hs]
      unfold elem
      rw [hk', Option.bind_some]
    · have hlt : k' < l.length := by rw [hl]; exact (pos_lt hk').1
      refine ⟨l[k'], ?_⟩
      unfold elem
      rw [hk']
      simp [hlt]
  obtain ⟨r, r1, r2, r3⟩ := mapM_range (n := resultShape.prod) (f := fun i =>
    (getIndicesFromRowMajorShape i resultShape).bind fun is =>
      (fullSourceIndices dropped offsets strides is).bind fun full =>
      readFlat l (without dims bShape) (keep dims 0 full)) (by
      intro i hi
      obtain ⟨is, -, h2⟩ := unflatten_pos hi
      obtain ⟨full, k', hf, -⟩ := hin is i h2
      obtain ⟨e, a, ha⟩ := one is i h2 full hf
      exact ⟨a, e.trans ha⟩)
  refine ⟨r, ?_, r2, ?_⟩
  · unfold foldBroadcastSlice
    rw [foldl_mul]
    exact r1
  · intro idx k h full hf
    rw [← (one idx k h full hf).1]
    unfold elem
    rw [h, Option.bind_some, r3 k (pos_lt h).1]

/-- Every other element of row 1 of the broadcast of a vector of 5 to 2 x 5. -/
example : foldBroadcastSlice [1, 2, 3, 4, 5] (without [0] [2, 5]) [0] [true, false] [1, 0] [1, 2] [3] =
    some [1, 3, 5] := by decide

/-- C64 is violated for constants of 2^31 or more elements: the loop counter of the transpose
overflows, and a broadcast reads the constant outside its elements. -/
theorem C64_violated_large (l : List α) :
    (l.length = 2147483648 → foldTranspose l [2147483648] [0] = none) ∧
    readFlat l [32769, 65536] [32768, 0] = none ∧
      pos [32769, 65536] [32768, 0] = some 2147483648 := by
  refine ⟨fun h => by unfold foldTranspose; rw [if_pos (by omega)], ?_, by decide⟩
  have : Forward.getFlattenedIndex [32769, 65536] ([32768, 0].map Int.ofNat) = some (-2147483648) := by
    decide
  unfold readFlat
  rw [this]
  simp

/-! ## Insertions -/

/-- C68: inserting a constant into a constant sets the one element. -/
theorem C68_constant {l : List α} {shape : List Nat} {indices : List Int} {x : α} {k : Nat}
    (hl : l.length = shape.prod) (hd : ∀ d ∈ shape, d < 9223372036854775808)
    (hk : Forward.rowMajor shape indices = some k) :
    ∃ r, insertAfterConstant l shape indices x = some r ∧ r.length = l.length ∧
      ∀ i < l.length, r[i]? = if i = k then some x else l[i]? := by
  have hlt := (Forward.rowMajor_lt hk).1
  unfold insertAfterConstant
  rw [(Forward.attrPosition_eq hk hd).1]
  simp only [hl, hlt, if_true]
  refine ⟨_, rfl, by simp [hl], fun i hi => ?_⟩
  rw [List.getElem?_set]
  by_cases h : k = i
  · subst h
    rw [if_pos rfl, if_pos (by omega), if_pos rfl]
  · rw [if_neg h, if_neg (Ne.symm h)]

example : insertAfterConstant [1, 2, 3, 4, 5, 6] [2, 3] [1, 1] 9 = some [1, 2, 3, 4, 9, 6] := by decide

theorem chain_shape (l : List α) (shape : List Nat) (sh : Nat → List Nat) : ∀ (chain : List Insert)
    (t : Forward.Tensor α), t.shape sh = shape →
    (chain.foldl (fun t i => .insert i.scalar t i.indices) t).shape sh = shape
  | [], _, h => h
  | _ :: chain, _, h => chain_shape l shape sh chain _ h

/-- C68: the operands of `tensor.from_elements` are the elements of the tensor after the chain of
insertions.

Partial: for fewer than 2^31 elements. -/
theorem C68_from_elements_partial {V : Type} {l : List α} {shape : List Nat} {chain : List Insert}
    {r : List (Forward.Found α)} (h : insertIntoFromElements l shape chain = .new r)
    (hs : shape.prod < 2147483648) {sh : Nat → List Nat}
    {env : Nat → Int} {sc : Nat → V} {lit : α → V} {arr : Nat → Nat → V} {k : Nat} {v : V}
    (hv : (chainTensor l shape chain).read sh env sc lit arr k = some v) :
    r.length = shape.prod ∧ ∃ f, r[k]? = some f ∧ f.eval sc lit = v := by
  -- the map holds what was inserted so far
  have key : ∀ (chain : List Insert) (t : Forward.Tensor α) (m m' : List (Int × Nat)),
      collect shape chain m = .new m' → t.shape sh = shape →
      (∀ k v, t.read sh env sc lit arr k = some v → k < shape.prod ∧
        ((m.lookup (k : Int)).map sc = some v ∨
          m.lookup (k : Int) = none ∧ (l[k]?).map lit = some v)) →
      ∀ k v, (chain.foldl (fun t i => Forward.Tensor.insert i.scalar t i.indices) t).read
        sh env sc lit arr k = some v → k < shape.prod ∧
        ((m'.lookup (k : Int)).map sc = some v ∨
          m'.lookup (k : Int) = none ∧ (l[k]?).map lit = some v) := by
    intro chain
    induction chain with
    | nil =>
      intro t m m' hc _ hm
      injection hc with hc
      subst hc
      exact hm
    | cons i chain ih =>
      intro t m m' hc ht hm
      unfold collect at hc
      split at hc
      · exact absurd hc (by simp)
      · rename_i is hi
        split at hc
        · exact absurd hc (by simp)
        · rename_i j hj
          split at hc
          · exact absurd hc (by simp)
          · rename_i hdup
            split at hc
            · exact absurd hc (by simp)
            · refine ih (.insert i.scalar t i.indices) _ m' hc ht ?_
              intro k v hr
              unfold Forward.Tensor.read at hr
              obtain ⟨k', hk', hr⟩ := Option.bind_eq_some_iff.1 hr
              rw [ht, Forward.constInts_eval hi] at hk'
              rw [Forward.getFlattenedIndex_eq hk' hs] at hj
              injection hj with hj
              subst hj
              have hlt := (Forward.rowMajor_lt hk').1
              by_cases e : k' = k
              · subst e
                rw [if_pos rfl] at hr
                injection hr with hr
                subst hr
                refine ⟨hlt, Or.inl ?_⟩
                simp [List.lookup]
              · rw [if_neg e] at hr
                obtain ⟨h1, h2⟩ := hm k v hr
                refine ⟨h1, ?_⟩
                have : ((k : Int) == (k' : Int)) = false := by
                  rw [beq_eq_false_iff_ne]; exact_mod_cast Ne.symm e
                simpa [List.lookup, this] using h2
  unfold insertIntoFromElements at h
  split at h
  · exact absurd h (by simp)
  · exact absurd h (by simp)
  · rename_i m hm
    split at h
    · rename_i r' hr'
      injection h with h
      subst h
      obtain ⟨hk, hor⟩ := key chain (.dense l shape) [] m hm rfl (by
        intro k v hr
        unfold Forward.Tensor.read at hr
        split at hr
        · rename_i hlt
          exact ⟨hlt, Or.inr ⟨rfl, hr⟩⟩
        · exact absurd hr (by simp)) k v hv
      rw [foldl_mul] at hr'
      have hall : ∀ i < shape.prod, ∃ b, element m l i = some b := by
        intro i hi
        have gen : ∀ {β : Type} (f : Nat → Option β) (q : List Nat) (r : List β), q.mapM f = some r →
            ∀ x ∈ q, ∃ b, f x = some b := by
          intro β f q
          induction q with
          | nil => intro r _ x hx; exact absurd hx (by simp)
          | cons a q ih =>
            intro r hr x hx
            rw [List.mapM_cons] at hr
            obtain ⟨b, hb, hr⟩ := Option.bind_eq_some_iff.1 hr
            obtain ⟨bs, hbs, -⟩ := Option.bind_eq_some_iff.1 hr
            rcases List.mem_cons.1 hx with rfl | hx
            · exact ⟨b, hb⟩
            · exact ih bs hbs x hx
        exact gen _ _ _ hr' i (List.mem_range.2 hi)
      obtain ⟨r, r1, r2, r3⟩ := mapM_range hall
      rw [r1] at hr'
      injection hr' with hr'
      subst hr'
      refine ⟨r2, ?_⟩
      rw [r3 k hk]
      unfold element
      rcases hor with ho | ⟨ho1, ho2⟩
      · obtain ⟨n, hn, e⟩ := Option.map_eq_some_iff.1 ho
        rw [hn]
        exact ⟨_, rfl, e⟩
      · rw [ho1]
        obtain ⟨a, ha, e⟩ := Option.map_eq_some_iff.1 ho2
        rw [ha]
        exact ⟨_, rfl, e⟩
    · exact absurd h (by simp)

/-- Two insertions into a constant of 4; a repeated index is refused. -/
example : insertIntoFromElements [10, 20, 30, 40] [4] [⟨7, [.const 2], true⟩, ⟨8, [.const 0], true⟩] =
      .new [.value 8, .attr 20, .value 7, .attr 40] ∧
    insertIntoFromElements [10, 20, 30, 40] [4] [⟨7, [.const 2], true⟩, ⟨8, [.const 2], true⟩] = .fail ∧
    (chainTensor [10, 20, 30, 40] [4] [⟨7, [.const 2], true⟩, ⟨8, [.const 0], true⟩]).read
      (fun _ => []) (fun _ => 0) (fun n => n) id (fun _ _ => 0) 2 = some 7 := by decide

/-- C68: an insertion whose result has another use is left alone, so no user sees a tensor with
later insertions. -/
theorem C68_single_use {l : List α} {shape : List Nat} {chain : List Insert}
    {r : List (Forward.Found α)} (h : insertIntoFromElements l shape chain = .new r) :
    ∀ i ∈ chain, i.oneUse = true := by
  have key : ∀ (chain : List Insert) (m m' : List (Int × Nat)), collect shape chain m = .new m' →
      ∀ i ∈ chain, i.oneUse = true := by
    intro chain
    induction chain with
    | nil => intro m m' _ i hi; exact absurd hi (by simp)
    | cons i chain ih =>
      intro m m' hc x hx
      unfold collect at hc
      split at hc
      · exact absurd hc (by simp)
      · split at hc
        · exact absurd hc (by simp)
        · split at hc
          · exact absurd hc (by simp)
          · split at hc
            · exact absurd hc (by simp)
            · rename_i hu
              rcases List.mem_cons.1 hx with rfl | hx
              · simpa using hu
              · exact ih _ _ hc x hx
  unfold insertIntoFromElements at h
  split at h
  · exact absurd h (by simp)
  · exact absurd h (by simp)
  · rename_i m hm
    exact key chain [] m hm

/-- C68 is violated from 2^31 elements on: an insertion at element (1, 0, 0) of a 2 x 65536 x 65536
tensor is recorded as one at element 0. -/
theorem C68_violated_large : collect [2, 65536, 65536] [⟨7, [.const 1, .const 0, .const 0], true⟩] [] =
      .new [(0, 7)] ∧ pos [2, 65536, 65536] [1, 0, 0] = some 4294967296 := by decide

end Heir.Fold
