import Verif.TensorOps.Slices

/-! # Properties of the passes that take tensors apart -/

namespace Heir.TensorOps

/-! ### C187: tensors as scalars -/

/-- C187: the scalars taken from a tensor are its elements, each at the place at which it is read and
written, for tensors with at least one dimension and one element. -/
theorem C187_elements {α : Type} {shape : List Nat} (hne : shape ≠ []) (hpos : ∀ d ∈ shape, 0 < d)
    (t : List Nat → α) : ∃ vals, buildExtractOps shape t = some vals ∧ vals.length = shape.prod ∧
      ∀ idx ∈ box shape, convertExtract shape vals idx = some (t idx) := by
  obtain ⟨h1, h2⟩ := indices_spec hne hpos
  refine ⟨_, by rw [buildExtractOps, if_neg hne], by rw [List.length_map, h1], ?_⟩
  intro idx h
  rw [convertExtract, List.getElem?_map, h2 idx (mem_box.1 h)]
  rfl

/-- C187: inserting into the scalars is inserting into the tensor. -/
theorem C187_insert {α : Type} {shape : List Nat} (vals : List α) (hl : vals.length = shape.prod)
    {idx : List Nat} (h : idx ∈ box shape) (x : α) :
    ∃ out, convertInsert shape vals idx x = some out ∧ out.length = vals.length ∧
      ∀ j ∈ box shape, convertExtract shape out j =
        if j = idx then some x else convertExtract shape vals j := by
  have hb := mem_box.1 h
  have hlt : offset shape idx < vals.length := hl ▸ offset_lt hb
  refine ⟨_, by rw [convertInsert, if_pos hlt], by simp, ?_⟩
  intro j hj
  rw [convertExtract, convertExtract]
  split
  · rename_i he
    rw [he, List.getElem?_set_self hlt]
  · rename_i he
    refine List.getElem?_set_ne fun hc => he ?_
    by_cases hs : shape = []
    · subst hs
      cases hb
      cases mem_box.1 hj
      rfl
    · have hpos : ∀ d ∈ shape, 0 < d := by
        intro d hd
        obtain ⟨i, hi, hlt⟩ : ∃ i, i ∈ idx ∧ i < d := by
          have : ∀ {s is : List Nat}, InBox s is → d ∈ s → ∃ i, i ∈ is ∧ i < d := by
            intro s is hb
            induction hb with
            | nil => intro h; simp at h
            | @cons a b _ _ h1 _ ih =>
              intro h
              rcases List.mem_cons.1 h with rfl | h
              · exact ⟨b, List.mem_cons_self, h1⟩
              · obtain ⟨i, h2, h3⟩ := ih h
                exact ⟨i, List.mem_cons_of_mem _ h2, h3⟩
          exact this hb hd
        omega
      have h3 := (indices_spec hs hpos).2 idx hb
      have h4 := (indices_spec hs hpos).2 j (mem_box.1 hj)
      rw [hc, h4] at h3
      exact Option.some.inj h3

theorem indices_line (n : Nat) : getAllIndices [n] = box [n] := by
  simp [getAllIndices, extend, box]

theorem offset_line (n : Nat) {idx : List Nat} (h : idx ∈ box [n]) :
    (box [n])[offset [n] idx]? = some idx := by
  cases mem_box.1 h with
  | cons h1 h2 =>
    cases h2
    have e : box [n] = (List.range n).map fun i => [i] := by
      rw [box]
      simp only [box, List.map_cons, List.map_nil]
      exact List.flatMap_pure_eq_map (fun i => [i]) _
    rw [e, List.getElem?_map, offset]
    simp [offsetLoop, h1]

/-- C187, for tensors of one dimension: constants and the operands of `tensor.from_elements` are in the
order in which they are read, and a tensor is taken apart and put together again unchanged.  Missing:
tensors of more dimensions. -/
theorem C187_order_partial {α : Type} (n : Nat) (t : List Nat → α) {idx : List Nat}
    (h : idx ∈ box [n]) :
    convertExtract [n] (convertConstant [n] t) idx = some (t idx) ∧
    (∀ vals : List α, vals.length = n →
      convertExtract [n] (convertFromElements vals) idx = fromElements [n] vals idx) ∧
    ∃ vals, buildExtractOps [n] t = some vals ∧ buildFromElements [n] vals idx = some (t idx) := by
  have ho := offset_line n h
  have hi : (box [n]).idxOf idx = offset [n] idx := by
    have hlt : offset [n] idx < (box [n]).length := by
      by_contra hc
      rw [List.getElem?_eq_none (by omega)] at ho
      simp at ho
    rw [List.getElem?_eq_getElem hlt, Option.some.injEq] at ho
    conv_lhs => rw [← ho]
    exact (box_nodup [n]).idxOf_getElem _ hlt
  refine ⟨?_, ?_, _, by rw [buildExtractOps, if_neg (by simp)], ?_⟩
  · rw [convertExtract, convertConstant, List.getElem?_map, ho]; rfl
  · intro vals _
    rw [convertExtract, convertFromElements, fromElements, hi]
  · rw [buildFromElements, fromElements, hi, indices_line, List.getElem?_map, ho]; rfl

/-- C187 fails for two dimensions: constants are stored with the last index running fastest and read
with the first one running fastest. -/
theorem C187_violated_constant : ∃ idx ∈ box [2, 2], convertExtract [2, 2]
    (convertConstant [2, 2] fun i => i) idx ≠ some idx := ⟨[0, 1], by decide, by decide⟩

/-- C187 fails for two dimensions: a tensor that is taken apart and put together is transposed. -/
theorem C187_violated_transposed {α : Type} (t : List Nat → α) :
    ∃ vals, buildExtractOps [2, 2] t = some vals ∧
      buildFromElements [2, 2] vals [0, 1] = some (t [1, 0]) ∧
      buildFromElements [2, 2] vals [1, 0] = some (t [0, 1]) :=
  ⟨[t [0, 0], t [1, 0], t [0, 1], t [1, 1]], rfl, rfl, rfl⟩

/-- C187 fails for tensors without dimensions, which have one element, and for tensors of shape `0x3`,
which have none and of which three are taken. -/
theorem C187_violated_empty {α : Type} (t : List Nat → α) : buildExtractOps [] t = none ∧
    buildExtractOps [0, 3] t = some [t [0], t [1], t [2]] := ⟨rfl, rfl⟩

example : getAllIndices [2, 3] = [[0, 0], [1, 0], [0, 1], [1, 1], [0, 2], [1, 2]] := by decide

example : convertExtract [2, 3] [10, 11, 12, 13, 14, 15] [1, 2] = some 15 ∧
    convertInsert [2, 3] [10, 11, 12, 13, 14, 15] [1, 1] 0 = some [10, 11, 12, 0, 14, 15] := by decide

/-! ### C188: operations on elements -/

/-- An operand has the dimensions that are mapped over. -/
def Fits {α : Type} (shape : List Nat) : Operand α → Prop
  | .prefix n rank _ => n ≤ shape.length ∧ n ≤ rank
  | _ => True

/-- C188, for results with at least one dimension: every element of the result is the operation applied
to the elements, slices and whole operands that belong to it.  Missing: results without
dimensions. -/
theorem C188_loops_partial {α : Type} (op : List (Arg α) → α) (operands : List (Operand α))
    {shape : List Nat} (hne : shape ≠ []) (ho : ∀ o ∈ operands, Fits shape o) (e : List Nat → α) :
    ∃ r, elementwise op operands shape e = some r ∧
      ∀ idx ∈ box shape, r idx = op (operands.map (Operand.get idx)) := by
  refine ⟨_, by rw [elementwise, if_neg hne], ?_⟩
  intro idx h
  rw [elementLoops_eq]
  have e1 : (box shape).map (([] : List Nat) ++ ·) = box shape := by simp
  rw [e1]
  have := (foldl_put id (fun p _ => op (operands.map (newOperand p))) (box shape) (box_nodup shape)
    (fun p _ q _ hpq => hpq) e).1 idx h
  simp only [id] at this
  rw [this]
  congr 1
  refine List.map_congr_left fun o hmem => ?_
  cases o with
  | whole a => rfl
  | elems t => rfl
  | «prefix» n rank t =>
    have hf := ho _ hmem
    simp only [Fits] at hf
    have hlen : idx.length = shape.length := (mem_box.1 h).length_eq.symm
    simp only [newOperand, Operand.get, Arg.sub.injEq, true_and]
    funext rest
    split
    · rename_i hr
      rw [sliceIndex_eq n idx (by omega) rank 0 rest (by omega), List.drop_zero,
        List.take_of_length_le (by rw [List.length_take]; omega)]
    · rfl

/-- C188 fails for results without dimensions: there is no loop to replace the operation. -/
theorem C188_violated_rank_zero {α : Type} (op : List (Arg α) → α) (operands : List (Operand α))
    (e : List Nat → α) : elementwise op operands [] e = none := rfl

example : Fits (α := Nat) [2, 3] (.prefix 2 4 fun i => i.sum) := by simp [Fits]

example : (elementwise (α := Nat) (fun as => (as.map fun | .elem a => a | .sub _ t => (t [5]).getD 0).sum)
    [.elems fun i => i.sum, .whole (.elem 100), .prefix 1 2 fun i => 10 * i.sum] [2, 2]
    (fun _ => 7)).map (fun r => (box [2, 2]).map r) = some [150, 151, 161, 162] := by decide

/-! ### C189: `linalg.generic` -/

/-- C189, for bodies without `linalg.index`: the loops compute what the operation computes, for all
sizes, operands and indexing maps, also for reductions and several results.  Missing: bodies with
`linalg.index`. -/
theorem C189_loops_partial {α : Type} (g : Generic α) (hb : ∀ p vs, g.body (some p) vs = g.body none vs)
    (outs : List (List Nat → α)) : lowerGeneric g outs = g.run outs := by
  rw [lowerGeneric, carriedLoops_eq, Generic.run]
  have e1 : (box g.sizes).map (([] : List Nat) ++ ·) = box g.sizes := by simp
  rw [e1]
  congr 1
  funext o p
  simp only [scalarImpl, Generic.point, hb]

/-- C189: for one result whose indexing map is injective, every element of the result is the body
applied to the elements that belong to it, and the others are kept. -/
theorem C189_pointwise {α : Type} (g : Generic α) (m : List Nat → List Nat) (hm : g.maps = [m])
    (F : List α → α) (hb : ∀ p vs, g.body p vs = some [F vs])
    (hinj : ∀ p ∈ box g.sizes, ∀ q ∈ box g.sizes, m p = m q → p = q) (t : List Nat → α) :
    ∃ r, lowerGeneric g [t] = some [r] ∧
      (∀ p ∈ box g.sizes, r (m p) = F (g.ins.map (Input.read p) ++ [t (m p)])) ∧
      ∀ x, (∀ p ∈ box g.sizes, m p ≠ x) → r x = t x := by
  have key : ∀ (l : List (List Nat)) (t : List Nat → α), l.foldlM g.point [t] =
      some [l.foldl (fun t p => put t (m p) (F (g.ins.map (Input.read p) ++ [t (m p)]))) t] := by
    intro l
    induction l with
    | nil => intro t; rfl
    | cons p ps ih =>
      intro t
      rw [List.foldlM_cons, List.foldl_cons]
      have : g.point [t] p = some [put t (m p) (F (g.ins.map (Input.read p) ++ [t (m p)]))] := by
        simp [Generic.point, hb, hm, current, written]
      rw [this]
      exact ih _
  rw [C189_loops_partial g (fun p vs => by rw [hb, hb]), Generic.run, key]
  obtain ⟨h1, h2⟩ := foldl_put m (fun p v => F (g.ins.map (Input.read p) ++ [v])) (box g.sizes)
    (box_nodup _) hinj t
  exact ⟨_, rfl, h1, h2⟩

/-- C189 fails for bodies with `linalg.index`, which is cloned into the loops. -/
theorem C189_violated_index : ∃ g : Generic Nat, (g.run [fun _ => 0]).map (fun o => o.map (· [1])) = some [1] ∧
    (lowerGeneric g [fun _ => 0]).isNone :=
  ⟨⟨[2], [], [id], fun p _ => p.map fun p => [p.headD 0]⟩, by decide, by decide⟩

/-- A matrix product. -/
def product : Generic Nat :=
  ⟨[2, 2, 3], [.tensor (fun p => [p.getD 0 0, p.getD 2 0]) (fun i => i.getD 0 0 + 2 * i.getD 1 0),
    .tensor (fun p => [p.getD 2 0, p.getD 1 0]) (fun i => 1 + i.getD 0 0 * i.getD 1 0), .scalar 2],
    [fun p => [p.getD 0 0, p.getD 1 0]],
    fun _ vs => some [vs.getD 0 0 * vs.getD 1 0 * vs.getD 2 0 + vs.getD 3 0]⟩

example : (lowerGeneric product [fun _ => 0]).map (fun o => o.map fun t => (box [2, 2]).map t) =
    some [[12, 32, 18, 44]] := by decide

/-! ### C190: inserted slices -/

/-- C190, for static offsets and tensors without dimensions of size one: the value that replaces an
extracted slice has the elements of the slice.  Missing: dynamic offsets, and slices that keep
dimensions of size one. -/
theorem C190_forward_partial {α : Type} (drop : List Nat → List Nat → List Nat → List Nat)
    {env : Nat → Nat} {destShape shape : List Nat} {sl : List Dim} (hsl : Fine env destShape shape sl)
    (prog : Prog α) (hp : AllFine env destShape prog) {w : List Nat → Option α}
    (h : forward destShape shape sl prog = some w) {k : List Nat} (hk : k ∈ box (sl.map Dim.size)) :
    prog.at drop env (place env sl k) = w (drop (sl.map Dim.size) shape k) := by
  induction prog with
  | other t => simp [forward] at h
  | empty =>
    simp only [forward, Option.some.injEq] at h
    rw [← h]; rfl
  | insert v shape' sl' dest ih =>
    rw [forward] at h
    split at h
    · rename_i hs
      obtain ⟨rfl, rfl⟩ := hs
      rw [Option.some.injEq] at h
      subst h
      exact at_insert_same drop env (fun d hd => (hsl.static d hd).2.1) hk
    · split at h
      · rename_i hd
        rw [at_insert_other drop env fun k' hk' => (disjoint_iff hp.1 hsl).1 hd k' hk' k hk]
        exact ih hp.2 h
      · simp at h

/-- C190: for such slices, an insertion is looked through exactly if it writes no element of the
extracted slice. -/
theorem C190_disjoint {env : Nat → Nat} {destShape shape shape' : List Nat} {sl sl' : List Dim}
    (h : Fine env destShape shape sl) (h' : Fine env destShape shape' sl') :
    disjoint destShape sl shape sl' shape' = true ↔ ∀ k ∈ box (sl.map Dim.size),
      ∀ k' ∈ box (sl'.map Dim.size), place env sl k ≠ place env sl' k' := disjoint_iff h h'

/-- C190 fails for dynamic offsets: the number that stands for a dynamic offset is taken for an offset,
outside of the tensor, and the insertion is looked through. -/
theorem C190_violated_dynamic : ∃ (prog : Prog Nat) (sl : List Dim) (env : Nat → Nat),
    (forward [4] [] sl prog).map (· []) = some (some 1) ∧
    ∀ drop, prog.at drop env (place env sl [0]) = some 2 :=
  ⟨.insert (fun _ => some 2) [] [⟨.dyn 0, 1, 1⟩]
    (.insert (fun _ => some 1) [] [⟨.static 0, 1, 1⟩] .empty), [⟨.static 0, 1, 1⟩], fun _ => 0, by decide,
    fun _ => rfl⟩

/-- C190 fails for slices that keep a dimension of size one: a `1x4` slice is taken for its first
element. -/
theorem C190_violated_unit : ∃ (prog : Prog Nat) (sl : List Dim) (env : Nat → Nat),
    (forward [2, 4] [1, 1] sl prog).map (· [0, 0]) = some (some 1) ∧
    ∀ drop, prog.at drop env (place env sl [0, 0]) = some 2 :=
  ⟨.insert (fun _ => some 2) [1, 4] [⟨.static 0, 1, 1⟩, ⟨.static 0, 4, 1⟩]
    (.insert (fun _ => some 1) [1, 1] [⟨.static 0, 1, 1⟩, ⟨.static 1, 1, 1⟩] .empty),
    [⟨.static 0, 1, 1⟩, ⟨.static 1, 1, 1⟩], fun _ => 0, by decide, fun _ => rfl⟩

/-- Slices of rows, of which the second does not meet the third. -/
def rows : Prog Nat :=
  .insert (fun i => i[0]?) [2] [⟨.static 0, 1, 1⟩, ⟨.static 1, 2, 2⟩]
    (.insert (fun i => (i[0]?).map (10 + ·)) [3] [⟨.static 1, 1, 1⟩, ⟨.static 0, 3, 1⟩] .empty)

example : Fine (fun _ => 0) [2, 4] [3] [⟨.static 1, 1, 1⟩, ⟨.static 0, 3, 1⟩] ∧
    AllFine (fun _ => 0) [2, 4] rows ∧
    (forward [2, 4] [3] [⟨.static 1, 1, 1⟩, ⟨.static 0, 3, 1⟩] rows).map (· [2]) = some (some 12) := by
  refine ⟨⟨by simp, by decide, by decide⟩, ⟨⟨by simp, by decide, by decide⟩, ⟨by simp, by decide, by decide⟩,
    trivial⟩, by decide⟩

end Heir.TensorOps
