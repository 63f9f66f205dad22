import Verif.Linalg.Lemmas
import Verif.Linalg.Shape

/-! # Properties of the element-wise and broadcast rewrites -/

namespace Heir.Linalg

variable {V ι α : Type}

open Fold (pos elem without)

/-! ## Element-wise ops -/

theorem mapM_range_getElem {β : Type} : ∀ (l : List β) (p : List β),
    (List.range' p.length l.length).mapM (fun k => (p ++ l)[k]?) = some l
  | [], _ => by simp
  | x :: l, p => by
    have ih := mapM_range_getElem l (p ++ [x])
    rw [List.length_append, List.append_assoc] at ih
    rw [List.length_cons, List.range'_succ, List.mapM_cons, List.getElem?_append_right (Nat.le_refl _)]
    simp only [Nat.sub_self, List.getElem?_cons_zero]
    rw [show (p ++ x :: l) = p ++ ([x] ++ l) from rfl]
    simp only [List.length_cons, List.length_nil] at ih
    rw [Nat.zero_add] at ih
    rw [ih]
    rfl

/-- C65: the op that replaces a `linalg.map` computes what its body yields.

Partial: the body's op uses the inputs in order, has the attributes of the `linalg.map`, and its
result is yielded; the pattern checks none of it. -/
theorem C65_map_partial {elementwise : Nat → Bool} {m : MapOp} {op : Op Val} {new : Op Nat}
    (h : mapToElementwise elementwise m = some new) (hb : m.body = [op])
    (ho : op.operands = (List.range m.numInputs).map Val.arg) (ha : op.attrs = m.attrs)
    (hy : m.yielded = .res 0) {sem : Nat → Nat → List V → V} {tensors : List (ι → V)}
    (ht : tensors.length = m.numInputs) (outer : Nat → V) (i : ι) :
    ∃ v, evalElementwise sem tensors new i = some v ∧
      evalYield sem (tensors.map (· i)) outer m.body [m.yielded] = some [v] := by
  unfold mapToElementwise at h
  rw [hb] at h
  simp only at h
  split at h
  · injection h with h
    subst h
    have e1 : (List.range m.numInputs).mapM (fun k => tensors[k]?) = some tensors := by
      have := mapM_range_getElem tensors []
      rw [List.nil_append, List.length_nil, ht, ← List.range_eq_range'] at this
      exact this
    refine ⟨sem op.name m.attrs (tensors.map (· i)), ?_, ?_⟩
    · unfold evalElementwise
      rw [e1]
      rfl
    · unfold evalYield
      rw [hb, evalBody, ho, hy]
      have e2 : ((List.range m.numInputs).map Val.arg).mapM
          (Val.eval (tensors.map (· i)) outer []) = some (tensors.map (· i)) := by
        rw [List.mapM_map]
        have := mapM_range_getElem (tensors.map (· i)) []
        rw [List.nil_append, List.length_nil, List.length_map, ht, ← List.range_eq_range'] at this
        exact this
      rw [e2, ha]
      rfl
  · exact absurd h (by simp)

/-- Subtraction of two tensors. -/
def subMap (operands : List Val) (yielded : Val) : MapOp := ⟨2, 0, [⟨0, 0, operands⟩], yielded⟩

/-- Subtraction for any attributes but 1, with which it multiplies. -/
def arithSem : Nat → Nat → List Int → Int
  | _, 0, [x, y] => x - y
  | _, 1, [x, y] => x * y
  | _, _, _ => 0

example : mapToElementwise (fun _ => true) (subMap [.arg 0, .arg 1] (.res 0)) = some ⟨0, 0, [0, 1]⟩ ∧
    evalElementwise arithSem [fun _ : Unit => 5, fun _ => 3] ⟨0, 0, [0, 1]⟩ () = some 2 := by decide

/-- C65 is violated by a body that subtracts its first argument from its second. -/
theorem C65_violated_swapped : ∃ new,
    mapToElementwise (fun _ => true) (subMap [.arg 1, .arg 0] (.res 0)) = some new ∧
    evalElementwise arithSem [fun _ : Unit => 5, fun _ => 3] new () = some 2 ∧
    evalYield arithSem [5, 3] (fun _ => 0) (subMap [.arg 1, .arg 0] (.res 0)).body [.res 0] =
      some [-2] := ⟨⟨0, 0, [0, 1]⟩, by decide, by decide, by decide⟩

/-- C65 is violated by a body that subtracts an outer value. -/
theorem C65_violated_outer : ∃ new,
    mapToElementwise (fun _ => true) (subMap [.arg 0, .outer 0] (.res 0)) = some new ∧
    evalElementwise arithSem [fun _ : Unit => 5, fun _ => 3] new () = some 2 ∧
    evalYield arithSem [5, 3] (fun _ => 1) (subMap [.arg 0, .outer 0] (.res 0)).body [.res 0] =
      some [4] := ⟨⟨0, 0, [0, 1]⟩, by decide, by decide, by decide⟩

/-- C65 is violated by a body that yields an argument. -/
theorem C65_violated_yield : ∃ new,
    mapToElementwise (fun _ => true) (subMap [.arg 0, .arg 1] (.arg 0)) = some new ∧
    evalElementwise arithSem [fun _ : Unit => 5, fun _ => 3] new () = some 2 ∧
    evalYield arithSem [5, 3] (fun _ => 0) (subMap [.arg 0, .arg 1] (.arg 0)).body [.arg 0] =
      some [5] := ⟨⟨0, 0, [0, 1]⟩, by decide, by decide, by decide⟩

/-- C65 is violated by an op with attributes: they are replaced by those of the `linalg.map`. -/
theorem C65_violated_attrs : ∃ new,
    mapToElementwise (fun _ => true) ⟨2, 0, [⟨0, 1, [.arg 0, .arg 1]⟩], .res 0⟩ = some new ∧
    evalElementwise arithSem [fun _ : Unit => 5, fun _ => 3] new () = some 2 ∧
    evalYield arithSem [5, 3] (fun _ => 0) [⟨0, 1, [.arg 0, .arg 1]⟩] [.res 0] = some [15] :=
  ⟨⟨0, 0, [0, 1]⟩, by decide, by decide, by decide⟩

/-- C65: the tensor ops that replace a `linalg.generic` compute at every index what its body
yields. -/
theorem C65_generic {nIn nOut : Nat} {body : List (Op Val)} {yielded : List Val}
    {ops : List (Op TVal)} {results : List TVal}
    (h : genericToElementwise nIn nOut body yielded = some (ops, results))
    (sem : Nat → Nat → List V → V) (tensors : List (ι → V)) (outer : Nat → V) (i : ι) :
    evalYield sem (tensors.map (· i)) outer body yielded =
      (evalNew sem tensors outer ops results).map (·.map (· i)) := by
  obtain ⟨rfl, rfl⟩ := generic_eq h
  unfold evalYield evalNew
  have := body_sim sem tensors outer i body []
  rw [List.map_nil] at this
  rw [this]
  cases evalOps sem tensors outer (body.map fun op => ⟨op.name, op.attrs, op.operands.map tr⟩) []
    with
  | none => rfl
  | some rs => exact evals_tr tensors outer rs i yielded

/-- C65: the rewrite succeeds on every body that uses only inputs, outer values and earlier results,
and the new ops are defined. -/
theorem C65_generic_total {nIn nOut : Nat} {body : List (Op Val)} {yielded : List Val}
    (hw : WellFormed nIn 0 body) (ha : ∀ i, Val.arg i ∈ yielded → i < nIn + nOut)
    (hr : ∀ n, Val.res n ∈ yielded → n < body.length) :
    ∃ ops results, genericToElementwise nIn nOut body yielded = some (ops, results) ∧
      ∀ (sem : Nat → Nat → List V → V) (tensors : List (ι → V)) (outer : Nat → V),
        tensors.length = nIn + nOut → (evalNew sem tensors outer ops results).isSome := by
  obtain ⟨bvm, ops, h1, h2, h3⟩ := mapBody_some (ops := []) hw (start_ok (nIn + nOut))
    fun n hn => absurd hn (by omega)
  obtain ⟨rs, h4⟩ := mapM_some (f := mapYield bvm) (l := yielded) (by
    intro v hv
    unfold mapYield
    cases hl : bvm.lookup v with
    | some t => rfl
    | none =>
      cases v with
      | arg i =>
        have := h2 (.arg i) (start_some (ha i hv))
        rw [hl] at this
        exact absurd this (by simp)
      | outer x => rfl
      | res n =>
        have := h3 n (by have := hr n hv; omega)
        rw [hl] at this
        exact absurd this (by simp))
  have hg : genericToElementwise nIn nOut body yielded = some (ops, rs) := by
    unfold genericToElementwise
    simp only [h1, Option.bind_some, h4, Option.map_some]
  refine ⟨ops, rs, hg, fun sem tensors outer ht => ?_⟩
  obtain ⟨rfl, rfl⟩ := generic_eq hg
  obtain ⟨ts, e1, e2⟩ := evalOps_some sem (tensors := tensors) outer (nIn := nIn) (by omega)
    (body := body) (rs := []) hw
  obtain ⟨xs, e3⟩ := mapM_some (f := TVal.eval tensors outer ts) (l := yielded.map tr) (by
    intro t ht'
    obtain ⟨v, hv, rfl⟩ := List.mem_map.1 ht'
    cases v with
    | arg i => have := ha i hv; simp [tr, TVal.eval]; omega
    | outer x => rfl
    | res n =>
      have := hr n hv
      rw [List.length_nil, Nat.zero_add] at e2
      simp [tr, TVal.eval]; omega)
  unfold evalNew
  rw [e1, Option.bind_some, e3]
  rfl

/-- `(x - c) * y`, yielded with the outer value `c` and the initial value. -/
example : genericToElementwise 2 1 [⟨0, 0, [.arg 0, .outer 7]⟩, ⟨0, 1, [.res 0, .arg 1]⟩]
      [.res 1, .outer 7, .arg 2] =
    some ([⟨0, 0, [.operand 0, .splat 7]⟩, ⟨0, 1, [.res 0, .operand 1]⟩],
      [.res 1, .splat 7, .operand 2]) ∧
    WellFormed 2 0 [⟨0, 0, [.arg 0, .outer 7]⟩, ⟨0, 1, [.res 0, .arg 1]⟩] := by
  refine ⟨by decide, ?_, ?_, ?_, ?_, trivial⟩ <;> simp

/-! ## Reshapes -/

/-- C69: the groups are the dimensions in order, and each has one dimension that is no position. If
all dimensions are positions, there are no groups. -/
theorem C69_reassociation (rank : Nat) (positions : List Nat) :
    ((∃ d < rank, d ∉ positions) →
      (getReassociationForReshapeAtDim rank positions).flatten = List.range rank ∧
      ∀ g ∈ getReassociationForReshapeAtDim rank positions,
        (g.filter (· ∉ positions)).length = 1) ∧
    ((∀ d < rank, d ∈ positions) → getReassociationForReshapeAtDim rank positions = []) := by
  refine ⟨fun ⟨d, hd, hn⟩ => ?_, fun h => ?_⟩
  · have := reassociate_spec positions (List.range rank) [] false
      (Or.inr ⟨d, List.mem_range.2 hd, hn⟩) rfl
    rw [List.nil_append] at this
    exact this
  · exact reassociate_all positions _ _ fun d hd => h d (List.mem_range.1 hd)

example : getReassociationForReshapeAtDim 5 [0, 3] = [[0, 1], [2, 3], [4]] ∧
    getReassociationForReshapeAtDim 2 [1, 0] = [] := by decide

/-- C69: when the pattern applies, the reassociation fits the shapes, and the `tensor.expand_shape`,
which keeps the elements in row-major order, has at every index the element of the broadcast. -/
theorem C69_expand_shape {initShape dims : List Nat} {groups : List (List Nat)}
    (h : broadcastToExpandShape initShape (without dims initShape) dims = some groups) :
    groups.map (fun g => (g.map fun d => initShape.getD d 0).prod) = without dims initShape ∧
    (without dims initShape).prod = initShape.prod ∧
    ∀ (l : List α) idx k, pos initShape idx = some k →
      elem l initShape idx = elem l (without dims initShape) (without dims idx) := by
  unfold broadcastToExpandShape at h
  split at h
  · rename_i hr
    injection h with h
    subst h
    have ones := broadcast_ones hr
    have ones' : ∀ i < initShape.length, 0 + i ∈ dims → initShape.getD i 0 = 1 :=
      fun i hi hm => ones i hi (by simpa using hm)
    refine ⟨?_, ?_, ?_⟩
    · rw [keep_map_range]
      obtain ⟨c1, c2⟩ := C69_reassociation initShape.length dims
      by_cases hd : ∃ d < initShape.length, d ∉ dims
      · obtain ⟨e1, e2⟩ := c1 hd
        rw [groups_prod (positions := dims) _ (by
          rw [e1]
          intro d hd hm
          exact ones d (List.mem_range.1 hd) hm) e2, e1]
      · have hall : ∀ d < initShape.length, d ∈ dims := fun d h => by
          by_contra hn
          exact hd ⟨d, h, hn⟩
        rw [c2 hall, List.filter_eq_nil_iff.2]
        · rfl
        · intro d hd
          simpa using hall d (List.mem_range.1 hd)
    · rw [← Fold.keep_zero, keep_prod ones']
    · intro l idx k hk
      have := keep_pos (n := 0) ones' hk
      rw [Fold.keep_zero, Fold.keep_zero] at this
      unfold elem
      rw [hk, this]
  · exact absurd h (by simp)

/-- A 3 x 4 matrix as 1 x 3 x 1 x 4. -/
example : broadcastToExpandShape [1, 3, 1, 4] (without [0, 2] [1, 3, 1, 4]) [0, 2] =
      some [[0, 1, 2], [3]] ∧
    broadcastToExpandShape [2, 3] (without [0] [2, 3]) [0] = none := by decide

/-! ## Broadcasts of operands -/

/-- C69: the broadcast of the collapsed operand has at every iteration the element the operand has at
the index of the map.

Partial: the dimensions occur in the map in increasing order; the pattern does not check it. -/
theorem C69_materialize_partial {shape : List Nat} {map : List Expr} {numDims : Nat}
    {drop added : List Nat} (h : materialize shape map numDims = some (drop, added))
    (hl : map.length = shape.length) (hm : ∀ i ∈ usedDims map, i < numDims)
    (ho : (usedDims map).Pairwise (· ≤ ·)) {other : Nat → List Nat → Nat} {idx : List Nat}
    (hidx : idx.length = numDims) {k : Nat}
    (hk : pos shape (map.map (Expr.eval other idx)) = some k) :
    pos (without drop shape) (without added idx) = some k ∧
      (without drop shape).prod = shape.prod := by
  unfold materialize at h
  obtain ⟨d, h1, h2⟩ := Option.map_eq_some_iff.1 h
  injection h2 with e1 e2
  subst e1
  subst e2
  obtain ⟨t1, t2⟩ := target_dims (es := map) idx hidx
  rw [t2] at h1
  -- what is dropped
  have hd : (∀ x, x ∈ d → x ∈ dimsToDrop 0 map shape) ∧
      shape.length ≤ ((List.range numDims).filter (· ∈ usedDims map)).length + d.length ∧
      (d = dimsToDrop 0 map shape ∨ d = []) := by
    unfold tryCollapseUnitDims at h1
    split at h1
    · rename_i hle
      injection h1 with h1
      subst h1
      exact ⟨fun x hx => absurd hx (by simp), by simpa using hle, Or.inr rfl⟩
    · simp only at h1
      split at h1
      · exact absurd h1 (by simp)
      · rename_i hn
        injection h1 with h1
        subst h1
        exact ⟨fun x hx => hx, by omega, Or.inl rfl⟩
  obtain ⟨d1, d2, d3⟩ := hd
  -- the dimensions in the map are those that are not added
  have hsub : ((List.range numDims).filter (· ∈ usedDims map)) ⊆ usedDims map := fun x hx => by
    simpa using List.of_mem_filter hx
  have hnd : ((List.range numDims).filter (· ∈ usedDims map)).Nodup := List.nodup_range.filter _
  have hle := (List.subperm_of_subset hnd hsub).length_le
  have hcount := (dropped_eval (other := other) (idx := idx) map shape 0 (dimsToDrop 0 map shape) hl
    fun x _ => Iff.rfl).1
  have hdrop : d = dimsToDrop 0 map shape ∧
      (usedDims map).length ≤ ((List.range numDims).filter (· ∈ usedDims map)).length ∧
      map.length ≤ (usedDims map).length + (dimsToDrop 0 map shape).length := by
    rcases d3 with rfl | rfl
    · exact ⟨rfl, by omega, by omega⟩
    · simp only [List.length_nil] at d2
      have : (dimsToDrop 0 map shape).length = 0 := by omega
      exact ⟨(List.length_eq_zero_iff.1 this).symm, by omega, by omega⟩
  obtain ⟨rfl, g1, g2⟩ := hdrop
  have hperm : ((List.range numDims).filter (· ∈ usedDims map)).Perm (usedDims map) :=
    (List.subperm_of_subset hnd hsub).perm_of_length_le g1
  have hsort : ((List.range numDims).filter (· ∈ usedDims map)).Pairwise (· ≤ ·) :=
    (List.pairwise_le_range).filter _
  have heq : (List.range numDims).filter (· ∈ usedDims map) = usedDims map :=
    hperm.eq_of_pairwise (fun a b _ _ h1 h2 => Nat.le_antisymm h1 h2) hsort ho
  have hev := (dropped_eval (other := other) (idx := idx) map shape 0 (dimsToDrop 0 map shape) hl
    fun x _ => Iff.rfl).2 g2
  have ones : ∀ i < shape.length, 0 + i ∈ dimsToDrop 0 map shape → shape.getD i 0 = 1 :=
    fun i hi hx => by
      rw [Nat.zero_add] at hx
      simpa using (dimsToDrop_spec map shape 0 i hx).2.2
  have hp := keep_pos (n := 0) ones hk
  rw [hev, ← heq, ← t1, Fold.keep_zero] at hp
  exact ⟨hp, by rw [← Fold.keep_zero, keep_prod ones]⟩

/-- A 1 x 3 operand read at `(0, d2)` in three loops: collapsed to 3 and broadcast along the others. -/
example : materialize [1, 3] [.const 0, .dim 2] 3 = some ([0], [0, 1]) ∧
    (usedDims [.const 0, .dim 2]).Pairwise (· ≤ ·) ∧
    pos [1, 3] ([Expr.const 0, Expr.dim 2].map (Expr.eval (fun _ _ => 0) [4, 5, 2])) = some 2 ∧
    pos (without [0] [1, 3]) (without [0, 1] [4, 5, 2]) = some 2 := by decide

/-- C69 is violated by the map `(d0, d1, d2) → (d2, d0)` of a square operand: the element read is the
transposed one. -/
theorem C69_violated_order : materialize [2, 2] [.dim 2, .dim 0] 3 = some ([], [1]) ∧
    without [1] [2, 7, 2] = [2, 2] ∧
    pos [2, 2] ([Expr.dim 2, Expr.dim 0].map (Expr.eval (fun _ _ => 0) [0, 0, 1])) = some 2 ∧
    pos (without [] [2, 2]) (without [1] [0, 0, 1]) = some 1 := by decide

/-- C69: operands that use a dimension twice, an index expression, or a constant in a dimension of
more than one element are refused. -/
theorem C69_refused {shape : List Nat} {map : List Expr} {numDims : Nat} {drop added : List Nat}
    (h : materialize shape map numDims = some (drop, added)) (hl : map.length = shape.length)
    (hm : ∀ i ∈ usedDims map, i < numDims) : (usedDims map).Nodup ∧ (∀ e, Expr.other e ∉ map) ∧
      drop.length + (usedDims map).length = shape.length := by
  unfold materialize at h
  obtain ⟨d, h1, h2⟩ := Option.map_eq_some_iff.1 h
  injection h2 with e1 e2
  subst e1
  subst e2
  have t2 := (target_dims (es := map) (numDims := numDims) (List.replicate numDims 0)
    List.length_replicate).2
  rw [t2] at h1
  have hd : shape.length ≤ ((List.range numDims).filter (· ∈ usedDims map)).length + d.length ∧
      (d = dimsToDrop 0 map shape ∨ d = []) := by
    unfold tryCollapseUnitDims at h1
    split at h1
    · rename_i hle
      injection h1 with h1
      subst h1
      exact ⟨by simpa using hle, Or.inr rfl⟩
    · simp only at h1
      split at h1
      · exact absurd h1 (by simp)
      · rename_i hn
        injection h1 with h1
        subst h1
        exact ⟨by omega, Or.inl rfl⟩
  obtain ⟨d2, d3⟩ := hd
  have hsub : ((List.range numDims).filter (· ∈ usedDims map)) ⊆ usedDims map := fun x hx => by
    simpa using List.of_mem_filter hx
  have hnd : ((List.range numDims).filter (· ∈ usedDims map)).Nodup := List.nodup_range.filter _
  have hle := (List.subperm_of_subset hnd hsub).length_le
  have hcount := (dropped_eval (other := fun _ _ => 0) (idx := []) map shape 0
    (dimsToDrop 0 map shape) hl fun x _ => Iff.rfl).1
  have hdl : d.length ≤ (dimsToDrop 0 map shape).length := by
    rcases d3 with rfl | rfl
    · exact Nat.le_refl _
    · simp
  have hperm := (List.subperm_of_subset hnd hsub).perm_of_length_le (by omega)
  refine ⟨hperm.nodup_iff.1 hnd, ?_, by omega⟩
  -- an index expression is neither used nor dropped
  have key : ∀ (es : List Expr) (s : List Nat) (j : Nat), es.length = s.length →
      (∃ e, Expr.other e ∈ es) → (usedDims es).length + (dimsToDrop j es s).length < es.length := by
    intro es
    induction es with
    | nil => intro s j _ h; obtain ⟨e, he⟩ := h; exact absurd he (by simp)
    | cons x es ih =>
      intro s j hs h
      cases s with
      | nil => exact absurd hs (by simp)
      | cons d ds =>
        have hs' : es.length = ds.length := by simpa using hs
        have hc := (dropped_eval (other := fun _ _ => 0) (idx := []) es ds (j + 1)
          (dimsToDrop (j + 1) es ds) hs' fun x _ => Iff.rfl).1
        cases x with
        | other i =>
          show (usedDims es).length + (dimsToDrop (j + 1) es ds).length < es.length + 1
          omega
        | dim i =>
          have := ih ds (j + 1) hs' (by
            obtain ⟨e, he⟩ := h
            exact ⟨e, by simpa using he⟩)
          show (usedDims es).length + 1 + (dimsToDrop (j + 1) es ds).length < es.length + 1
          omega
        | const i =>
          have := ih ds (j + 1) hs' (by
            obtain ⟨e, he⟩ := h
            exact ⟨e, by simpa using he⟩)
          rw [dimsToDrop]
          split <;> simp only [usedDims, List.length_cons] <;> omega
  intro e he
  have := key map shape 0 hl ⟨e, he⟩
  omega

example : materialize [1, 3] [.const 0, .other 0] 3 = none ∧
    materialize [3, 3] [.dim 0, .dim 0] 3 = none ∧ materialize [2, 3] [.const 0, .dim 1] 3 = none := by
  decide

end Heir.Linalg
