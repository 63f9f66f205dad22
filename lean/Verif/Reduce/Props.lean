import Verif.Reduce.Lemmas
import Verif.Kernel.Props

/-! # C43: detected reductions are reductions, C52: the rotate-and-reduce pass -/

namespace Heir.Reduce

variable {R : Type} [CommRing R]

/-- C43: if the analysis calls a reduction rooted at `v` complete, then `v` is the reduction of all
elements of the tensor, each once, and of the saved values. A tensor value holds it in every slot.

Partial: no rotation amount may be negative. -/
theorem C43_complete_partial {prog : List Inst} (hv : Valid prog) (hn : NonNeg prog)
    {env : Nat → Nat → R} (hr : Run prog env) {v : Nat} {r : PR} (hm : r ∈ redsAt (run prog) v)
    (hc : r.isComplete = true) {k : Name} (hk : r.opName = none ∨ r.opName = some k) :
    (types prog [])[r.tensor]? = some (.vec r.size) ∧
    (((types prog [])[v]? = some (.vec r.size) ∧ r.saved = [] ∧
        ∀ j < r.size, env v j = k.total r.size (env r.tensor)) ∨
      ((types prog [])[v]? = some .scalar ∧
        env v 0 = (r.saved.map fun u => env u 0).foldl k.apply (k.total r.size (env r.tensor)))) := by
  have hg := (run_good hv hn hr prog [] (by simp)).2 v r hm
  refine ⟨hg.tensor, ?_⟩
  rcases hg.ty with ⟨h1, h2⟩ | h1
  · refine .inl ⟨h1, h2, fun j hj => ?_⟩
    rw [hg.complete hc hk hj (by rw [h1]; intro h; cases h), h2, List.map_nil, k.apply_nil]
  · refine .inr ⟨h1, ?_⟩
    rw [hg.complete hc hk hg.pos (fun _ => rfl), k.foldl_apply]

/-- C43: the assertions of the analysis hold: accessed sets are not empty, and reductions with saved
values are never rotated. -/
theorem C43_assertions_partial {prog : List Inst} (hv : Valid prog) (hn : NonNeg prog)
    {env : Nat → Nat → R} (hr : Run prog env) {v : Nat} {r : PR} (hm : r ∈ redsAt (run prog) v) :
    r.accessed.Nonempty ∧ ((types prog [])[v]? ≠ some .scalar → r.saved = []) := by
  have hg := (run_good hv hn hr prog [] (by simp)).2 v r hm
  refine ⟨hg.nonempty, fun h => ?_⟩
  rcases hg.ty with h1 | h1
  · exact h1.2
  · exact absurd h1 h

/-- Sum of three elements by two rotations, then three extractions with a saved value. -/
def sum3 : List Inst :=
  [.other (.vec 3), .rotate 0 1 true, .arith .addi 0 1, .rotate 1 1 true, .arith .addi 2 3]

example : Valid sum3 ∧ NonNeg sum3 ∧
    (∃ r ∈ redsAt (run sum3) 4, r.isComplete = true ∧ r.opName = some .addi ∧ r.tensor = 0) ∧
    Run (R := Int) sum3 fun v j =>
      ([[5, 7, 9], [7, 9, 5], [12, 16, 14], [9, 5, 7], [21, 21, 21]].getD v []).getD j 0 := by
  refine ⟨?_, ?_, ⟨⟨0, 3, some .addi, {0, 1, 2}, []⟩, ?_, ?_, rfl, rfl⟩, ?_⟩
  · intro v i h
    match v, h with
    | 0, h => cases h; simp [WellTyped]
    | 1, h => cases h; exact ⟨by decide, 3, rfl⟩
    | 2, h => cases h; exact ⟨by decide, by decide, rfl⟩
    | 3, h => cases h; exact ⟨by decide, 3, rfl⟩
    | 4, h => cases h; exact ⟨by decide, by decide, rfl⟩
  · intro src s known h
    simp only [sum3, List.mem_cons, List.not_mem_nil, or_false, reduceCtorEq, false_or,
      Inst.rotate.injEq] at h
    omega
  · decide
  · decide
  · intro v i h
    match v, h with
    | 0, h => cases h; exact trivial
    | 1, h =>
      cases h
      intro n hn j hj
      cases hn
      match j, hj with
      | 0, _ => rfl
      | 1, _ => rfl
      | 2, _ => rfl
    | 2, h =>
      cases h
      intro j
      match j with
      | 0 => rfl
      | 1 => rfl
      | 2 => rfl
      | _ + 3 => rfl
    | 3, h =>
      cases h
      intro n hn j hj
      cases hn
      match j, hj with
      | 0, _ => rfl
      | 1, _ => rfl
      | 2, _ => rfl
    | 4, h =>
      cases h
      intro j
      match j with
      | 0 => rfl
      | 1 => rfl
      | 2 => rfl
      | _ + 3 => rfl

/-- C43 fails with a negative rotation amount: rotating by 1 and by -1 is recorded as two distinct
indices of a tensor with two elements, which later become one. The value is `2·t₀ + t₁`, the
analysis reports a complete reduction. -/
theorem C43_violated :
    let prog : List Inst :=
      [.other (.vec 2), .rotate 0 1 true, .rotate 0 (-1) true, .arith .addi 1 2, .rotate 3 1 true,
        .arith .addi 4 1]
    let env : Nat → Nat → Int := fun v j =>
      ([[5, 7], [7, 5], [7, 5], [14, 10], [10, 14], [17, 19]].getD v []).getD j 0
    Valid prog ∧ Run prog env ∧
      ∃ r ∈ redsAt (run prog) 5, r.isComplete = true ∧ r.opName = some .addi ∧ r.tensor = 0 ∧
        env 5 0 ≠ Name.addi.total 2 (env 0) := by
  refine ⟨?_, ?_, ⟨0, 2, some .addi, {0, 1}, []⟩, by decide, by decide, rfl, rfl, by decide⟩
  · intro v i h
    match v, h with
    | 0, h => cases h; simp [WellTyped]
    | 1, h => cases h; exact ⟨by decide, 2, rfl⟩
    | 2, h => cases h; exact ⟨by decide, 2, rfl⟩
    | 3, h => cases h; exact ⟨by decide, by decide, rfl⟩
    | 4, h => cases h; exact ⟨by decide, 2, rfl⟩
    | 5, h => cases h; exact ⟨by decide, by decide, rfl⟩
  · intro v i h
    match v, h with
    | 0, h => cases h; exact trivial
    | 1, h =>
      cases h
      intro n hn j hj
      cases hn
      match j, hj with
      | 0, _ => rfl
      | 1, _ => rfl
    | 2, h =>
      cases h
      intro n hn j hj
      cases hn
      match j, hj with
      | 0, _ => rfl
      | 1, _ => rfl
    | 3, h =>
      cases h
      intro j
      match j with
      | 0 => rfl
      | 1 => rfl
      | _ + 2 => rfl
    | 4, h =>
      cases h
      intro n hn j hj
      cases hn
      match j, hj with
      | 0, _ => rfl
      | 1, _ => rfl
    | 5, h =>
      cases h
      intro j
      match j with
      | 0 => rfl
      | 1 => rfl
      | _ + 2 => rfl

/-! ## C52 -/

open Heir.Kernel

/-- The kernel node for the reduce op, `KernelImplementation.h:450-459`. -/
def Name.node {N : Nat} : Name → KExpr R N → KExpr R N → KExpr R N
  | .addi => addE
  | .addf => addE
  | .muli => mulE
  | .mulf => mulE

/-- The kernel that `tryReplaceRotations` builds (`RotateAndReduce.cpp:43-75`): period 1, as many
steps as the tensor has elements, unrolled (`ImplementRotateAndReduce.h:16-17`). -/
def newKernel (op : Name) (r : PR) (t : Nat → R) : KExpr R r.size :=
  accum op.node 1 r.size (leafV fun z => t z.val)

/-- Element `j` of the value that replaces `v`: the kernel result, or its element 0 combined with the
saved values if `v` is a scalar (`RotateAndReduce.cpp:57-68`). -/
def newValue (op : Name) (r : PR) (env : Nat → Nat → R) (ty : Ty) (w : Slots R r.size) (j : Nat) : R :=
  match ty with
  | .scalar => (r.saved.map fun u => env u 0).foldl op.apply (w 0)
  | _ => w j

theorem replaced_ok {prog : List Inst} {v : Nat} {op : Name} {r : PR} (h : (op, r) ∈ replaced prog v) :
    r ∈ redsAt (run prog) v ∧ r.isComplete = true ∧ 1 < r.size ∧
      ∃ a b, prog[v]? = some (.arith op a b) := by
  unfold replaced at h
  split at h
  · rename_i op' a b hp
    obtain ⟨r', hr', he⟩ := List.mem_map.1 h
    injection he with h1 h2
    subst h1 h2
    obtain ⟨h1, h2⟩ := List.mem_filter.1 hr'
    simp only [Bool.and_eq_true, decide_eq_true_eq] at h2
    exact ⟨h1, h2.1, h2.2, a, b, hp⟩
  · simp at h

/-- At a binary op every reduction but the trivial one carries the name of the op. -/
theorem opName_arith {st : List Info} {op : Name} {a b : Nat} {r : PR}
    (h : r ∈ visit st (.arith op a b)) : r.opName = some op := by
  simp only [visit] at h
  split at h
  · obtain ⟨l, -, h⟩ := List.mem_flatMap.1 h
    obtain ⟨r', -, h⟩ := List.mem_filterMap.1 h
    split at h
    · injection h with h; subst h; rfl
    · cases h
  · rcases List.mem_append.1 h with h | h
    all_goals
      obtain ⟨l, -, h⟩ := List.mem_filterMap.1 h
      split at h
      · injection h with h; subst h; rfl
      · cases h

theorem redsAt_arith {prog : List Inst} {v : Nat} {op : Name} {a b : Nat}
    (hp : prog[v]? = some (.arith op a b)) {r : PR} (h : r ∈ redsAt (run prog) v) :
    r.opName = none ∨ r.opName = some op := by
  obtain ⟨hlt, he⟩ := List.getElem?_eq_some_iff.1 hp
  have hsplit : prog = prog.take v ++ .arith op a b :: prog.drop (v + 1) := by
    rw [← he, List.getElem_cons_drop, List.take_append_drop]
  have hlen : (prog.take v).length = v := by rw [List.length_take]; omega
  have hpre : run (prog.take v ++ [.arith op a b]) <+: run prog := by
    conv => rhs; rw [hsplit, List.append_cons]
    exact run_prefix _ _
  obtain ⟨s, hs⟩ := hpre
  have hr : redsAt (run prog) v = redsAt (step (run (prog.take v)) (.arith op a b)) v := by
    rw [← run_snoc]
    unfold redsAt
    rw [← hs, List.getElem?_append_left (by rw [run_length]; simp [hlen])]
  rw [hr] at h
  have hv : (run (prog.take v)).length = v := by rw [run_length, hlen]
  have he := redsAt_step_eq (st := run (prog.take v)) (i := .arith op a b)
  rw [hv] at he
  rw [he, List.mem_append] at h
  rcases h with h | h
  · unfold leafOf at h
    split at h
    · rw [List.mem_singleton] at h; subst h; exact .inl rfl
    · simp at h
  · exact .inr (opName_arith h)

theorem kernel_total [DecidableEq R] (op : Name) (r : PR) (p : Nat) (hp : r.size = 2 ^ p)
    (t : Nat → R) : Computes anyKey (newKernel op r t) fun _ => op.total r.size t := by
  have hne : NeZero r.size := ⟨by rw [hp]; positivity⟩
  have key : ∀ z : ZMod r.size, op.total r.size t =
      op.big (Finset.range r.size) fun i => t (z + ((i * (1 : Int) : Int) : ZMod r.size)).val := by
    intro z
    rw [op.total_eq]
    have himg : Finset.range r.size = (Finset.range r.size).image fun i : Nat =>
        (z + ((i * (1 : Int) : Int) : ZMod r.size)).val := by
      symm
      have hinj : Set.InjOn (fun i : Nat => (z + ((i * (1 : Int) : Int) : ZMod r.size)).val)
          (Finset.range r.size) := by
        intro i hi j hj hij
        have h1 := add_left_cancel (ZMod.val_injective _ hij)
        push_cast at h1
        rw [mul_one, mul_one, ZMod.natCast_eq_natCast_iff] at h1
        rw [Finset.coe_range, Set.mem_Iio] at hi hj
        have : i % r.size = j % r.size := h1
        rwa [Nat.mod_eq_of_lt hi, Nat.mod_eq_of_lt hj] at this
      apply Finset.eq_of_subset_of_card_le
      · intro x hx
        obtain ⟨i, -, rfl⟩ := Finset.mem_image.1 hx
        exact Finset.mem_range.2 (ZMod.val_lt _)
      · rw [Finset.card_image_of_injOn hinj]
    conv_lhs => rw [himg]
    rw [op.big_image]
    · rfl
    · intro i hi j hj hij
      have h1 := add_left_cancel (ZMod.val_injective _ hij)
      push_cast at h1
      rw [mul_one, mul_one, ZMod.natCast_eq_natCast_iff] at h1
      rw [Finset.coe_range, Set.mem_Iio] at hi hj
      have : i % r.size = j % r.size := h1
      rwa [Nat.mod_eq_of_lt hi, Nat.mod_eq_of_lt hj] at this
  rw [show (fun _ : ZMod r.size => op.total r.size t) = fun z =>
      op.big (Finset.range r.size) fun i => t (z + ((i * (1 : Int) : Int) : ZMod r.size)).val from
    funext key]
  unfold newKernel
  cases op
  · have := C31_accum_add_partial p 1 (fun z : ZMod r.size => t z.val)
    rw [← hp] at this; exact this
  · have := C31_accum_mul_partial p 1 (fun z : ZMod r.size => t z.val)
    rw [← hp] at this; exact this
  · have := C31_accum_add_partial p 1 (fun z : ZMod r.size => t z.val)
    rw [← hp] at this; exact this
  · have := C31_accum_mul_partial p 1 (fun z : ZMod r.size => t z.val)
    rw [← hp] at this; exact this

/-- C52: the value that the pass puts in place of `v` equals `v`.

Partial: no rotation amount of the program may be negative, and the number of elements of the reduced
tensor must be a power of two. -/
theorem C52_replace_partial [DecidableEq R] {prog : List Inst} (hv : Valid prog) (hn : NonNeg prog)
    {env : Nat → Nat → R} (hr : Run prog env) {v : Nat} {op : Name} {r : PR}
    (h : (op, r) ∈ replaced prog v) {p : Nat} (hp : r.size = 2 ^ p) :
    ∃ ty w, (types prog [])[v]? = some ty ∧ Computes anyKey (newKernel op r (env r.tensor)) w ∧
      ∀ j < r.size, (ty = .scalar → j = 0) → newValue op r env ty w j = env v j := by
  obtain ⟨h1, h2, h3, a, b, h4⟩ := replaced_ok h
  have hk := redsAt_arith h4 h1
  obtain ⟨-, h5 | h5⟩ := C43_complete_partial hv hn hr h1 h2 hk
  · refine ⟨_, _, h5.1, kernel_total op r p hp _, fun j hj _ => ?_⟩
    exact (h5.2.2 j hj).symm
  · refine ⟨_, _, h5.1, kernel_total op r p hp _, fun j hj hs => ?_⟩
    rw [hs rfl]
    exact h5.2.symm

example : (Name.muli, (⟨0, 2, some .muli, {0, 1}, [3]⟩ : PR)) ∈ replaced
    [.other (.vec 2), .extract 0 0 true, .extract 0 1 true, .other .scalar, .arith .muli 1 3,
      .arith .muli 4 2] 5 := by
  decide

/-- C52 fails when the number of elements is not a power of two: the sum of three elements by two
rotations is replaced by the sum of two of them. -/
theorem C52_violated :
    let env : Nat → Nat → Int := fun v _ => [1, 1, 2, 1, 3].getD v 0
    Valid sum3 ∧ NonNeg sum3 ∧ Run sum3 env ∧
      ∃ r, (Name.addi, r) ∈ replaced sum3 4 ∧
        ∃ w, Computes anyKey (newKernel .addi r (env r.tensor)) w ∧
          ∀ j, newValue .addi r env (.vec 3) w j ≠ env 4 j := by
  intro env
  refine ⟨?_, ?_, ?_, ⟨0, 3, some .addi, {0, 1, 2}, []⟩, by decide, ?_⟩
  · intro v i h
    match v, h with
    | 0, h => cases h; simp [WellTyped]
    | 1, h => cases h; exact ⟨by decide, 3, rfl⟩
    | 2, h => cases h; exact ⟨by decide, by decide, rfl⟩
    | 3, h => cases h; exact ⟨by decide, 3, rfl⟩
    | 4, h => cases h; exact ⟨by decide, by decide, rfl⟩
  · intro src s known h
    simp only [sum3, List.mem_cons, List.not_mem_nil, or_false, reduceCtorEq, false_or,
      Inst.rotate.injEq] at h
    omega
  · intro v i h
    match v, h with
    | 0, h => cases h; exact trivial
    | 1, h => cases h; intro n _ j _; rfl
    | 2, h => cases h; intro j; rfl
    | 3, h => cases h; intro n _ j _; rfl
    | 4, h => cases h; intro j; rfl
  · obtain ⟨w, h1, h2⟩ := C31_accum_violated (N := 3) 1 3 (by
      intro k hk
      rcases k with _ | _ | k
      · omega
      · omega
      · have := Nat.one_le_two_pow (n := k)
        rw [pow_succ, pow_succ] at hk; omega)
    refine ⟨w, h1, fun j => ?_⟩
    exact h2 (j : ZMod 3)

end Heir.Reduce
