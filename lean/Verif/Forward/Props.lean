import Verif.Forward.Memory
import Verif.Forward.Tensor

/-! # Properties of the forwarding passes -/

namespace Heir.Forward

variable {V : Type}

/-- C62: every sequence of forwarded loads and erased stores keeps all values and the final memory,
whatever the order of the use lists.

Partial: accesses that name different memrefs or indices touch different elements, no op without
regions other than a store writes memory, and memrefs are not stored in memrefs; see the witnesses
below. -/
theorem C62_preserved_partial {S : Sem V} {s : St V} {isMemref : Nat → Prop} {p q : List Op}
    (g : Good S s isMemref p) (h : Relation.ReflTransGen Rewrite p q) :
    run S q s = run S p s := by
  suffices run S q s = run S p s ∧ Good S s isMemref q from this.1
  induction h with
  | refl => exact ⟨rfl, g⟩
  | tail _ hr ih =>
    obtain ⟨e, g'⟩ := ih
    obtain ⟨users, j, hu, hr⟩ := hr
    rcases hr with hr | hr
    · obtain ⟨e', g''⟩ := forward_ok g' hu hr
      exact ⟨e'.trans e, g''⟩
    · obtain ⟨e', g''⟩ := remove_ok g' hu hr
      exact ⟨e'.trans e, g''⟩

/-- `m[i] = a; m[i] = b; x = m[i]; y = f(x)` with the load forwarded and the first store erased. -/
def sample : List Op :=
  [.store 1 0 [5], .store 2 0 [5], .load 10 0 [5], .pure 11 0 [10]]

example : ∃ q q', forwardLoad sample [2, 1, 0] 2 = some q ∧ removeStore q [2, 1, 0] 0 = some q' ∧
    q' = [.store 2 0 [5], .load 10 0 [5], .pure 11 0 [2]] := ⟨_, _, rfl, rfl, rfl⟩

example (S : Sem Int) (s : St Int) : Good S s (· = 0) sample := by
  refine ⟨?_, ?_, ?_, ?_⟩
  · simp [sample, WF, Op.operands, results, Op.res]
  · intro op ho op' ho' a a' ha ha' hne
    exfalso
    apply hne
    simp only [sample, List.mem_cons, List.not_mem_nil, or_false] at ho ho'
    rcases ho with rfl | rfl | rfl | rfl <;> rcases ho' with rfl | rfl | rfl | rfl <;>
      simp_all [Op.access]
  · simp [NoCalls, sample]
  · simp only [Typed, sample, List.mem_cons, List.not_mem_nil, or_false]
    rintro op (rfl | rfl | rfl | rfl) <;> simp [Op.access] <;> omega

/-- The semantics of the witnesses: pure ops return their first operand, calls clear the memory. -/
def witnessSem : Sem Int := ⟨fun _ a => a.headD 0, fun _ _ _ => (0, fun _ _ => 0)⟩

/-- C62 is violated when two index values coincide at run time: `m[i] = a; m[k] = b; x = m[i]` with
`i = k` forwards `a`. -/
theorem C62_violated_index : ∃ (s : St Int) (p q : List Op) (users : List Nat), WF p ∧
    NoCalls p ∧ Typed (· = 0) p ∧ UsersOf p users 2 ∧ forwardLoad p users 2 = some q ∧
    (run witnessSem p s).env 11 = 2 ∧ (run witnessSem q s).env 11 = 1 := by
  refine ⟨⟨fun n => if n = 5 ∨ n = 6 then 7 else n, fun _ _ => 0⟩,
    [.store 1 0 [5], .store 2 0 [6], .load 10 0 [5], .pure 11 0 [10]], _, [0, 1, 2], ?_, ?_, ?_, ?_, rfl,
    ?_, ?_⟩
  · simp [WF, Op.operands, results, Op.res]
  · simp [NoCalls]
  · simp only [Typed, List.mem_cons, List.not_mem_nil, or_false]
    rintro op (rfl | rfl | rfl | rfl) <;> simp [Op.access] <;> omega
  · refine ⟨_, _, rfl, rfl, ?_⟩
    simp [Op.operands]
  · simp [run, step, witnessSem, Mem.write, Function.update_apply]
  · simp [run, step, witnessSem, Mem.write, Function.update_apply, Op.subst, rename]

/-- C62 is violated when two memrefs alias: `m[i] = a; n[i] = b; x = m[i]`. -/
theorem C62_violated_alias : ∃ (s : St Int) (p q : List Op) (users : List Nat), WF p ∧
    NoCalls p ∧ Typed (· ∈ [0, 3]) p ∧ UsersOf p users 2 ∧ forwardLoad p users 2 = some q ∧
    (run witnessSem p s).env 11 = 2 ∧ (run witnessSem q s).env 11 = 1 := by
  refine ⟨⟨fun n => if n = 3 then 0 else n, fun _ _ => 0⟩,
    [.store 1 0 [5], .store 2 3 [5], .load 10 0 [5], .pure 11 0 [10]], _, [0, 2], ?_, ?_, ?_, ?_, rfl,
    ?_, ?_⟩
  · simp [WF, Op.operands, results, Op.res]
  · simp [NoCalls]
  · simp only [Typed, List.mem_cons, List.not_mem_nil, or_false]
    rintro op (rfl | rfl | rfl | rfl) <;> simp [Op.access] <;> omega
  · refine ⟨_, _, rfl, rfl, ?_⟩
    simp [Op.operands]
  · simp [run, step, witnessSem, Mem.write, Function.update_apply]
  · simp [run, step, witnessSem, Mem.write, Function.update_apply, Op.subst, rename]

/-- C62 is violated by a call between the store and the load that writes the memref. -/
theorem C62_violated_call : ∃ (s : St Int) (p q : List Op) (users : List Nat), WF p ∧
    (∀ env : Nat → Int, AliasFree env p) ∧ Typed (· = 0) p ∧ UsersOf p users 2 ∧
    forwardLoad p users 2 = some q ∧
    (run witnessSem p s).env 11 = 0 ∧ (run witnessSem q s).env 11 = 1 := by
  refine ⟨⟨fun n => n, fun _ _ => 0⟩,
    [.store 1 0 [5], .call 9 0 [0], .load 10 0 [5], .pure 11 0 [10]], _, [0, 1, 2], ?_, ?_, ?_, ?_, rfl,
    ?_, ?_⟩
  · simp [WF, Op.operands, results, Op.res]
  · intro env op ho op' ho' a a' ha ha' hne
    exfalso
    apply hne
    simp only [List.mem_cons, List.not_mem_nil, or_false] at ho ho'
    rcases ho with rfl | rfl | rfl | rfl <;> rcases ho' with rfl | rfl | rfl | rfl <;>
      simp_all [Op.access]
  · simp only [Typed, List.mem_cons, List.not_mem_nil, or_false]
    rintro op (rfl | rfl | rfl | rfl) <;> simp [Op.access] <;> omega
  · refine ⟨_, _, rfl, rfl, ?_⟩
    simp [Op.operands]
  · simp [run, step, witnessSem, Function.update_apply]
  · simp [run, step, witnessSem, Function.update_apply, Op.subst, rename]

/-- C62 is violated when the erased store was read through another name of its index:
`m[i] = a; x = m[k]; m[i] = b` with `i = k`. -/
theorem C62_violated_erase : ∃ (s : St Int) (p q : List Op) (users : List Nat), WF p ∧
    NoCalls p ∧ Typed (· = 0) p ∧ UsersOf p users 0 ∧ removeStore p users 0 = some q ∧
    (run witnessSem p s).env 10 = 1 ∧ (run witnessSem q s).env 10 = 0 := by
  refine ⟨⟨fun n => if n = 5 ∨ n = 6 then 7 else n, fun _ _ => 0⟩,
    [.store 1 0 [5], .load 10 0 [6], .store 2 0 [5]], _, [0, 1, 2], ?_, ?_, ?_, ?_, rfl,
    ?_, ?_⟩
  · simp [WF, Op.operands, results, Op.res]
  · simp [NoCalls]
  · simp only [Typed, List.mem_cons, List.not_mem_nil, or_false]
    rintro op (rfl | rfl | rfl) <;> simp [Op.access] <;> omega
  · refine ⟨_, _, rfl, rfl, ?_⟩
    simp [Op.operands]
  · simp [run, step, witnessSem, Mem.write, Function.update_apply]
  · simp [run, step, witnessSem, Mem.write, Function.update_apply]

/-- C62 is violated when a memref is itself stored: the user of `m` taken for a store into `m` is a
store of `m` into another memref, `n[i] = m; x = m[i]`, and `x` becomes `m`. -/
theorem C62_violated_memref_stored : ∃ (s : St Int) (p q : List Op) (users : List Nat), WF p ∧
    NoCalls p ∧ (∀ env : Nat → Int, env 0 ≠ env 3 → AliasFree env p) ∧ UsersOf p users 1 ∧
    forwardLoad p users 1 = some q ∧
    (run witnessSem p s).env 11 = 42 ∧ (run witnessSem q s).env 11 = 0 := by
  refine ⟨⟨fun n => n, fun _ _ => 42⟩,
    [.store 0 3 [5], .load 10 0 [5], .pure 11 0 [10]], _, [0, 1], ?_, ?_, ?_, ?_, rfl,
    ?_, ?_⟩
  · simp [WF, Op.operands, results, Op.res]
  · simp [NoCalls]
  · intro env he op ho op' ho' a a' ha ha' hne
    simp only [List.mem_cons, List.not_mem_nil, or_false] at ho ho'
    rcases ho with rfl | rfl | rfl <;> rcases ho' with rfl | rfl | rfl <;>
      simp_all [Op.access]
    all_goals
      subst ha ha'
      first
        | exact fun h => absurd h he
        | exact fun h => absurd h.symm he
        | skip
  · refine ⟨_, _, rfl, rfl, ?_⟩
    simp [Op.operands]
  · simp [run, step, witnessSem, Mem.write, Function.update_apply]
  · simp [run, step, witnessSem, Mem.write, Function.update_apply, Op.subst, rename]

/-- C63: what the walk finds is the element the extract reads.

Partial: the indices of the inserts walked past differ at run time from those of the extract, and
`tensor.from_elements` has fewer than 2^31 elements. -/
theorem C63_partial {α : Type} {sh : Nat → List Nat} {env : Nat → Int} {sc : Nat → V} {lit : α → V}
    {arr : Nat → Nat → V} {indices : List Idx} {k : Nat} {v : V} : ∀ {t : Tensor α}
    {res : Option (Found α)}, getValueAtIndex t indices = some res → t.Separate env indices → t.Sized →
    rowMajor (t.shape sh) (indices.map (Idx.eval env)) = some k →
    t.read sh env sc lit arr k = some v → ∃ f, res = some f ∧ f.eval sc lit = v := by
  intro t
  induction t with
  | other n => intro res h; exact absurd h (by simp [getValueAtIndex])
  | insert x dest idx ih =>
    intro res h hs hz hk hr
    unfold getValueAtIndex at h
    unfold Tensor.read at hr
    obtain ⟨i, hi, hr⟩ := Option.bind_eq_some_iff.1 hr
    simp only [Tensor.shape] at hk
    split at h
    · rename_i e
      subst e
      rw [hi] at hk
      injection hk with hk
      rw [if_pos hk] at hr
      injection h with h
      injection hr with hr
      exact ⟨_, h.symm, hr⟩
    · rename_i hne
      have : i ≠ k := by
        rintro rfl
        exact hs.1 hne (rowMajor_inj hi hk)
      rw [if_neg this] at hr
      exact ih h hs.2 hz hk hr
  | splat a s =>
    intro res h _ _ _ hr
    unfold Tensor.read at hr
    split at hr
    · injection h with h
      injection hr with hr
      exact ⟨_, h.symm, hr⟩
    · exact absurd hr (by simp)
  | dense l s =>
    intro res h _ hz hk hr
    unfold getValueAtIndex at h
    obtain ⟨is, hc, h⟩ := Option.bind_eq_some_iff.1 h
    rw [constInts_eval hc, Tensor.shape] at hk
    obtain ⟨e1, e2⟩ := attrPosition_eq hk hz.2
    rw [if_pos e2, e1] at h
    unfold Tensor.read at hr
    rw [if_pos (rowMajor_lt hk).1] at hr
    obtain ⟨a, ha, hv⟩ := Option.map_eq_some_iff.1 hr
    rw [ha] at h
    injection h with h
    exact ⟨_, h.symm, hv⟩
  | fromElements l s =>
    intro res h _ hz hk hr
    unfold getValueAtIndex at h
    obtain ⟨is, hc, h⟩ := Option.bind_eq_some_iff.1 h
    rw [constInts_eval hc, Tensor.shape] at hk
    have e1 := getFlattenedIndex_eq hk hz.2
    rw [e1] at h
    unfold Tensor.read at hr
    rw [if_pos (rowMajor_lt hk).1] at hr
    obtain ⟨a, ha, hv⟩ := Option.map_eq_some_iff.1 hr
    simp only [Option.bind_some, Int.natCast_nonneg, if_true, Int.toNat_natCast, ha,
      Option.map_some] at h
    injection h with h
    exact ⟨_, h.symm, hv⟩

/-- An insert at run-time index 3 walked past, then one that matches; a dense constant. -/
example : getValueAtIndex (α := Int) (.insert 8 (.insert 9 (.other 0) [.val 1, .const 2]) [.val 0, .const 2])
    [.val 1, .const 2] = some (some (.value 9)) ∧
    getValueAtIndex (.insert 8 (.dense [10, 20, 30, 40, 50, 60] [2, 3]) [.const 0, .const 1])
      [.const 1, .const 0] = some (some (.attr (40 : Int))) ∧
    getValueAtIndex (α := Int) (.fromElements [10, 20, 30, 40, 50, 60] [2, 3]) [.const 1, .const 2] =
      some (some (.value 60)) := by decide

example : (Tensor.insert (α := Int) 8 (.dense [10, 20, 30, 40, 50, 60] [2, 3]) [.val 0, .const 1]).read
    (fun _ => []) (fun _ => 1) (fun n => (n : Int)) id (fun _ _ => 0) 4 = some 8 ∧
    (Tensor.insert (α := Int) 8 (.dense [10, 20, 30, 40, 50, 60] [2, 3]) [.val 0, .const 1]).read
    (fun _ => []) (fun _ => 1) (fun n => (n : Int)) id (fun _ _ => 0) 3 = some 40 := by decide

/-- C63 is violated when a run-time index coincides with the extracted one: extracting element 0
after an insert at `%i` finds the earlier insert at 0 also when `%i` is 0. -/
theorem C63_violated_index : ∃ (t : Tensor Int) (f : Found Int), t.Sized ∧
    getValueAtIndex t [.const 0] = some (some f) ∧
    rowMajor (t.shape fun _ => [4]) ([Idx.const 0].map (Idx.eval fun _ => 0)) = some 0 ∧
    t.read (fun _ => [4]) (fun _ => 0) (fun n => (n : Int)) id (fun _ _ => 0) 0 = some 2 ∧
    f.eval (fun n => (n : Int)) id = 1 :=
  ⟨.insert 2 (.insert 1 (.other 0) [.const 0]) [.val 0], .value 1, trivial, by decide, by decide,
    by decide, by decide⟩

/-- C63 is violated from 2^31 elements on, as the position is computed in `int`: of a
2 x 65536 x 65536 tensor element (1, 0, 0) is taken to be element 0. -/
theorem C63_violated_large (l : List Nat) (hl : l.length = [2, 65536, 65536].prod) :
    getValueAtIndex (α := Int) (.fromElements l [2, 65536, 65536]) [.const 1, .const 0, .const 0] =
      some (some (.value (l[0]'(by rw [hl]; decide)))) ∧
    rowMajor [2, 65536, 65536] [1, 0, 0] = some 4294967296 := by
  refine ⟨?_, by decide⟩
  have e : getFlattenedIndex [2, 65536, 65536] [1, 0, 0] = some 0 := by decide
  have h0 : 0 < l.length := by rw [hl]; decide
  simp [getValueAtIndex, constInts, e, List.getElem?_eq_getElem h0]

end Heir.Forward
