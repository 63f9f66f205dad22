import Verif.Dag.Tree
import Verif.Dag.Check

/-! # C30, C47: the caching evaluator -/

namespace Heir.Dag

variable {V O : Type}

/-- C30: the caching evaluator returns the value of the DAG (and fails exactly when that value is
undefined), for any operators, any sharing, nested loops and conditionals, and whatever values the
variable nodes hold beforehand. -/
theorem C30_evalKernel (S : Sem V O) {D : Heap O} {n : Nat} (hD : Ordered D) (hC : Closed D [n])
    (env : Env V) : evalKernel S D env n = den S D env n := by
  have h := process_ok (S := S) hD hC (n + 1) n (by omega) ⟨n, by simp, .refl⟩
    ⟨fun _ => none, env⟩ (fun m r _ h => absurd h (by simp))
  rw [evalKernel]
  cases ho : process S D (n + 1) ⟨fun _ => none, env⟩ n with
  | none => rw [ho] at h; exact (show den S D env n = none from h).symm
  | some p =>
    obtain ⟨r, s⟩ := p
    rw [ho] at h
    exact h.1.symm

/-- C30: the evaluator on a heap that unfolds to a tree of factory calls. -/
theorem C30_evalKernel_tree (S : Sem V O) {D : Heap O} {n : Nat} {e : Expr O} (hD : Ordered D)
    (hC : Closed D [n]) (hR : Represents D n e) (env : Env V) :
    evalKernel S D env n = e.eval S env := by
  rw [C30_evalKernel S hD hC env, hR.den_eq S hD]

/-- C30: several roots evaluated with one cache. -/
theorem C30_multiEvalKernel (S : Sem V O) {D : Heap O} {ns : List Nat} (hD : Ordered D)
    (hC : Closed D ns) (env : Env V) :
    multiEvalKernel S D env ns = allSome (den S D env) ns := by
  refine processAll_ok (S := S) (roots := ns) hD hC _ env ns ⟨fun _ => none, env⟩ (fun n hn => ⟨?_, hn⟩)
    (fun m r _ h => absurd h (by simp)) (fun _ _ _ _ => rfl)
  have : n ≤ ns.foldr max 0 := by
    induction ns with
    | nil => simp at hn
    | cons a ns ih =>
      simp only [List.foldr_cons]
      rcases List.mem_cons.1 hn with rfl | hn
      · omega
      · have : ∀ (l : List Nat), n ∈ l → n ≤ l.foldr max 0 := by
          intro l
          induction l with
          | nil => simp
          | cons b l ih =>
            intro h
            simp only [List.foldr_cons]
            rcases List.mem_cons.1 h with rfl | h
            · omega
            · have := ih h; omega
        have := this ns hn
        omega
  omega

/-- C30: values left in the loop variables by an earlier evaluation have no effect. -/
theorem C30_stale_variables (S : Sem V O) {D : Heap O} {n : Nat} (hD : Ordered D)
    (hC : Closed D [n]) (env env' : Env V)
    (h : ∀ x, env x ≠ env' x → ∃ m l, Below D [n] m ∧ D m = .loop l ∧ l.binds x) :
    evalKernel S D env n = evalKernel S D env' n := by
  rw [C30_evalKernel S hD hC, C30_evalKernel S hD hC]
  apply den_congr S hD
  intro x hx
  by_contra hne
  obtain ⟨m, l, hm, hl, hb⟩ := h x hne
  exact hC.free n (by simp) x hx m l hm hl hb

/-- Two nested loops: node 3 is shared by both bodies and used after the loops. -/
def nestedDag : List (Kind LitOp) :=
  [ .pure (.leaf (.scalar 1)) [], .var, .var, .pure (.leaf (.scalar 5)) [], .var, .var,
    .pure .add [5, 3], .pure .add [6, 1], .yield [7], .loop ⟨4, [2], [5], 8, 0, 3, 1⟩,
    .resultAt 9 0, .pure .add [10, 3], .yield [11], .loop ⟨1, [0], [2], 12, 0, 2, 1⟩,
    .resultAt 13 0, .pure .add [14, 3] ]

example : evalKernel litSem (ofList nestedDag) (fun _ => none) 15 =
    den litSem (ofList nestedDag) (fun _ => none) 15 :=
  C30_evalKernel _ (ordered_of_check (roots := [15]) (by decide))
    (closed_of_check (by decide)) _

example : den litSem (ofList nestedDag) (fun _ => none) 15 = some [.scalar 49] := by decide

/-- A loop variable used outside of its loop. -/
def unscopedDag (first second : Nat) : List (Kind LitOp) :=
  [ .pure (.leaf (.scalar 1)) [], .var, .var, .pure .add [2, 2], .yield [3],
    .loop ⟨1, [0], [2], 4, 0, 2, 1⟩, .resultAt 5 0, .pure .add [first, second] ]

theorem evalKernel_unscoped : evalKernel litSem (ofList (unscopedDag 6 3)) (fun _ => none) 7 =
    some [.scalar 8] := by
  decide

/-- C30, hypothesis `Closed`: a loop variable used outside of its loop reads a stale cached value,
whether it is there depends on the order of the operands. -/
theorem C30_unscoped_use_violated :
    evalKernel litSem (ofList (unscopedDag 6 3)) (fun _ => none) 7 ≠
      den litSem (ofList (unscopedDag 6 3)) (fun _ => none) 7 ∧
    evalKernel litSem (ofList (unscopedDag 3 6)) (fun _ => none) 7 = none := by
  constructor
  · rw [evalKernel_unscoped]; decide
  · decide

/-! ## Floor division -/

/-- C47 (partial): on positive operands the node is the floor of the quotient.  Missing: zero and
negative operands, see below. -/
theorem C47_floorDiv_partial (a d : Int) (ha : 0 < a) (hd : 0 < d) (hr : a < 2 ^ 31) :
    litPure (.floorDiv d) [.scalar a] = some (.scalar (a / d)) := by
  have h1 : a.tdiv d = a / d := Int.tdiv_eq_ediv_of_nonneg ha.le
  have h2 : 0 ≤ a / d := Int.ediv_nonneg ha.le hd.le
  have h3 : a / d ≤ a := Int.ediv_le_self _ ha.le
  simp only [litPure, litFloorDiv, h1, int32]
  rw [if_pos ⟨by omega, by omega⟩, if_pos ⟨by omega, by omega⟩]
  rfl

example : litPure (.floorDiv 2) [.scalar 7] = some (.scalar 3) :=
  C47_floorDiv_partial 7 2 (by decide) (by decide) (by decide)

/-- C47: a zero dividend is undefined behaviour. -/
theorem C47_floorDiv_zero_violated (d : Int) : litPure (.floorDiv d) [.scalar 0] = none := by
  simp [litPure, litFloorDiv]

/-- C47: a tensor dividend is undefined behaviour, although a vector case exists. -/
theorem C47_floorDiv_vector_violated (d : Int) (v : List Int) :
    litPure (.floorDiv d) [.vec v] = none := rfl

/-- C47: negative quotients are rounded towards zero. -/
theorem C47_floorDiv_negative_violated :
    litPure (.floorDiv 2) [.scalar (-1)] = some (.scalar 0) ∧ Int.fdiv (-1) 2 = -1 := by decide

/-! ## Vector operators -/

theorem zipInt_ok (f : Int → Int → Int) (a b : List Int) (hl : a.length = b.length)
    (hr : ∀ i (h : i < a.length), -2 ^ 31 ≤ f a[i] (b[i]'(hl ▸ h)) ∧ f a[i] (b[i]'(hl ▸ h)) < 2 ^ 31) :
    ∃ r, zipInt f a b = some r ∧ r.length = a.length ∧
      ∀ i (h : i < a.length), r[i]? = some (f a[i] (b[i]'(hl ▸ h))) := by
  induction a generalizing b with
  | nil =>
    cases b with
    | nil => exact ⟨[], rfl, rfl, fun i h => by simp at h⟩
    | cons _ _ => simp at hl
  | cons x a ih =>
    cases b with
    | nil => simp at hl
    | cons y b =>
      obtain ⟨r, h1, h2, h3⟩ := ih b (by simpa using hl) (fun i h => by
        have := hr (i + 1) (by simpa using h); simpa using this)
      have h0 := hr 0 (by simp)
      simp only [List.getElem_cons_zero] at h0
      refine ⟨f x y :: r, ?_, by simp [h2], ?_⟩
      · rw [zipInt, int32, if_pos h0, h1]; rfl
      · intro i h
        cases i with
        | zero => simp
        | succ i => simpa using h3 i (by simpa using h)

/-- C48: addition, subtraction and multiplication nodes of two vectors of equal length are
pointwise, as long as no element overflows. -/
theorem C48_vector_ops (a b : List Int) (hl : a.length = b.length) (o : LitOp)
    (f : Int → Int → Int)
    (ho : (o = .add ∧ f = (· + ·)) ∨ (o = .sub ∧ f = (· - ·)) ∨ (o = .mul ∧ f = (· * ·)))
    (hr : ∀ i (h : i < a.length), -2 ^ 31 ≤ f a[i] (b[i]'(hl ▸ h)) ∧ f a[i] (b[i]'(hl ▸ h)) < 2 ^ 31) :
    ∃ r, litPure o [.vec a, .vec b] = some (.vec r) ∧ r.length = a.length ∧
      ∀ i (h : i < a.length), r[i]? = some (f a[i] (b[i]'(hl ▸ h))) := by
  obtain ⟨r, h1, h2, h3⟩ := zipInt_ok f a b hl hr
  refine ⟨r, ?_, h2, h3⟩
  rcases ho with ⟨rfl, rfl⟩ | ⟨rfl, rfl⟩ | ⟨rfl, rfl⟩ <;> simp [litPure, litBin, h1]

example : ∃ r, litPure .sub [.vec [5, -2], .vec [7, 1]] = some (.vec r) ∧ r.length = 2 ∧
    ∀ i (h : i < 2), r[i]? = some (([5, -2] : List Int)[i] - ([7, 1] : List Int)[i]) :=
  C48_vector_ops [5, -2] [7, 1] rfl .sub (· - ·) (by simp) (by
    intro i h
    have : i = 0 ∨ i = 1 := by simp at h; omega
    rcases this with rfl | rfl <;> simp)

/-- C48: a rotation by any integer is the cyclic left rotation. -/
theorem C48_rotate (v : List Int) (a : Int) (hv : v ≠ []) :
    ∃ r, litPure .rotate [.vec v, .scalar a] = some (.vec r) ∧ r.length = v.length ∧
      ∀ i : Nat, i < v.length → r[i]? = v[(((i : Int) + a) % v.length).toNat]? := by
  have hn : 0 < v.length := List.length_pos_iff.2 hv
  have hn' : (0 : Int) < v.length := by exact_mod_cast hn
  obtain ⟨n, hnn⟩ : ∃ n : Int, n = v.length := ⟨_, rfl⟩
  rw [← hnn] at hn' ⊢
  have hk : (a.tmod n + n).tmod n = a % n := by
    have h1 : 0 ≤ a.tmod n + n := by
      have := Int.tmod_lt_of_pos a hn'
      have h2 : -n < a.tmod n := by
        rcases le_or_gt 0 a with h | h
        · have := Int.tmod_nonneg n h; omega
        · have h3 := Int.tmod_lt_of_pos (-a) hn'
          rw [Int.neg_tmod] at h3; omega
      omega
    rw [Int.tmod_eq_emod_of_nonneg h1, Int.add_emod_right]
    conv_rhs => rw [← Int.mul_tdiv_add_tmod a n]
    rw [Int.mul_add_emod_self_left]
  have hk0 : 0 ≤ a % n := Int.emod_nonneg _ (by omega)
  have hk1 : a % n < n := Int.emod_lt_of_pos _ hn'
  refine ⟨v.drop (a % n).toNat ++ v.take (a % n).toNat, ?_, ?_, ?_⟩
  · simp only [litPure, litRotate]
    rw [if_neg (by omega), ← hnn, hk]
  · simp; omega
  · intro i hi
    have e : ((i : Int) + a) % n = ((i : Int) + a % n) % n := by rw [Int.add_emod_emod]
    rw [e, List.getElem?_append]
    by_cases hc : (i : Int) + a % n < n
    · rw [Int.emod_eq_of_lt (by omega) hc, if_pos (by simp; omega), List.getElem?_drop]
      congr 1; omega
    · rw [if_neg (by simp; omega), List.getElem?_take_of_lt (by simp; omega), List.length_drop]
      have : ((i : Int) + a % n) % n = i + a % n - n := by
        rw [← Int.sub_emod_right, Int.emod_eq_of_lt (by omega) (by omega)]
      rw [this]
      congr 1; omega

example : ∃ r, litPure .rotate [.vec [1, 2, 3], .scalar (-4)] = some (.vec r) ∧ r.length = 3 ∧
    ∀ i : Nat, i < 3 → r[i]? = ([1, 2, 3] : List Int)[(((i : Nat) : Int) + (-4)) % (3 : Nat) |>.toNat]? :=
  C48_rotate [1, 2, 3] (-4) (by simp)

/-- C48: an arithmetic node on a vector and a scalar silently returns the vector. -/
theorem C48_mixed_operands_violated (v : List Int) (a : Int) :
    litPure .add [.vec v, .scalar a] = some (.vec v) ∧
    litPure .mul [.vec v, .scalar a] = some (.vec v) := ⟨rfl, rfl⟩

end Heir.Dag
