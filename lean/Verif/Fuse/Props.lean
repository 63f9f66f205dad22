import Verif.Fuse.Lemmas
import Mathlib.Data.Rat.Defs
import Mathlib.Algebra.Order.Ring.Rat

/-!
# C152–C153: fusing arithmetic into operations of `linalg`
-/

namespace Heir.Fuse

variable {K : Type}

section
variable [Field K] [LinearOrder K]

/-! ### C152 -/

/-- C152, partly.  A product or a quotient that is fused into the weights has the value of the
unfused operation, at every index: if nothing is accumulated into (`outs` is zero or empty), if the
result of `linalg` is the left operand of a quotient and has no other users, and if a vector is
repeated along the output channels.  Without these hypotheses it fails, see below. -/
theorem C152_scale_partial (s : Site K) (hop : s.op = .mul ∨ s.op = .div) {l : Lin K}
    (h : fuse s.op s.lin s.src = .ok l)
    (hz : ∀ t, s.lin.outs = some t → ∀ o, t o = 0)
    (hleft : s.op = .div → s.left = true) (hns : s.shared = false)
    (hal : Aligned s.lin.kind s.src) (hw : s.lin.weightShape.length ≠ 1) :
    s.Right l := by
  have hfuse : fuseScale s.op s.lin s.src = .ok l := by
    rcases hop with e | e <;> rw [e] at h ⊢ <;> exact h
  intro o ho
  refine ⟨?_, fun hc => by rw [hns] at hc; cases hc⟩
  have hap : ∃ iv : K → K, (∀ a c, s.op.ap a c = a * iv c) ∧
      s.value o = s.lin.result o * iv (s.src.val o) := by
    rcases hop with e | e
    · refine ⟨id, fun a c => by rw [e]; rfl, ?_⟩
      unfold Site.value
      rw [e]
      cases s.left
      · exact mul_comm _ _
      · rfl
    · refine ⟨fun c => c⁻¹, fun a c => by rw [e]; exact div_eq_mul_inv _ _, ?_⟩
      unfold Site.value
      rw [hleft e, e]
      exact div_eq_mul_inv _ _
  obtain ⟨iv, hap, hval⟩ := hap
  rw [hval]
  unfold fuseScale at hfuse
  cases hd : matchDim s.lin.kind with
  | none => rw [hd] at hfuse; simp at hfuse
  | some d =>
    rw [hd] at hfuse
    cases hf : findOriginalScalar s.src with
    | none => rw [hf] at hfuse; simp at hfuse
    | some f =>
      rw [hf] at hfuse
      cases f with
      | scalar c => simp at hfuse
      | attr c =>
        simp only [Res.ok.injEq] at hfuse
        subst hfuse
        rw [attr_val _ hf o]
        simp only [hap]
        exact result_scale hd hz (fun _ => iv c) o
      | vec n t =>
        simp only at hfuse
        rw [if_neg (by intro hc; rw [hc] at hw; exact hw rfl)] at hfuse
        split at hfuse
        · simp only [Res.ok.injEq] at hfuse
          subst hfuse
          rw [hal n t hf o ho]
          simp only [hap]
          exact result_scale hd hz (fun j => iv (t [j])) o
        · simp at hfuse

/-- C152, partly: a vector broadcast along all dimensions but the one of the output channels, as
`linalg.broadcast` is used for a scale per channel, is fused rightly. -/
theorem C152_broadcast_partial (s : Site K) (hop : s.op = .mul ∨ s.op = .div) {l : Lin K}
    (h : fuse s.op s.lin s.src = .ok l)
    (hz : ∀ t, s.lin.outs = some t → ∀ o, t o = 0)
    (hleft : s.op = .div → s.left = true) (hns : s.shared = false)
    (hw : s.lin.weightShape.length ≠ 1)
    {shape dims : List Nat} {n : Nat} {v : Src K} {t : Tensor K}
    (hsrc : s.src = .broadcast shape dims v) (hv : v = .arg [n] t ∨ v = .const [n] t)
    (hrank : shape.length = outRank s.lin.kind)
    (hdims : ∀ p, p < outRank s.lin.kind → (p ∉ dims ↔ p = outDim s.lin.kind)) :
    s.Right l := by
  refine C152_scale_partial s hop h hz hleft hns ?_ hw
  rw [hsrc]
  have hd : outDim s.lin.kind < outRank s.lin.kind := by
    cases hk : s.lin.kind with
    | other c taps =>
      exfalso
      have hfuse : fuseScale s.op s.lin s.src = .ok l := by
        rcases hop with e | e <;> rw [e] at h ⊢ <;> exact h
      unfold fuseScale at hfuse
      rw [hk] at hfuse
      simp [matchDim] at hfuse
    | _ => simp [outDim, outRank]
  exact aligned_broadcast _ _ _ _ _ _ hv hrank hd hdims

/-- C152, partly: the same for a vector to which `tensor.expand_shape` adds unit dimensions. -/
theorem C152_expand_partial (s : Site K) (hop : s.op = .mul ∨ s.op = .div) {l : Lin K}
    (h : fuse s.op s.lin s.src = .ok l)
    (hz : ∀ t, s.lin.outs = some t → ∀ o, t o = 0)
    (hleft : s.op = .div → s.left = true) (hns : s.shared = false)
    (hw : s.lin.weightShape.length ≠ 1)
    {shape : List Nat} {n : Nat} {v : Src K} {t : Tensor K}
    (hsrc : s.src = .expand shape v) (hv : v = .arg [n] t ∨ v = .const [n] t)
    (hrank : shape.length = outRank s.lin.kind)
    (hone : ∀ p, p < shape.length → p ≠ outDim s.lin.kind → shape.getD p 0 = 1) :
    s.Right l := by
  refine C152_scale_partial s hop h hz hleft hns ?_ hw
  rw [hsrc]
  have hd : outDim s.lin.kind < outRank s.lin.kind := by
    cases hk : s.lin.kind with
    | other c taps =>
      exfalso
      have hfuse : fuseScale s.op s.lin s.src = .ok l := by
        rcases hop with e | e <;> rw [e] at h ⊢ <;> exact h
      unfold fuseScale at hfuse
      rw [hk] at hfuse
      simp [matchDim] at hfuse
    | _ => simp [outDim, outRank]
  exact aligned_expand _ _ _ _ _ hv hrank hd hone

omit [LinearOrder K] in
/-- C152: the pass does fuse these operands, for every operation with weights that it lists. -/
theorem C152_fires (op : Bin) (hop : op = .mul ∨ op = .div) (l : Lin K) {d n : Nat}
    (hd : matchDim l.kind = some d) (hn : l.weightShape.getD d 0 = n)
    (shape dims : List Nat) (t : Tensor K) :
    ∃ l', fuse op l (.broadcast shape dims (.arg [n] t)) = .ok l' := by
  have : ∃ l', fuseScale op l (.broadcast shape dims (.arg [n] t)) = .ok l' := by
    unfold fuseScale
    simp only [hd, findOriginalScalar, asVec]
    rw [if_pos hn]
    split
    · exact ⟨_, rfl⟩
    · exact ⟨_, rfl⟩
  rcases hop with e | e <;> rw [e] at this ⊢ <;> exact this

omit [LinearOrder K] in
/-- C152 fails for scalars: whenever the operand is a scalar that `tensor.splat` repeats, the pass
casts a scalar type to a shaped one. -/
theorem C152_violated_scalar (op : Bin) (hop : op = .mul ∨ op = .div) (l : Lin K) {d : Nat}
    (hd : matchDim l.kind = some d) (shape : List Nat) (c : K) :
    fuse op l (.splat shape (.scalar c)) = .ub := by
  have : fuseScale op l (.splat shape (.scalar c)) = .ub := by
    unfold fuseScale
    rw [hd]
    rfl
  rcases hop with e | e <;> rw [e] at this ⊢ <;> exact this

/-! ### C153 -/

/-- C153, partly.  A sum or a difference that is fused into what an operation accumulates into has
the value of the unfused operation: if the operation is a sum, if its result is the left operand of
a difference, and if it has no other users.  Without these hypotheses it fails, see below. -/
theorem C153_add_partial (s : Site K) (hop : s.op = .add ∨ s.op = .sub) {l : Lin K}
    (h : fuse s.op s.lin s.src = .ok l) (hsum : Sums s.lin.kind)
    (hleft : s.op = .sub → s.left = true) (hns : s.shared = false) : s.Right l := by
  intro o _
  refine ⟨?_, fun hc => by rw [hns] at hc; cases hc⟩
  unfold Site.value
  rcases hop with e | e
  · rw [e] at h ⊢
    simp only [fuse, fuseAdd] at h
    split at h
    · simp only [Res.ok.injEq] at h
      subst h
      unfold Lin.result
      cases hout : s.lin.outs with
      | none =>
        have := foldl_sums hsum (terms s.lin.kind s.lin.weights s.lin.data o) 0 (s.src.val o)
        rw [zero_add] at this
        simp only [reduceCtorEq, if_false, this]
        cases s.left
        · exact add_comm _ _
        · rfl
      | some t =>
        have := foldl_sums hsum (terms s.lin.kind s.lin.weights s.lin.data o) (t o) (s.src.val o)
        simp only [Bin.ap, this]
        cases s.left
        · exact add_comm _ _
        · rfl
    · simp at h
  · have hl := hleft e
    rw [e] at h ⊢
    rw [hl]
    simp only [fuse, fuseAdd] at h
    split at h
    · simp only [Res.ok.injEq] at h
      subst h
      unfold Lin.result
      cases hout : s.lin.outs with
      | none =>
        have := foldl_sums hsum (terms s.lin.kind s.lin.weights s.lin.data o) 0 (-(s.src.val o))
        rw [zero_add] at this
        simp only [if_true, this, Bin.ap, sub_eq_add_neg]
      | some t =>
        have := foldl_sums hsum (terms s.lin.kind s.lin.weights s.lin.data o) (t o)
          (-(s.src.val o))
        simp only [Bin.ap, sub_eq_add_neg, this, if_true]
    · simp at h

omit [LinearOrder K] in
/-- C153: the pass fuses a sum or difference into every named operation, and into a generic
operation exactly if what it yields is a sum with the accumulated value. -/
theorem C153_fires (op : Bin) (hop : op = .add ∨ op = .sub) (l : Lin K) (s : Src K) :
    (∃ l', fuse op l s = .ok l') ↔ ∀ b f ts, l.kind = .other (.generic b f) ts → b = true := by
  have : accumulates l.kind = true ↔ ∀ b f ts, l.kind = .other (.generic b f) ts → b = true := by
    unfold accumulates
    split
    case h_1 b f ts h => simp only [h]; aesop
    case h_2 h =>
      simp only [true_iff]
      intro b f ts hk
      exact absurd hk (h b f ts)
  rw [← this]
  rcases hop with e | e <;> subst e <;> simp only [fuse, fuseAdd] <;> split <;> simp_all

end

/-! ### examples and violations -/

/-- A matrix times a vector of two elements. -/
def mv : Lin Rat where
  kind := .matvec 2
  weights := fun i => ([[1, 2], [3, 4]].getD (i.getD 0 0) []).getD (i.getD 1 0) 0
  weightShape := [2, 2]
  data := fun i => [5, 6].getD (i.getD 0 0) 0
  outs := some fun _ => 0

/-- A scale per row. -/
def rows : Src Rat := .broadcast [2] [] (.arg [2] fun i => [10, 20].getD (i.getD 0 0) 0)

-- the hypotheses of `C152_scale_partial`: the pass fires, and the scales are aligned
example : (∃ l, fuse .mul mv rows = .ok l) ∧ Aligned mv.kind rows := by
  refine ⟨⟨_, rfl⟩, ?_⟩
  exact aligned_broadcast _ _ _ _ _ _ (Or.inl rfl) rfl (by decide) (by
    intro p hp
    have : p = 0 := by simp [outRank, mv] at hp; omega
    subst this
    simp [outDim, mv])

-- what it computes
example : ∃ l, fuse .mul mv rows = .ok l ∧ l.result [0] = 170 ∧ l.result [1] = 780 :=
  ⟨_, rfl, by decide +kernel, by decide +kernel⟩

/-- The same with a bias. -/
def mvBias : Lin Rat := { mv with outs := some fun _ => 1 }

/-- C152 fails if something is accumulated into: the bias is not scaled. -/
theorem C152_violated_bias : ∃ l, fuse .mul mvBias rows = .ok l ∧
    ¬ (⟨.mul, mvBias, rows, true, false⟩ : Site Rat).Right l := by
  refine ⟨_, rfl, fun h => ?_⟩
  have := (h [0] (.cons (by decide) .nil)).1
  revert this
  decide +kernel

/-- C152 fails for quotients whose divisor is the result of `linalg`. -/
theorem C152_violated_order : ∃ l, fuse .div mv rows = .ok l ∧
    ¬ (⟨.div, mv, rows, false, false⟩ : Site Rat).Right l := by
  refine ⟨_, rfl, fun h => ?_⟩
  have := (h [0] (.cons (by decide) .nil)).1
  revert this
  decide +kernel

/-- C152 fails for other users of the result. -/
theorem C152_violated_shared : ∃ l, fuse .mul mv rows = .ok l ∧
    ¬ (⟨.mul, mv, rows, true, true⟩ : Site Rat).Right l := by
  refine ⟨_, rfl, fun h => ?_⟩
  have := (h [0] (.cons (by decide) .nil)).2 rfl
  revert this
  decide +kernel

/-- A product of two matrices. -/
def mm : Lin Rat := { mv with
  kind := .matmul 2
  data := fun i => ([[1, 1], [1, 1]].getD (i.getD 0 0) []).getD (i.getD 1 0) 0 }

/-- A scale per row, where columns are the output channels of a product of matrices. -/
def perRow : Src Rat := .broadcast [2, 2] [1] (.arg [2] fun i => [10, 20].getD (i.getD 0 0) 0)

/-- C152 fails for a vector repeated along another dimension of the same size. -/
theorem C152_violated_axis : ∃ l, fuse .mul mm perRow = .ok l ∧
    ¬ (⟨.mul, mm, perRow, true, false⟩ : Site Rat).Right l := by
  refine ⟨_, rfl, fun h => ?_⟩
  have := (h [0, 1] (.cons (by decide) (.cons (by decide) .nil))).1
  revert this
  decide +kernel

-- the hypotheses of `C153_add_partial`, and what it computes
example : Sums mv.kind ∧ ∃ l, fuse .sub mvBias rows = .ok l ∧ l.result [0] = 8 ∧
    l.result [1] = 20 :=
  ⟨trivial, _, rfl, by decide +kernel, by decide +kernel⟩

/-- C153 fails for differences whose subtrahend is the result of `linalg`. -/
theorem C153_violated_order : ∃ l, fuse .sub mv rows = .ok l ∧
    ¬ (⟨.sub, mv, rows, false, false⟩ : Site Rat).Right l := by
  refine ⟨_, rfl, fun h => ?_⟩
  have := (h [0] (.cons (by decide) .nil)).1
  revert this
  decide +kernel

/-- C153 fails for other users of the result. -/
theorem C153_violated_shared : ∃ l, fuse .add mv rows = .ok l ∧
    ¬ (⟨.add, mv, rows, true, true⟩ : Site Rat).Right l := by
  refine ⟨_, rfl, fun h => ?_⟩
  have := (h [0] (.cons (by decide) .nil)).2 rfl
  revert this
  decide +kernel

/-- An operation that reads the whole vector `1, 2`. -/
def over (comb : Comb Rat) (init : Rat) : Lin Rat where
  kind := .other comb fun _ => [[0], [1]]
  weights := fun _ => 0
  weightShape := []
  data := fun i => [1, 2].getD (i.getD 0 0) 0
  outs := some fun _ => init

/-- C153 fails for pooling by maxima: the addend takes part in the maximum. -/
theorem C153_violated_max : ∃ l, fuse .add (over .max 0) rows = .ok l ∧
    ¬ (⟨.add, over .max 0, rows, true, false⟩ : Site Rat).Right l := by
  refine ⟨_, rfl, fun h => ?_⟩
  have := (h [0] (.cons (by decide) .nil)).1
  revert this
  decide +kernel

/-- C153 fails for pooling by minima. -/
theorem C153_violated_min : ∃ l, fuse .add (over .min 5) rows = .ok l ∧
    ¬ (⟨.add, over .min 5, rows, true, false⟩ : Site Rat).Right l := by
  refine ⟨_, rfl, fun h => ?_⟩
  have := (h [0] (.cons (by decide) .nil)).1
  revert this
  decide +kernel

/-- C153 fails for `linalg.reduce` by products. -/
theorem C153_violated_reduce : ∃ l, fuse .add (over (.reduce (· * ·)) 1) rows = .ok l ∧
    ¬ (⟨.add, over (.reduce (· * ·)) 1, rows, true, false⟩ : Site Rat).Right l := by
  refine ⟨_, rfl, fun h => ?_⟩
  have := (h [0] (.cons (by decide) .nil)).1
  revert this
  decide +kernel

/-- C153 fails for generic operations whose other summand depends on the accumulator. -/
theorem C153_violated_generic :
    ∃ l, fuse .add (over (.generic true (· * ·)) 1) rows = .ok l ∧
    ¬ (⟨.add, over (.generic true (· * ·)) 1, rows, true, false⟩ : Site Rat).Right l := by
  refine ⟨_, rfl, fun h => ?_⟩
  have := (h [0] (.cons (by decide) .nil)).1
  revert this
  decide +kernel

end Heir.Fuse
