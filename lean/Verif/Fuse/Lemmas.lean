import Verif.Fuse.Spec
import Mathlib.Tactic.Ring
import Mathlib.Data.List.Forall2

/-!
# Lemmas for C152–C153
-/

namespace Heir.Fuse

variable {K : Type}

theorem attr_val (s : Src K) {c : K} (h : findOriginalScalar s = some (.attr c)) (o : List Nat) :
    s.val o = c := by
  induction s generalizing o with
  | scalar d => simp [findOriginalScalar] at h
  | arg sh t =>
    rw [findOriginalScalar] at h
    rcases sh with _ | ⟨n, _ | ⟨m, sh⟩⟩ <;> simp [asVec] at h
  | splatConst sh d => simpa [findOriginalScalar, Src.val] using h
  | const sh t =>
    rw [findOriginalScalar] at h
    rcases sh with _ | ⟨n, _ | ⟨m, sh⟩⟩ <;> simp [asVec] at h
  | op sh t => simp [findOriginalScalar] at h
  | splat sh s ih => exact ih h []
  | broadcast sh dims s ih => exact ih h _
  | expand sh s ih => exact ih h _

theorem scalar_val (s : Src K) {c : K} (h : findOriginalScalar s = some (.scalar c))
    (o : List Nat) : s.val o = c := by
  induction s generalizing o with
  | scalar d => simpa [findOriginalScalar, Src.val] using h
  | arg sh t =>
    rw [findOriginalScalar] at h
    rcases sh with _ | ⟨n, _ | ⟨m, sh⟩⟩ <;> simp [asVec] at h
  | splatConst sh d => simp [findOriginalScalar] at h
  | const sh t =>
    rw [findOriginalScalar] at h
    rcases sh with _ | ⟨n, _ | ⟨m, sh⟩⟩ <;> simp [asVec] at h
  | op sh t => simp [findOriginalScalar] at h
  | splat sh s ih => exact ih h []
  | broadcast sh dims s ih => exact ih h _
  | expand sh s ih => exact ih h _

theorem dropDims_one (dims : List Nat) (D : Nat) (p : Nat) (o : List Nat)
    (h : ∀ q, p ≤ q → q < p + o.length → (q ∉ dims ↔ q = D)) :
    dropDims dims p o = if p ≤ D ∧ D < p + o.length then [o.getD (D - p) 0] else [] := by
  induction o generalizing p with
  | nil => simp [dropDims]
  | cons i is ih =>
    have hrec := ih (p + 1) (fun q h1 h2 => h q (by omega) (by simp only [List.length_cons]; omega))
    have h0 := h p (le_refl _) (by simp only [List.length_cons]; omega)
    simp only [dropDims, hrec, List.length_cons]
    by_cases hp : p = D
    · subst hp
      rw [if_neg (h0.2 rfl), if_neg (by omega), if_pos (by omega)]
      simp
    · have hm : p ∈ dims := by
        by_contra hc
        exact hp (h0.1 hc)
      rw [if_pos hm]
      by_cases hD : p + 1 ≤ D ∧ D < p + 1 + is.length
      · rw [if_pos hD, if_pos (by omega)]
        rw [show D - p = (D - (p + 1)) + 1 by omega]
        simp
      · rw [if_neg hD, if_neg (by omega)]

theorem linear_ones {sh o : List Nat} (h : ∀ s ∈ sh, s = 1) (ho : InBox sh o) :
    linear sh o = 0 := by
  induction ho with
  | nil => rfl
  | @cons i s is ss h1 _ ih =>
    have hs := h s (by simp)
    have : i = 0 := by omega
    rw [linear, this, ih fun s hs => h s (List.mem_cons_of_mem _ hs)]
    simp

theorem prod_ones {sh : List Nat} (h : ∀ s ∈ sh, s = 1) : sh.prod = 1 := by
  induction sh with
  | nil => rfl
  | cons s ss ih =>
    rw [List.prod_cons, h s (by simp), ih fun s hs => h s (List.mem_cons_of_mem _ hs)]

theorem linear_one {sh o : List Nat} (D : Nat) (hD : D < sh.length)
    (h : ∀ p, p < sh.length → p ≠ D → sh.getD p 0 = 1) (ho : InBox sh o) :
    linear sh o = o.getD D 0 := by
  induction ho generalizing D with
  | nil => simp at hD
  | @cons i s is ss h1 h2 ih =>
    cases D with
    | zero =>
      have hone : ∀ s ∈ ss, s = 1 := by
        intro s hs
        obtain ⟨p, hp, rfl⟩ := List.mem_iff_getElem.1 hs
        have := h (p + 1) (by simpa using hp) (by omega)
        simpa [List.getD_eq_getElem?_getD, hp] using this
      rw [linear, linear_ones hone h2, prod_ones hone]
      simp
    | succ D =>
      have hs : s = 1 := by
        have := h 0 (by simp) (by omega)
        simpa using this
      have hi : i = 0 := by omega
      rw [linear, hi, ih D (by simpa using hD) (by
        intro p hp hne
        have := h (p + 1) (by simpa using hp) (by omega)
        simpa using this)]
      simp

/-- A vector broadcast along all other dimensions. -/
theorem aligned_broadcast (kind : Kind K) (shape dims : List Nat) (n : Nat) (s : Src K)
    (t : Tensor K) (hs : s = .arg [n] t ∨ s = .const [n] t) (hrank : shape.length = outRank kind)
    (hd : outDim kind < outRank kind)
    (hdims : ∀ p, p < outRank kind → (p ∉ dims ↔ p = outDim kind)) :
    Aligned kind (.broadcast shape dims s) := by
  intro n' t' hf o ho
  have ht : t' = t := by
    rcases hs with rfl | rfl <;>
    · simp only [findOriginalScalar, asVec, Option.some.injEq, Found.vec.injEq] at hf
      exact hf.2.symm
  subst ht
  have hlen : o.length = outRank kind := by rw [← hrank]; exact ho.length_eq
  have := dropDims_one dims (outDim kind) 0 o (fun q _ h2 => hdims q (by omega))
  have hv : ∀ i, s.val i = t' i := by rcases hs with rfl | rfl <;> intro i <;> rfl
  rw [Src.val, hv, this, if_pos ⟨Nat.zero_le _, by omega⟩]
  rfl

/-- A vector expanded by unit dimensions. -/
theorem aligned_expand (kind : Kind K) (shape : List Nat) (n : Nat) (s : Src K) (t : Tensor K)
    (hs : s = .arg [n] t ∨ s = .const [n] t) (hrank : shape.length = outRank kind)
    (hd : outDim kind < outRank kind)
    (hone : ∀ p, p < shape.length → p ≠ outDim kind → shape.getD p 0 = 1) :
    Aligned kind (.expand shape s) := by
  intro n' t' hf o ho
  have ht : t' = t := by
    rcases hs with rfl | rfl <;>
    · simp only [findOriginalScalar, asVec, Option.some.injEq, Found.vec.injEq] at hf
      exact hf.2.symm
  subst ht
  have hlin := linear_one (outDim kind) (by omega) hone ho
  have hsh : s.shape = [n] := by rcases hs with rfl | rfl <;> rfl
  have hv : ∀ i, s.val i = t' i := by rcases hs with rfl | rfl <;> intro i <;> rfl
  rw [Src.val, hv, hsh, hlin]
  simp [delinear]

section
variable [Field K]

/-- The weights that are multiplied into one element of the output have its channel. -/
theorem terms_scale {kind : Kind K} {d : Nat} (hd : matchDim kind = some d) (g : Nat → K)
    (w x : Tensor K) (o : List Nat) :
    terms kind (fun i => w i * g (i.getD d 0)) x o
      = (terms kind w x o).map fun t => t * g (o.getD (outDim kind) 0) := by
  have hm : ∀ {α : Type} (l : List α) (f h : α → K) (c : K), (∀ a, f a = h a * c) →
      l.map f = (l.map h).map fun t => t * c := by
    intro α l f h c hfc
    rw [List.map_map]
    exact List.map_congr_left fun a _ => hfc a
  cases kind with
  | matmul k =>
    cases hd
    rcases o with _ | ⟨a, _ | ⟨b, _ | ⟨c, o⟩⟩⟩ <;> try rfl
    exact hm _ _ _ _ fun r => by simp [outDim]; ring
  | vecmat k =>
    cases hd
    rcases o with _ | ⟨a, _ | ⟨b, o⟩⟩ <;> try rfl
    exact hm _ _ _ _ fun r => by simp [outDim]; ring
  | matvec k =>
    cases hd
    rcases o with _ | ⟨a, _ | ⟨b, o⟩⟩ <;> try rfl
    exact hm _ _ _ _ fun r => by simp [outDim]; ring
  | conv1dNcwFcw c kw s dd =>
    cases hd
    rcases o with _ | ⟨a, _ | ⟨b, _ | ⟨c, _ | ⟨d, o⟩⟩⟩⟩ <;> try rfl
    exact hm _ _ _ _ fun r => by simp [outDim]; ring
  | conv1dNwcWcf c kw s dd =>
    cases hd
    rcases o with _ | ⟨a, _ | ⟨b, _ | ⟨c, _ | ⟨d, o⟩⟩⟩⟩ <;> try rfl
    exact hm _ _ _ _ fun r => by simp [outDim]; ring
  | conv2dNchwFchw c kh kw sh sw dh dw =>
    cases hd
    rcases o with _ | ⟨a, _ | ⟨b, _ | ⟨c, _ | ⟨d, _ | ⟨e, o⟩⟩⟩⟩⟩ <;> try rfl
    exact hm _ _ _ _ fun r => by simp [outDim]; ring
  | conv2dNhwcFhwc c kh kw sh sw dh dw =>
    cases hd
    rcases o with _ | ⟨a, _ | ⟨b, _ | ⟨c, _ | ⟨d, _ | ⟨e, o⟩⟩⟩⟩⟩ <;> try rfl
    exact hm _ _ _ _ fun r => by simp [outDim]; ring
  | conv2dNhwcHwcf c kh kw sh sw dh dw =>
    cases hd
    rcases o with _ | ⟨a, _ | ⟨b, _ | ⟨c, _ | ⟨d, _ | ⟨e, o⟩⟩⟩⟩⟩ <;> try rfl
    exact hm _ _ _ _ fun r => by simp [outDim]; ring
  | other c t => cases hd

theorem foldl_add (l : List K) (a : K) : l.foldl (fun a t => a + t) a = a + l.sum := by
  induction l generalizing a with
  | nil => simp
  | cons t l ih => rw [List.foldl_cons, ih, List.sum_cons]; ring

theorem sum_map_mul (l : List K) (c : K) : (l.map fun t => t * c).sum = l.sum * c := by
  induction l with
  | nil => simp
  | cons t l ih => rw [List.map_cons, List.sum_cons, List.sum_cons, ih]; ring

variable [LinearOrder K]

theorem step_weights {kind : Kind K} {d : Nat} (hd : matchDim kind = some d) :
    step kind = fun a t => a + t := by
  cases kind <;> first | rfl | cases hd

/-- Scaling the weights scales the result, if nothing else is accumulated. -/
theorem result_scale {l : Lin K} {d : Nat} (hd : matchDim l.kind = some d)
    (hz : ∀ t, l.outs = some t → ∀ o, t o = 0) (g : Nat → K) (o : List Nat) :
    ({ l with weights := fun i => l.weights i * g (i.getD d 0) } : Lin K).result o
      = l.result o * g (o.getD (outDim l.kind) 0) := by
  unfold Lin.result
  simp only [terms_scale hd, step_weights hd, foldl_add, sum_map_mul]
  cases ho : l.outs with
  | none => simp
  | some t => simp [hz t ho o]

/-- Sums are linear in the accumulator. -/
theorem foldl_sums {kind : Kind K} (h : Sums kind) (l : List K) (a b : K) :
    l.foldl (step kind) (a + b) = l.foldl (step kind) a + b := by
  have hs : ∀ a b t, step kind (a + b) t = step kind a t + b := by
    intro a b t
    cases kind with
    | other comb taps =>
      cases comb with
      | add => simp only [step]; ring
      | max => exact absurd h id
      | min => exact absurd h id
      | reduce f => exact absurd h id
      | generic adds f =>
        cases adds with
        | false => exact absurd h id
        | true =>
          have := h (a + b) a t
          simp only [step, this]; ring
    | _ => simp only [step]; ring
  induction l generalizing a with
  | nil => rfl
  | cons t l ih => rw [List.foldl_cons, List.foldl_cons, hs, ih]

end

end Heir.Fuse
