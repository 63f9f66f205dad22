import Verif.Conv.Lemmas

/-! # The elements of the new filters -/

namespace Heir.Conv

variable {α : Type}

open Finset

/-- The index tuples of nested loops, in order. -/
def tuples3 (a b c : Nat) : List (Nat × Nat × Nat) :=
  (List.range a).flatMap fun i => (List.range b).flatMap fun j => (List.range c).map fun k => (i, j, k)

theorem mem_tuples3 {a b c : Nat} {t : Nat × Nat × Nat} :
    t ∈ tuples3 a b c ↔ t.1 < a ∧ t.2.1 < b ∧ t.2.2 < c := by
  obtain ⟨i, j, k⟩ := t
  simp [tuples3]

/-- The same with four loops. -/
def tuples4 (a b c d : Nat) : List (Nat × Nat × Nat × Nat) :=
  (List.range a).flatMap fun i => (tuples3 b c d).map fun t => (i, t)

theorem mem_tuples4 {a b c d : Nat} {t : Nat × Nat × Nat × Nat} :
    t ∈ tuples4 a b c d ↔ t.1 < a ∧ t.2.1 < b ∧ t.2.2.1 < c ∧ t.2.2.2 < d := by
  obtain ⟨i, t⟩ := t
  simp [tuples4, mem_tuples3]

theorem sum_tuples3 [AddCommMonoid α] (a b c : Nat) (g : Nat × Nat × Nat → α) :
    ((tuples3 a b c).map g).sum = ∑ i ∈ range a, ∑ j ∈ range b, ∑ k ∈ range c, g (i, j, k) := by
  unfold tuples3
  rw [sum_flatMap]
  refine Finset.sum_congr rfl fun i _ => ?_
  rw [sum_flatMap]
  exact Finset.sum_congr rfl fun j _ => sum_map_range _ _ _

theorem sum_tuples4 [AddCommMonoid α] (a b c d : Nat) (g : Nat × Nat × Nat × Nat → α) :
    ((tuples4 a b c d).map g).sum =
      ∑ i ∈ range a, ∑ j ∈ range b, ∑ k ∈ range c, ∑ l ∈ range d, g (i, j, k, l) := by
  unfold tuples4
  rw [sum_flatMap]
  refine Finset.sum_congr rfl fun i _ => ?_
  rw [List.map_map]
  exact sum_tuples3 _ _ _ _

theorem loop3 {step : List α → Nat × Nat × Nat → Option (List α)} (a b c : Nat) (v : List α) :
    loop a (fun i => loop b fun j => loop c fun k v => step v (i, j, k)) v =
      (tuples3 a b c).foldlM step v :=
  loop_flatMap a (fun i v => loop_flatMap b (fun j v => loop_map c (fun _ _ => rfl) v) v) v

theorem loop4 {step : List α → Nat × Nat × Nat × Nat → Option (List α)} (a b c d : Nat)
    (v : List α) :
    loop a (fun i => loop b fun j => loop c fun k => loop d fun l v => step v (i, j, k, l)) v =
      (tuples4 a b c d).foldlM step v := by
  refine loop_flatMap a (fun i v => ?_) v
  rw [List.foldlM_map]
  exact loop3 (step := fun v t => step v (i, t)) b c d v

theorem getD_replicate (n j : Nat) (z : α) : (List.replicate n z).getD j z = z := by
  rw [List.getD_eq_getElem?_getD, List.getElem?_replicate]
  split <;> rfl

/-- The undilated filter: the elements of the old one at the multiples of the dilation, and zeros. -/
theorem undilate1D_spec [Zero α] {f c kw d : Nat} {w : List α} (hw : w.length = f * c * kw)
    (hd : 1 ≤ d) : ∃ r, undilate1D f c kw d w = some r ∧
      r.length = f * c * newKernelExtent d kw ∧ ∀ fi < f, ∀ ci < c,
        (∀ ki < kw, r.getD ((fi * c + ci) * newKernelExtent d kw + ki * d) 0 =
          w.getD ((fi * c + ci) * kw + ki) 0) ∧
        ∀ u < newKernelExtent d kw, (∀ ki < kw, ki * d ≠ u) →
          r.getD ((fi * c + ci) * newKernelExtent d kw + u) 0 = 0 := by
  have hdst : ∀ i j k : Nat, i * (c * newKernelExtent d kw) + j * newKernelExtent d kw +
      k * d = (i * c + j) * newKernelExtent d kw + k * d := fun i j k => by ring
  have hsrc : ∀ i j k : Nat, i * (c * kw) + j * kw + k = (i * c + j) * kw + k :=
    fun i j k => by ring
  obtain ⟨r, h1, h2, h3, h4⟩ := set_loop
    (dst := fun t : Nat × Nat × Nat => t.1 * (c * newKernelExtent d kw) +
      t.2.1 * newKernelExtent d kw + t.2.2 * d)
    (val := fun t => w[t.1 * (c * kw) + t.2.1 * kw + t.2.2]?) (tuples3 f c kw)
    (List.replicate (f * c * newKernelExtent d kw) 0)
    (by
      intro t ht
      obtain ⟨a, b, e⟩ := mem_tuples3.1 ht
      rw [hdst, List.length_replicate]
      exact pair_lt (pair_lt a b) (extent_lt e))
    (by
      intro t ht
      obtain ⟨a, b, e⟩ := mem_tuples3.1 ht
      refine ⟨_, List.getElem?_eq_getElem (?_ : _ < w.length)⟩
      rw [hsrc, hw]
      exact pair_lt (pair_lt a b) e)
    (by
      intro t ht t' ht' h
      obtain ⟨a, b, e⟩ := mem_tuples3.1 ht
      obtain ⟨a', b', e'⟩ := mem_tuples3.1 ht'
      simp only [hdst] at h
      obtain ⟨x, y⟩ := (pair_inj (extent_lt e) (extent_lt e')).1 h
      have y := Nat.eq_of_mul_eq_mul_right hd y
      rw [hsrc, hsrc, x, y])
  refine ⟨r, (loop3 f c kw _).trans h1, by rw [h2, List.length_replicate], ?_⟩
  intro fi hf ci hc
  refine ⟨?_, ?_⟩
  · intro ki hk
    have := h3 (fi, ci, ki) (mem_tuples3.2 ⟨hf, hc, hk⟩)
    simp only [hdst, hsrc] at this
    rw [List.getD_eq_getElem?_getD, List.getD_eq_getElem?_getD, this]
  · intro u hu hne
    rw [List.getD_eq_getElem?_getD, h4, ← List.getD_eq_getElem?_getD, getD_replicate]
    intro t ht h
    obtain ⟨a, b, e⟩ := mem_tuples3.1 ht
    rw [hdst] at h
    exact hne _ e ((pair_inj (extent_lt e) hu).1 h).2

theorem undilate2D_spec [Zero α] {f c kh kw dh dw : Nat} {w : List α}
    (hw : w.length = f * c * kh * kw) (hdh : 1 ≤ dh) (hdw : 1 ≤ dw) :
    ∃ r, undilate2D f c kh kw dh dw w = some r ∧
      r.length = f * c * newKernelExtent dh kh * newKernelExtent dw kw ∧ ∀ fi < f, ∀ ci < c,
        (∀ i < kh, ∀ j < kw,
          r.getD (((fi * c + ci) * newKernelExtent dh kh + i * dh) * newKernelExtent dw kw + j * dw) 0 =
          w.getD (((fi * c + ci) * kh + i) * kw + j) 0) ∧
        ∀ u < newKernelExtent dh kh, ∀ v < newKernelExtent dw kw,
          ((∀ i < kh, i * dh ≠ u) ∨ ∀ j < kw, j * dw ≠ v) →
          r.getD (((fi * c + ci) * newKernelExtent dh kh + u) * newKernelExtent dw kw + v) 0 = 0 := by
  obtain ⟨r, h1, h2, h3, h4⟩ := set_loop
    (dst := fun t : Nat × Nat × Nat × Nat => ((t.1 * c + t.2.1) * newKernelExtent dh kh +
      t.2.2.1 * dh) * newKernelExtent dw kw + t.2.2.2 * dw)
    (val := fun t => w[((t.1 * c + t.2.1) * kh + t.2.2.1) * kw + t.2.2.2]?) (tuples4 f c kh kw)
    (List.replicate (f * c * newKernelExtent dh kh * newKernelExtent dw kw) 0)
    (by
      intro t ht
      obtain ⟨a, b, e, g⟩ := mem_tuples4.1 ht
      rw [List.length_replicate]
      exact pair_lt (pair_lt (pair_lt a b) (extent_lt e)) (extent_lt g))
    (by
      intro t ht
      obtain ⟨a, b, e, g⟩ := mem_tuples4.1 ht
      refine ⟨_, List.getElem?_eq_getElem (?_ : _ < w.length)⟩
      rw [hw]
      exact pair_lt (pair_lt (pair_lt a b) e) g)
    (by
      intro t ht t' ht' h
      obtain ⟨a, b, e, g⟩ := mem_tuples4.1 ht
      obtain ⟨a', b', e', g'⟩ := mem_tuples4.1 ht'
      obtain ⟨h, z⟩ := (pair_inj (extent_lt g) (extent_lt g')).1 h
      obtain ⟨x, y⟩ := (pair_inj (extent_lt e) (extent_lt e')).1 h
      have y := Nat.eq_of_mul_eq_mul_right hdh y
      have z := Nat.eq_of_mul_eq_mul_right hdw z
      simp only [x, y, z])
  refine ⟨r, (loop4 f c kh kw _).trans h1, by rw [h2, List.length_replicate], ?_⟩
  intro fi hf ci hc
  refine ⟨?_, ?_⟩
  · intro i hi j hj
    have := h3 (fi, ci, i, j) (mem_tuples4.2 ⟨hf, hc, hi, hj⟩)
    rw [List.getD_eq_getElem?_getD, List.getD_eq_getElem?_getD, this]
  · intro u hu v hv hne
    rw [List.getD_eq_getElem?_getD, h4, ← List.getD_eq_getElem?_getD, getD_replicate]
    intro t ht h
    obtain ⟨a, b, e, g⟩ := mem_tuples4.1 ht
    obtain ⟨h, z⟩ := (pair_inj (extent_lt g) hv).1 h
    obtain ⟨-, y⟩ := (pair_inj (extent_lt e) hu).1 h
    rcases hne with hne | hne
    · exact hne _ e y
    · exact hne _ g z

/-- A loop that acts only where the two outer counters agree. -/
theorem diag_loop {τ : Type} {step : List α → τ → Option (List α)} {L : Nat → Nat → List τ}
    {body : Nat → Nat → List α → Option (List α)} (a b : Nat)
    (h : ∀ i j v, body i j v = (L i j).foldlM step v) (v : List α) :
    loop a (fun i => loop b fun j v => if i = j then body i j v else some v) v =
      ((List.range a).flatMap fun i => (List.range b).flatMap fun j =>
        if i = j then L i j else []).foldlM step v := by
  refine loop_flatMap a (fun i v => loop_flatMap b (fun j v => ?_) v) v
  by_cases e : i = j
  · rw [if_pos e, if_pos e, h]
  · rw [if_neg e, if_neg e]; rfl

/-- The kernel of ones (or averages) on the diagonal. -/
theorem poolKernel1D_spec [Zero α] {c w : Nat} {avg : α} : ∃ r, poolKernel1D c w avg = some r ∧
    r.length = c * c * w ∧ ∀ f < c, ∀ ci < c, ∀ k < w,
      r.getD ((f * c + ci) * w + k) 0 = if f = ci then avg else 0 := by
  have hmem : ∀ t : Nat × Nat × Nat, t ∈ ((List.range c).flatMap fun i => (List.range c).flatMap
      fun j => if i = j then (List.range w).map fun k => (i, j, k) else []) ↔
      t.1 < c ∧ t.2.1 = t.1 ∧ t.2.2 < w := by
    rintro ⟨i, j, k⟩
    simp only [List.mem_flatMap, List.mem_range]
    constructor
    · rintro ⟨i', hi, j', hj, h⟩
      split at h
      · rename_i e
        obtain ⟨k', hk, h⟩ := List.mem_map.1 h
        injection h with h1 h; injection h with h2 h3
        subst h1; subst h2; subst h3
        exact ⟨hi, e.symm, List.mem_range.1 hk⟩
      · exact absurd h (by simp)
    · rintro ⟨hi, e, hk⟩
      subst e
      exact ⟨j, hi, j, hi, by simpa using hk⟩
  have hdst : ∀ i j k : Nat, i * (c * w) + j * w + k = (i * c + j) * w + k :=
    fun i j k => by ring
  obtain ⟨r, h1, h2, h3, h4⟩ := set_loop
    (dst := fun t : Nat × Nat × Nat => t.1 * (c * w) + t.2.1 * w + t.2.2)
    (val := fun _ => some avg) _ (List.replicate (c * c * w) 0)
    (by
      intro t ht
      obtain ⟨a, b, e⟩ := (hmem t).1 ht
      rw [hdst, List.length_replicate]
      exact pair_lt (pair_lt a (b ▸ a)) e)
    (fun _ _ => ⟨_, rfl⟩) (fun _ _ _ _ _ => rfl)
  refine ⟨r, (diag_loop c c (fun i j v => loop_map (g := fun k => (i, j, k)) w
    (fun _ _ => rfl) v) _).trans h1, by rw [h2, List.length_replicate], ?_⟩
  intro f hf ci hc k hk
  by_cases e : f = ci
  · subst e
    rw [if_pos rfl, List.getD_eq_getElem?_getD]
    have := h3 (f, f, k) ((hmem _).2 ⟨hf, rfl, hk⟩)
    simp only [hdst] at this
    rw [this]; rfl
  · rw [if_neg e, List.getD_eq_getElem?_getD, h4, ← List.getD_eq_getElem?_getD, getD_replicate]
    intro t ht h
    obtain ⟨a, b, g⟩ := (hmem t).1 ht
    rw [hdst] at h
    obtain ⟨x, -⟩ := (pair_inj g hk).1 h
    obtain ⟨x, y⟩ := (pair_inj (b ▸ a) hc).1 x
    exact e (by rw [← x, ← y, b])

theorem poolKernel2D_spec [Zero α] {c kh kw : Nat} {avg : α} :
    ∃ r, poolKernel2D c kh kw avg = some r ∧
    r.length = c * c * kh * kw ∧ ∀ f < c, ∀ ci < c, ∀ i < kh, ∀ j < kw,
      r.getD (((f * c + ci) * kh + i) * kw + j) 0 = if f = ci then avg else 0 := by
  have hmem : ∀ t : Nat × Nat × Nat × Nat, t ∈ ((List.range c).flatMap fun i => (List.range c).flatMap
      fun j => if i = j then (List.range kh).flatMap fun k => (List.range kw).map fun l => (i, j, k, l)
        else []) ↔ t.1 < c ∧ t.2.1 = t.1 ∧ t.2.2.1 < kh ∧ t.2.2.2 < kw := by
    rintro ⟨i, j, k, l⟩
    simp only [List.mem_flatMap, List.mem_range]
    constructor
    · rintro ⟨i', hi, j', hj, h⟩
      split at h
      · rename_i e
        obtain ⟨k', hk, h⟩ := List.mem_flatMap.1 h
        obtain ⟨l', hl, h⟩ := List.mem_map.1 h
        injection h with h1 h; injection h with h2 h; injection h with h3 h4
        subst h1; subst h2; subst h3; subst h4
        exact ⟨hi, e.symm, List.mem_range.1 hk, List.mem_range.1 hl⟩
      · exact absurd h (by simp)
    · rintro ⟨hi, e, hk, hl⟩
      subst e
      exact ⟨j, hi, j, hi, by simpa using ⟨hk, hl⟩⟩
  have hdst : ∀ i j k l : Nat, i * (c * kh * kw) + j * (kh * kw) + k * kw + l =
      ((i * c + j) * kh + k) * kw + l := fun i j k l => by ring
  obtain ⟨r, h1, h2, h3, h4⟩ := set_loop
    (dst := fun t : Nat × Nat × Nat × Nat => t.1 * (c * kh * kw) + t.2.1 * (kh * kw) + t.2.2.1 * kw +
      t.2.2.2)
    (val := fun _ => some avg) _ (List.replicate (c * c * kh * kw) 0)
    (by
      intro t ht
      obtain ⟨a, b, e, g⟩ := (hmem t).1 ht
      rw [hdst, List.length_replicate]
      exact pair_lt (pair_lt (pair_lt a (b ▸ a)) e) g)
    (fun _ _ => ⟨_, rfl⟩) (fun _ _ _ _ _ => rfl)
  refine ⟨r, (diag_loop c c (fun i j v => loop_flatMap kh (fun k v =>
    loop_map (g := fun l => (i, j, k, l)) kw (fun _ _ => rfl) v) v) _).trans h1,
    by rw [h2, List.length_replicate], ?_⟩
  intro f hf ci hc k hk l hl
  by_cases e : f = ci
  · subst e
    rw [if_pos rfl, List.getD_eq_getElem?_getD]
    have := h3 (f, f, k, l) ((hmem _).2 ⟨hf, rfl, hk, hl⟩)
    simp only [hdst] at this
    rw [this]; rfl
  · rw [if_neg e, List.getD_eq_getElem?_getD, h4, ← List.getD_eq_getElem?_getD, getD_replicate]
    intro t ht h
    obtain ⟨a, b, g, g'⟩ := (hmem t).1 ht
    rw [hdst] at h
    obtain ⟨x, -⟩ := (pair_inj g' hl).1 h
    obtain ⟨x, -⟩ := (pair_inj g hk).1 x
    obtain ⟨x, y⟩ := (pair_inj (b ▸ a) hc).1 x
    exact e (by rw [← x, ← y, b])

/-! ## The fused filter -/

/-- The rows (columns) a pooling row and a kernel row read together. -/
def fusedPos (poolDilation convStride convDilation p k : Nat) : Nat :=
  p * poolDilation * convStride + k * convDilation

theorem fusedPos_lt {P K pd cs cd p k : Nat} (hp : p < P) (hk : k < K) :
    fusedPos pd cs cd p k < (P - 1) * pd * cs + (K - 1) * cd + 1 := by
  unfold fusedPos
  have h1 : p * pd * cs ≤ (P - 1) * pd * cs :=
    Nat.mul_le_mul_right _ (Nat.mul_le_mul_right _ (by omega))
  have h2 : k * cd ≤ (K - 1) * cd := Nat.mul_le_mul_right _ (by omega)
  omega

/-- An element of the fused filter is the sum of the scaled weights that land there. -/
theorem fuse_spec [AddCommMonoid α] {w : List α} {conv : ConvParams} {pool : PoolParams}
    {scale : α → α} (hw : w.length = conv.F * conv.C * conv.kH * conv.kW) :
    ∃ r, fuseFiltersImpl w conv pool (· + ·) scale 0 = some r ∧
      r.length = conv.F * conv.C * effH conv pool * effW conv pool ∧
      ∀ f < conv.F, ∀ c < conv.C, ∀ u < effH conv pool, ∀ v < effW conv pool,
        r.getD (((f * conv.C + c) * effH conv pool + u) * effW conv pool + v) 0 =
        ∑ ph ∈ range pool.pH, ∑ pw ∈ range pool.pW, ∑ kh ∈ range conv.kH, ∑ kw ∈ range conv.kW,
          if fusedPos pool.dilationH conv.strideH conv.dilationH ph kh = u ∧
              fusedPos pool.dilationW conv.strideW conv.dilationW pw kw = v then
            scale (w.getD (((f * conv.C + c) * conv.kH + kh) * conv.kW + kw) 0) else 0 := by
  let inner : List (Nat × Nat × Nat × Nat) := tuples4 pool.pH pool.pW conv.kH conv.kW
  let ts : List (Nat × Nat × Nat × Nat × Nat × Nat) :=
    (List.range conv.F).flatMap fun f => (List.range conv.C).flatMap fun c =>
      inner.map fun t => (f, c, t)
  have hmem : ∀ t, t ∈ ts ↔ t.1 < conv.F ∧ t.2.1 < conv.C ∧ t.2.2.1 < pool.pH ∧
      t.2.2.2.1 < pool.pW ∧ t.2.2.2.2.1 < conv.kH ∧ t.2.2.2.2.2 < conv.kW := by
    rintro ⟨f, c, t⟩
    simp only [ts, inner, List.mem_flatMap, List.mem_range, List.mem_map, mem_tuples4]
    constructor
    · rintro ⟨f', hf, c', hc, t', ht, h⟩
      injection h with h1 h
      injection h with h2 h3
      subst h1; subst h2; subst h3
      exact ⟨hf, hc, ht⟩
    · rintro ⟨hf, hc, ht⟩
      exact ⟨f, hf, c, hc, t, ht, rfl⟩
  let dst : Nat × Nat × Nat × Nat × Nat × Nat → Nat := fun t =>
    ((t.1 * conv.C + t.2.1) * effH conv pool +
      fusedPos pool.dilationH conv.strideH conv.dilationH t.2.2.1 t.2.2.2.2.1) * effW conv pool +
      fusedPos pool.dilationW conv.strideW conv.dilationW t.2.2.2.1 t.2.2.2.2.2
  let src : Nat × Nat × Nat × Nat × Nat × Nat → Nat := fun t =>
    ((t.1 * conv.C + t.2.1) * conv.kH + t.2.2.2.2.1) * conv.kW + t.2.2.2.2.2
  obtain ⟨r, h1, h2, h3⟩ := add_loop (dst := dst) (val := fun t => (w[src t]?).map scale) ts
    (List.replicate (conv.F * conv.C * effH conv pool * effW conv pool) 0)
    (by
      intro t ht
      obtain ⟨a, b, e1, e2, e3, e4⟩ := (hmem t).1 ht
      rw [List.length_replicate]
      exact pair_lt (pair_lt (pair_lt a b) (fusedPos_lt e1 e3)) (fusedPos_lt e2 e4))
    (by
      intro t ht
      obtain ⟨a, b, e1, e2, e3, e4⟩ := (hmem t).1 ht
      have : src t < w.length := by rw [hw]; exact pair_lt (pair_lt (pair_lt a b) e3) e4
      exact ⟨scale w[src t], by rw [List.getElem?_eq_getElem this]; rfl⟩)
  refine ⟨r, ?_, by rw [h2, List.length_replicate], ?_⟩
  · refine Eq.trans ?_ h1
    refine loop_flatMap conv.F (fun f v => loop_flatMap conv.C (fun c v => ?_) v) _
    rw [List.foldlM_map]
    refine Eq.trans (loop4 (step := fun v (t : Nat × Nat × Nat × Nat) =>
      (w[src (f, c, t)]?).bind fun weight => (v[dst (f, c, t)]?).bind fun old =>
        write v (dst (f, c, t)) (old + scale weight)) _ _ _ _ v) ?_
    congr 1
    funext v t
    cases w[src (f, c, t)]? <;> rfl
  · intro f hf c hc u hu v hv
    rw [h3, getD_replicate, zero_add]
    have e1 : (ts.map fun t => if dst t = ((f * conv.C + c) * effH conv pool + u) * effW conv pool + v
        then ((w[src t]?).map scale).getD 0 else 0).sum =
        ∑ f' ∈ range conv.F, ∑ c' ∈ range conv.C, ∑ ph ∈ range pool.pH, ∑ pw ∈ range pool.pW,
          ∑ kh ∈ range conv.kH, ∑ kw ∈ range conv.kW,
          if dst (f', c', ph, pw, kh, kw) =
            ((f * conv.C + c) * effH conv pool + u) * effW conv pool + v
          then ((w[src (f', c', ph, pw, kh, kw)]?).map scale).getD 0 else 0 := by
      rw [sum_flatMap]
      refine Finset.sum_congr rfl fun f' _ => ?_
      rw [sum_flatMap]
      refine Finset.sum_congr rfl fun c' _ => ?_
      rw [List.map_map]
      exact sum_tuples4 _ _ _ _ _
    rw [e1, Finset.sum_eq_single f, Finset.sum_eq_single c]
    · refine Finset.sum_congr rfl fun ph h1 => Finset.sum_congr rfl fun pw h2 =>
        Finset.sum_congr rfl fun kh h3 => Finset.sum_congr rfl fun kw h4 => ?_
      rw [mem_range] at h1 h2 h3 h4
      have hs : src (f, c, ph, pw, kh, kw) < w.length := by
        rw [hw]; exact pair_lt (pair_lt (pair_lt hf hc) h3) h4
      have hiff : dst (f, c, ph, pw, kh, kw) =
          ((f * conv.C + c) * effH conv pool + u) * effW conv pool + v ↔
          fusedPos pool.dilationH conv.strideH conv.dilationH ph kh = u ∧
            fusedPos pool.dilationW conv.strideW conv.dilationW pw kw = v := by
        refine (pair_inj (fusedPos_lt h2 h4) hv).trans (and_congr_left fun _ => ?_)
        refine (pair_inj (fusedPos_lt h1 h3) hu).trans ?_
        simp
      rw [if_congr hiff rfl rfl, List.getElem?_eq_getElem hs, List.getD_eq_getElem?_getD,
        show ((f * conv.C + c) * conv.kH + kh) * conv.kW + kw = src (f, c, ph, pw, kh, kw) from rfl,
        List.getElem?_eq_getElem hs]
      rfl
    · intro c' hc' hne
      refine Finset.sum_eq_zero fun ph h1 => Finset.sum_eq_zero fun pw h2 =>
        Finset.sum_eq_zero fun kh h3 => Finset.sum_eq_zero fun kw h4 => ?_
      rw [mem_range] at h1 h2 h3 h4
      refine if_neg fun h => hne ?_
      have h := ((pair_inj (fusedPos_lt h2 h4) hv).1 h).1
      have h := ((pair_inj (fusedPos_lt h1 h3) hu).1 h).1
      exact ((pair_inj (mem_range.1 hc') hc).1 h).2
    · intro h; exact absurd (mem_range.2 hc) h
    · intro f' hf' hne
      refine Finset.sum_eq_zero fun c' hc' => Finset.sum_eq_zero fun ph h1 =>
        Finset.sum_eq_zero fun pw h2 =>
        Finset.sum_eq_zero fun kh h3 => Finset.sum_eq_zero fun kw h4 => ?_
      rw [mem_range] at h1 h2 h3 h4
      refine if_neg fun h => hne ?_
      have h := ((pair_inj (fusedPos_lt h2 h4) hv).1 h).1
      have h := ((pair_inj (fusedPos_lt h1 h3) hu).1 h).1
      exact ((pair_inj (mem_range.1 hc') hc).1 h).1
    · intro h; exact absurd (mem_range.2 hf) h

end Heir.Conv
