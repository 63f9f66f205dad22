import Verif.Layout.Props
import Verif.Toeplitz.Result
import Mathlib.Algebra.BigOperators.Intervals
import Mathlib.Data.Finset.Prod
import Mathlib.Tactic.NormNum

/-! # C92, C93, C94: convolutions as matrix-vector products -/

namespace Heir.Toeplitz

open Heir.Layout Heir.Kernel Heir.Dag Finset

variable {R : Type} [CommRing R]

/-! ## C92: the expanded filter -/

/-- C92: the product of the expanded filter of `conv_1d` with the data is the convolution of the
padded data, for every stride and padding. -/
theorem C92_conv1d (d : Conv1) (hs : 1 ≤ d.s) (hk : d.k ≤ d.w + 2 * d.p) (F : Nat → R)
    (A : Nat → Nat → R) (hA : Packs d.filter F d.out d.w A) (x : Nat → R) (o : Nat) (ho : o < d.out) :
    ∑ j ∈ range d.w, A o j * x j = conv1 d.k d.s 1 F (pad1 d.w d.p x) o := by
  rw [row_dot hA (filter1_unambiguous d hs hk) ho (range d.k)
    (fun i => d.p ≤ o * d.s + i ∧ o * d.s + i < d.p + d.w) (fun i => o * d.s + i - d.p)
    (fun i j => by
      rw [filter1_iff d hs hk, mem_range]
      exact ⟨fun h => h.2, fun h => ⟨ho, h⟩⟩)
    (fun i _ h => by omega) x]
  simp only [conv1, pad1, Nat.mul_one]

example : (Conv1.mk 5 3 2 1).out = 3 ∧ (Conv1.mk 5 3 2 1).filter 1 2 4 := by
  refine ⟨rfl, (filter1_iff _ (by decide) (by decide) _ _ _).2 ?_⟩
  decide

/-- C92: the product of the expanded filter of `conv_2d` with the flattened data. -/
theorem C92_conv2d (d : Conv2) (F : Nat × Nat → R) (A : Nat → Nat → R)
    (hA : Packs d.filter F d.rows d.cols A) (X : Nat → R) (o q : Nat) (ho : o < d.oh) (hq : q < d.ow) :
    ∑ j ∈ range d.cols, A (o * d.ow + q) j * X j =
      conv2 d.kh d.kw d.sh d.sw 1 1 (fun i j => F (i, j))
        (pad2 d.h d.w d.p fun i j => X (i * d.w + j)) o q := by
  rw [row_dot hA (filter2_unambiguous d) (digits_lt ho hq) (range d.kh ×ˢ range d.kw)
    (fun i => (d.p ≤ o * d.sh + i.1 ∧ o * d.sh + i.1 < d.p + d.h) ∧
        d.p ≤ q * d.sw + i.2 ∧ q * d.sw + i.2 < d.p + d.w)
    (fun i => (o * d.sh + i.1 - d.p) * d.w + (q * d.sw + i.2 - d.p))
    (fun i j => by
      rw [filter2_iff d i o q j ho hq, mem_product, mem_range, mem_range]
      simp only [and_assoc])
    (fun i _ h => digits_lt (by omega) (by omega)) X, sum_product]
  simp only [conv2, pad2, Nat.mul_one]

example : (Conv2.mk 4 4 3 3 1 2 1).oh = 4 ∧ (Conv2.mk 4 4 3 3 1 2 1).ow = 2 ∧
    (Conv2.mk 4 4 3 3 1 2 1).filter (0, 2) (3 * 2 + 1) 11 := by
  refine ⟨rfl, rfl, (filter2_iff _ _ 3 1 _ (by decide) (by decide)).2 ?_⟩
  decide

/-- C92: the product of the expanded filter of `conv_1d_ncw_fcw` with the flattened data. -/
theorem C92_conv1dMulti (d : Conv1) (hs : 1 ≤ d.s) (hk : d.k ≤ d.w + 2 * d.p) (nf nc : Nat)
    (F : Nat × Nat × Nat → R) (A : Nat → Nat → R)
    (hA : Packs (d.filterMulti nf nc) F (nf * d.out) (nc * d.w) A) (X : Nat → R) (f o : Nat)
    (hf : f < nf) (ho : o < d.out) :
    ∑ j ∈ range (nc * d.w), A (f * d.out + o) j * X j =
      conv1Multi nc d.k d.s 1 (fun f ch i => F (f, ch, i))
        (fun ch => pad1 d.w d.p fun j => X (ch * d.w + j)) f o := by
  have hb := filter1_bound d hs hk
  rw [row_dot hA (channels_unambiguous hb (filter1_unambiguous d hs hk)) (digits_lt hf ho)
    (range nf ×ˢ range nc ×ˢ range d.k)
    (fun i => i.1 = f ∧ d.p ≤ o * d.s + i.2.2 ∧ o * d.s + i.2.2 < d.p + d.w)
    (fun i => i.2.1 * d.w + (o * d.s + i.2.2 - d.p))
    (fun i j => by
      rw [Conv1.filterMulti, channels_iff hb i f o j ho]
      simp only [filter1_iff d hs hk, mem_product, mem_range]
      constructor
      · rintro ⟨_, h2, h3, sc, ⟨_, h5, h6, rfl⟩, h7⟩
        exact ⟨⟨by omega, h3, h5⟩, ⟨h2, h6⟩, h7⟩
      · rintro ⟨⟨h1, h2, h3⟩, ⟨h4, h5⟩, h6⟩
        exact ⟨hf, h4, h2, _, ⟨ho, h3, h5, rfl⟩, h6⟩)
    (fun i h h' => by
      simp only [mem_product, mem_range] at h
      exact digits_lt h.2.1 (by omega)) X,
    sum_product, sum_eq_single_of_mem f (mem_range.2 hf)
      (fun f' _ hne => sum_eq_zero fun i _ => by rw [if_neg fun h => hne h.1, mul_zero]), sum_product]
  simp only [conv1Multi, conv1, pad1, Nat.mul_one, true_and]

example : (Conv1.mk 4 2 2 0).out = 2 ∧
    (Conv1.mk 4 2 2 0).filterMulti 2 3 (1, 2, 1) (1 * 2 + 1) 11 := by
  refine ⟨rfl, (channels_iff (filter1_bound _ (by decide) (by decide)) _ 1 1 _ (by decide)).2
    ⟨by decide, rfl, by decide, 3, (filter1_iff _ (by decide) (by decide) _ _ _).2 ?_, rfl⟩⟩
  decide

/-- C92: the product of the expanded filter of `conv_2d_nchw_fchw` with the flattened data. -/
theorem C92_conv2dMulti (d : Conv2) (nf nc : Nat) (F : Nat × Nat × Nat × Nat → R) (A : Nat → Nat → R)
    (hA : Packs (d.filterMulti nf nc) F (nf * d.rows) (nc * d.cols) A) (X : Nat → R) (f o q : Nat)
    (hf : f < nf) (ho : o < d.oh) (hq : q < d.ow) :
    ∑ j ∈ range (nc * d.cols), A ((f * d.oh + o) * d.ow + q) j * X j =
      conv2Multi nc d.kh d.kw d.sh d.sw 1 1 (fun f ch i j => F (f, ch, i, j))
        (fun ch => pad2 d.h d.w d.p fun i j => X ((ch * d.h + i) * d.w + j)) f o q := by
  have hb := filter2_bound d
  have hrow : o * d.ow + q < d.rows := digits_lt ho hq
  have e : (f * d.oh + o) * d.ow + q = f * d.rows + (o * d.ow + q) := by unfold Conv2.rows; ring
  rw [e, row_dot hA (channels_unambiguous hb (filter2_unambiguous d)) (digits_lt hf hrow)
    (range nf ×ˢ range nc ×ˢ range d.kh ×ˢ range d.kw)
    (fun i => i.1 = f ∧ (d.p ≤ o * d.sh + i.2.2.1 ∧ o * d.sh + i.2.2.1 < d.p + d.h) ∧
        d.p ≤ q * d.sw + i.2.2.2 ∧ q * d.sw + i.2.2.2 < d.p + d.w)
    (fun i => (i.2.1 * d.h + (o * d.sh + i.2.2.1 - d.p)) * d.w + (q * d.sw + i.2.2.2 - d.p))
    (fun i j => by
      rw [Conv2.filterMulti, channels_iff hb i f _ j hrow]
      simp only [filter2_iff d _ o q _ ho hq, mem_product, mem_range]
      have e : ∀ a b, i.2.1 * d.cols + (a * d.w + b) = (i.2.1 * d.h + a) * d.w + b := by
        intro a b; unfold Conv2.cols; ring
      constructor
      · rintro ⟨_, h2, h3, sc, ⟨h4, h5, h6, rfl⟩, h7⟩
        exact ⟨⟨by omega, h3, h4, h5⟩, ⟨h2, h6⟩, by rw [h7, e]⟩
      · rintro ⟨⟨h1, h2, h3, h3'⟩, ⟨h4, h5⟩, h6⟩
        exact ⟨hf, h4, h2, _, ⟨h3, h3', h5, rfl⟩, by rw [h6, e]⟩)
    (fun i h h' => by
      simp only [mem_product, mem_range] at h
      have := digits_lt (digits_lt h.2.1 (show o * d.sh + i.2.2.1 - d.p < d.h by omega))
        (show q * d.sw + i.2.2.2 - d.p < d.w by omega)
      have e : nc * d.h * d.w = nc * d.cols := by unfold Conv2.cols; ring
      omega) X,
    sum_product, sum_eq_single_of_mem f (mem_range.2 hf)
      (fun f' _ hne => sum_eq_zero fun i _ => by rw [if_neg fun h => hne h.1, mul_zero]), sum_product]
  simp only [sum_product, conv2Multi, conv2, pad2, Nat.mul_one, true_and]

/-- C92: no position of an expanded filter gets two elements of the filter, and no position is
outside the expanded matrix. -/
theorem C92_unambiguous (d1 : Conv1) (hs : 1 ≤ d1.s) (hk : d1.k ≤ d1.w + 2 * d1.p) (d2 : Conv2)
    (nf nc : Nat) :
    (Unambiguous d1.filter ∧ IsBound d1.filter d1.out d1.w) ∧
    (Unambiguous d2.filter ∧ IsBound d2.filter (d2.oh * d2.ow) (d2.h * d2.w)) ∧
    (Unambiguous (d1.filterMulti nf nc) ∧
      IsBound (d1.filterMulti nf nc) (nf * d1.out) (nc * d1.w)) ∧
    (Unambiguous (d2.filterMulti nf nc) ∧
      IsBound (d2.filterMulti nf nc) (nf * (d2.oh * d2.ow)) (nc * (d2.h * d2.w))) := by
  have b1 := filter1_bound d1 hs hk
  have u1 := filter1_unambiguous d1 hs hk
  have b2 := filter2_bound d2
  have u2 := filter2_unambiguous d2
  exact ⟨⟨u1, b1⟩, ⟨u2, b2⟩, ⟨channels_unambiguous b1 u1, channels_bound b1⟩,
    channels_unambiguous b2 u2, channels_bound b2⟩

/-- C92: the relations of `get2dConvChwFchwFilterAsSequence` before the diagonalization expand the
filter as `get2dConvChwFchwFilterRelation` does, with the rows in the order of the interchange. -/
theorem C92_sequence (d : Conv2) (nf nc : Nat) (idx : Nat × Nat × Nat × Nat) (row col : Nat) :
    (d.matrix nf nc false idx row col ↔ d.filterMulti nf nc idx row col) ∧
    (1 ≤ d.sh → d.sh * d.sh ∣ nf → (d.matrix nf nc true idx row col ↔
      ∃ r, d.filterMulti nf nc idx r col ∧ interchange2 nf d.oh d.ow d.sh r row)) := by
  refine ⟨matrix_false_iff d nf nc idx row col, fun hg hc => ?_⟩
  rw [matrix_true_iff d nf nc hg hc]
  constructor
  · rintro ⟨r, c, h1, h2, rfl⟩; exact ⟨r, h1, h2⟩
  · rintro ⟨r, h1, h2⟩; exact ⟨r, col, h1, h2, rfl⟩

/-! ## C94: the row interchange and the layouts of the results -/

/-- C94: the one-dimensional row interchange permutes the rows when the gap divides the channels. -/
theorem C94_interchange1 (c w g : Nat) (hg : 1 ≤ g) (hc : g ∣ c) :
    (∀ i, i < c * w → ∃! o, interchange1 c w g i o) ∧ (∀ o, o < c * w → ∃! i, interchange1 c w g i o) ∧
    ∀ i o, interchange1 c w g i o → i < c * w ∧ o < c * w := by
  have h := interchange1_perm (w := w) hg hc
  refine ⟨fun i hi => ?_, fun o ho => ?_, fun i o => h.bound⟩
  · obtain ⟨o, ho⟩ := h.total i hi
    exact ⟨o, ho, fun o' ho' => h.functional ho' ho⟩
  · obtain ⟨i, hi⟩ := h.onto o ho
    exact ⟨i, hi, fun i' hi' => h.injective hi' hi⟩

/-- C94: the two-dimensional row interchange permutes the rows when the square of the gap divides
the channels. -/
theorem C94_interchange2 (c h w g : Nat) (hg : 1 ≤ g) (hc : g * g ∣ c) :
    (∀ i, i < c * h * w → ∃! o, interchange2 c h w g i o) ∧
    (∀ o, o < c * h * w → ∃! i, interchange2 c h w g i o) ∧
    ∀ i o, interchange2 c h w g i o → i < c * h * w ∧ o < c * h * w := by
  have hp := interchange2_perm (w := w) (h := h) hg hc
  refine ⟨fun i hi => ?_, fun o ho => ?_, fun i o => hp.bound⟩
  · obtain ⟨o, ho⟩ := hp.total i hi
    exact ⟨o, ho, fun o' ho' => hp.functional ho' ho⟩
  · obtain ⟨i, hi⟩ := hp.onto o ho
    exact ⟨i, hi, fun i' hi' => hp.injective hi' hi⟩

example : interchange1 4 3 2 (3 * 3 + 1) (1 * 6 + 3) :=
  (interchange1_iff (by decide) (by decide) _ _).2 ⟨1, 1, 1, by decide⟩

example : interchange2 8 2 2 2 ((7 * 2 + 1) * 2 + 0) ((1 * 4 + 3) * 4 + 1) :=
  (interchange2_iff (by decide) (by decide) _ _).2 ⟨1, 0, 1, 1, 1, by decide⟩

/-- The check on the channels is necessary: with three channels and gap 2 the last channel gets no
row. -/
theorem C94_undivided_violated (o : Nat) : ¬ interchange1 3 1 2 2 o := by
  rintro ⟨wi, ci, wo, co, h1, h2, h3, h4, h5, h6, h7, h8, h9, h10⟩
  omega

/-- C94: the result layout of a one-dimensional convolution stores every element and no slot stores
two, over any number of ciphertexts. -/
theorem C94_result1 (c w g N : Nat) (h1 : 1 ≤ c * w) (h2 : c * w ≤ 2 ^ 24) (hN : 1 ≤ N)
    (hN' : N ≤ 2 ^ 24) (b : Bool) (hg : 1 ≤ g) (hc : b = true → g ∣ c) :
    Complete (InBounds [1, c, w]) (result1 c w g N b) ∧ Unambiguous (result1 c w g N b) := by
  have e : [1, c, w].prod = c * w := by simp
  have hfl : ∀ idx, InBounds [1, c, w] idx → flat [1, c, w] idx < c * w := fun idx hb => by
    have := flat_lt hb (pos_of_prod (by omega)) (by omega)
    omega
  have hinj : ∀ idx idx', InBounds [1, c, w] idx → InBounds [1, c, w] idx' →
      flat [1, c, w] idx = flat [1, c, w] idx' → idx = idx' :=
    fun idx idx' h h' e' => flat_inj h h' (pos_of_prod (by omega)) (by omega) e'
  constructor
  · intro idx hb
    cases b with
    | true =>
      have hp := interchange1_perm (w := w) hg (hc rfl)
      obtain ⟨s, hs⟩ := hp.total _ (hfl idx hb)
      exact ⟨_, _, (result1_iff h1 h2 _ _ _ _).2
        ⟨hb, s, hs, toCtSlot_exists (hp.bound hs).2 h2 hN hN'⟩⟩
    | false =>
      exact ⟨_, _, (result1_iff h1 h2 _ _ _ _).2
        ⟨hb, _, rfl, toCtSlot_exists (hfl idx hb) h2 hN hN'⟩⟩
  · intro idx idx' ct slot h h'
    obtain ⟨hb, s, hs, ht⟩ := (result1_iff h1 h2 _ _ _ _).1 h
    obtain ⟨hb', s', hs', ht'⟩ := (result1_iff h1 h2 _ _ _ _).1 h'
    have := toCtSlot_inj ht ht'
    subst this
    refine hinj _ _ hb hb' ?_
    cases b with
    | true => exact (interchange1_perm (w := w) hg (hc rfl)).injective hs hs'
    | false =>
      simp only [Bool.false_eq_true, if_false] at hs hs'
      exact hs.symm.trans hs'

/-- C94: the result layout of a two-dimensional convolution with channels stores every element and
no slot stores two. -/
theorem C94_result2 (c h w g N : Nat) (h1 : 1 ≤ c * h * w) (h2 : c * h * w ≤ 2 ^ 24) (hN : 1 ≤ N)
    (hN' : N ≤ 2 ^ 24) (b : Bool) (hg : 1 ≤ g) (hc : b = true → g * g ∣ c) :
    Complete (InBounds [1, c, h, w]) (result2Multi c h w g N b) ∧
      Unambiguous (result2Multi c h w g N b) := by
  have e : [1, c, h, w].prod = c * h * w := by simp [Nat.mul_assoc]
  have hfl : ∀ idx, InBounds [1, c, h, w] idx → flat [1, c, h, w] idx < c * h * w := fun idx hb => by
    have := flat_lt hb (pos_of_prod (by omega)) (by omega)
    omega
  have hinj : ∀ idx idx', InBounds [1, c, h, w] idx → InBounds [1, c, h, w] idx' →
      flat [1, c, h, w] idx = flat [1, c, h, w] idx' → idx = idx' :=
    fun idx idx' h h' e' => flat_inj h h' (pos_of_prod (by omega)) (by omega) e'
  have r2 := fun idx ct slot => result2_iff (dims := [1, c, h, w]) (by omega) (by omega) N idx ct slot
  rw [e] at r2
  cases b with
  | false =>
    have hiff : ∀ idx ct slot, result2Multi c h w g N false idx ct slot ↔ _ := r2
    constructor
    · intro idx hb
      exact ⟨_, _, (hiff _ _ _).2 ⟨hb, toCtSlot_exists (hfl idx hb) h2 hN hN'⟩⟩
    · intro idx idx' ct slot h h'
      obtain ⟨hb, ht⟩ := (hiff _ _ _).1 h
      obtain ⟨hb', ht'⟩ := (hiff _ _ _).1 h'
      exact hinj _ _ hb hb' (toCtSlot_inj ht ht')
  | true =>
    have hp := interchange2_perm (w := w) (h := h) hg (hc rfl)
    have hpad := padded_ge h1 (show _ ≤ 2 ^ 63 by omega)
    constructor
    · intro idx hb
      obtain ⟨o, ho⟩ := hp.total _ (hfl idx hb)
      have t1 := toCtSlot_exists (hfl idx hb) h2 hN hN'
      have t2 := toCtSlot_exists (hp.bound ho).2 h2 hN hN'
      refine ⟨o / N, o % N, ?_⟩
      unfold result2Multi
      rw [if_pos rfl]
      refine ⟨_, _, (r2 _ _ _).2 ⟨hb, t1⟩, (interchangeLayout_iff h1 h2 _ _ _ _).2
        ⟨_, o, 0, ?_, ?_, t1.2.1, t2.2.1, t1.1, t2.1, ho⟩⟩
      · rw [Nat.div_add_mod', Nat.zero_mul, Nat.zero_add]
      · rw [Nat.div_add_mod', Nat.zero_mul, Nat.zero_add]
    · intro idx idx' ct slot h h'
      unfold result2Multi at h h'
      rw [if_pos rfl] at h h'
      obtain ⟨c1, s1, a1, a2⟩ := h
      obtain ⟨c2, s2, b1, b2⟩ := h'
      obtain ⟨hb, ht⟩ := (r2 _ _ _).1 a1
      obtain ⟨hb', ht'⟩ := (r2 _ _ _).1 b1
      obtain ⟨i, o, k, g1, g2, g3, _, _, _, g7⟩ := (interchangeLayout_iff h1 h2 _ _ _ _).1 a2
      obtain ⟨i', o', k', g1', g2', g3', _, _, _, g7'⟩ := (interchangeLayout_iff h1 h2 _ _ _ _).1 b2
      obtain ⟨rfl, rfl⟩ := digits_inj (m := padded (c * h * w)) (by have := (hp.bound g7).2; omega)
        (by have := (hp.bound g7').2; omega) (g2.symm.trans g2')
      have := hp.injective g7 g7'
      subst this
      obtain ⟨rfl, rfl⟩ := digits_inj g3 g3' (g1.trans g1'.symm)
      exact hinj _ _ hb hb' (toCtSlot_inj ht ht')

/-! ## C93: filter layout, kernel and result layout together -/

variable {N : Nat}

section
omit [CommRing R]

/-- A tensor that fits one ciphertext. -/
theorem rowMajor_zero {dims : List Nat} (h1 : 1 ≤ dims.prod) (h2 : dims.prod ≤ N) (hN' : N ≤ 2 ^ 24)
    (idx : List Nat) (s : Nat) (hs : s < N) : rowMajor dims N idx 0 s ↔
      InBounds dims idx ∧ flat dims idx < dims.prod ∧ s % padded dims.prod = flat dims idx := by
  have hlast : lastCt dims.prod N = 0 := by
    rw [lastCt_eq h1 (by omega) (by omega) hN', Nat.div_eq_of_lt (by omega)]; rfl
  unfold rowMajor
  rw [numElements_eq, hlast]
  constructor
  · rintro ⟨hb, _, _, _, h5⟩
    have hf := flat_lt hb (pos_of_prod h1) (by omega)
    rw [Nat.mod_eq_of_lt (show flat dims idx < N by omega)] at h5
    exact ⟨hb, hf, h5⟩
  · rintro ⟨hb, hf, h5⟩
    rw [Nat.mod_eq_of_lt (show flat dims idx < N by omega)]
    exact ⟨hb, by simp, hs, Nat.div_eq_of_lt (by omega), h5⟩

end

variable [DecidableEq R]

omit [DecidableEq R] in
/-- Every filter and all data have operands, so the theorems below say something about them. -/
theorem exists_operands {ι : Type} {rel : ι → Nat → Nat → Prop} {rows cols rows' cols' : Nat}
    (hb : IsBound rel rows' cols') (hu : Unambiguous rel) (hr1 : 1 ≤ rows') (hc1 : 1 ≤ cols')
    (hr : rows' ≤ rows) (hc : cols' ≤ cols) (hpow : ∃ k, N = 2 ^ k) (hN' : N ≤ 2 ^ 24)
    (hrN : 2 ^ Nat.clog 2 rows ≤ N) (hcN : 2 ^ Nat.clog 2 cols ≤ N) (F : ι → R) {dims : List Nat}
    (hdims : dims.prod = cols) (x : List Nat → R) :
    ∃ M v, Operands (N := N) (diagonalize rel rows' cols' N) rows cols F dims x M v fun _ => false := by
  have hN : 0 < N := by obtain ⟨k, rfl⟩ := hpow; positivity
  have hne : NeZero N := ⟨by omega⟩
  have hr2 := Nat.le_pow_clog (b := 2) (by omega) rows
  have hc2 := Nat.le_pow_clog (b := 2) (by omega) cols
  have hpr : rows' ≤ padded rows' := padded_ge hr1 (by omega)
  have hpc : cols' ≤ padded cols' := padded_ge hc1 (by omega)
  have hu' : Unambiguous (diagonalize rel rows' cols' N) := by
    rintro i i' ct slot ⟨r, c, h1, _, _, _, _, h2, h3⟩ ⟨r', c', h1', _, _, _, _, h2', h3'⟩
    dsimp only at h2 h3 h2' h3'
    have e1 : r = r' := h2.trans h2'.symm
    have e2 : c = c' := h3.trans h3'.symm
    subst e1 e2
    exact hu _ _ _ _ h1 h1'
  have hdu : Unambiguous (rowMajor dims N) := by
    intro i i' ct slot h h'
    have h1 : 1 ≤ dims.prod := by omega
    exact (C50_rowMajor_partial dims N h1 (by omega) hN hN').2 i i' ct slot h h'
  obtain ⟨A, hA⟩ := exists_matrix hu' F (min (padded rows') (padded cols')) N
  obtain ⟨X, hX⟩ := exists_matrix hdu x 1 N
  have hv : ∀ s, s < N → ((s : Nat) : ZMod N).val = s := fun s hs => ZMod.val_cast_of_lt hs
  refine ⟨(List.range (min (padded rows') (padded cols'))).map fun d s => A d s.val,
    fun s => X 0 s.val, hpow, hN', hrN, hcN, ?_, ?_, ?_, ?_, by simp⟩
  · simp only [List.length_map, List.length_range]; omega
  · rintro idx ct slot ⟨r, c, _, _, _, h, _⟩
    simpa using h
  · intro ct hct s hs
    simp only [List.length_map, List.length_range] at hct
    have e : ((List.range (min (padded rows') (padded cols'))).map
        (fun d (s : ZMod N) => A d s.val))[ct]? = some fun s => A ct s.val := by
      rw [List.getElem?_map, List.getElem?_range hct]; rfl
    have := hA ct hct s hs
    dsimp only
    rw [List.getD_eq_getElem?_getD, e, Option.getD_some, hv s hs]
    exact this
  · intro ct hct s hs
    obtain rfl : ct = 0 := by omega
    dsimp only
    rw [hv s hs]
    exact hX 0 hct s hs

/-- C93: `conv_1d` as the layout pass compiles it (stride 1, no padding): the kernel on the
diagonalized filter returns the convolution in the row-major layout, whatever bounds are found for
the matrix. -/
theorem C93_conv1d (w k : Nat) (hk : 1 ≤ k) (hkw : k ≤ w) (rows' cols' : Nat)
    (hb : IsBound (Conv1.mk w k 1 0).filter rows' cols') (hr : rows' ≤ w - k + 1) (hc : cols' ≤ w)
    (F : Nat → R) (x : List Nat → R) (M : List (Slots R N)) (v : Slots R N) (skip : Nat → Bool)
    (h : Operands (diagonalize (Conv1.mk w k 1 0).filter rows' cols' N) (w - k + 1) w F [w] x M v skip) :
    ∃ e y, haleviShoup M v (BitVec.ofNat 64 (w - k + 1)) (BitVec.ofNat 64 w) skip = some e ∧
      Computes anyKey e y ∧
      Packs (rowMajor [w - k + 1] N) (fun idx => conv1 k 1 1 F (fun j => x [j]) (idx.getD 0 0)) 1 N
        (fun _ s => y (s : ZMod N)) := by
  have hs1 : (Conv1.mk w k 1 0).s = 1 := rfl
  have hkk : (Conv1.mk w k 1 0).k ≤ (Conv1.mk w k 1 0).w + 2 * (Conv1.mk w k 1 0).p := by
    simpa using hkw
  have hout : (Conv1.mk w k 1 0).out = w - k + 1 := by simp [Conv1.out, outSize]
  have hiff := filter1_iff (Conv1.mk w k 1 0) (by simp) hkk
  rw [hout] at hiff
  simp only [Nat.mul_one, Nat.zero_le, true_and, Nat.zero_add, Nat.sub_zero] at hiff
  have hr' : rows' = w - k + 1 := by
    have := (hb 0 (w - k) (w - k) ((hiff _ _ _).2 (by omega))).1
    omega
  have hc' : cols' = w := by
    have := (hb (k - 1) (w - k) (w - 1) ((hiff _ _ _).2 (by omega))).2
    omega
  obtain ⟨A, hA⟩ := exists_matrix (filter1_unambiguous (Conv1.mk w k 1 0) (by simp) hkk) F (w - k + 1) w
  obtain ⟨X, hX, e, y, h1, h2, h3⟩ := kernel_matvec hb (by omega) hr hc (by rw [hr']) (by rw [hc']) hA
    (dims := [w]) (by simp) (by omega) h
  refine ⟨e, y, h1, h2, ?_⟩
  have hle := h.rows_le
  have hN' := h.slots
  have hr2 := Nat.le_pow_clog (b := 2) (by omega) (w - k + 1)
  have hflat : ∀ n i, flat [n] [i] = i := fun n i => by simp [flat, strides]
  refine packs_result (rows := w - k + 1) (val := fun o => ∑ j ∈ range w, A o j * X j) (isPerm_id _) (dims := [w - k + 1]) (by simp) (by omega)
    (by omega) (fun idx s hs => ?_) h3 ?_
  · rw [rowMajor_zero (by simp) (by simp; omega) h.slots idx s hs]
    simp only [List.prod_cons, List.prod_nil, Nat.mul_one]
  · rintro idx o hbd ⟨ho, rfl⟩
    cases hbd with
    | @cons i d is ds hi t =>
      cases t
      rw [hflat] at ho ⊢
      rw [C92_conv1d (Conv1.mk w k 1 0) (by simp) hkk F A (by rw [hout]; exact hA) X i (by rw [hout]; exact ho)]
      refine sum_congr rfl fun j hj => ?_
      have hj := mem_range.1 hj
      dsimp only at hj ⊢
      simp only [pad1, Nat.zero_le, true_and, Nat.zero_add, Nat.mul_one, Nat.sub_zero, List.getD_cons_zero]
      rw [if_pos (by omega), ← hX [i + j] (List.Forall₂.cons (by omega) List.Forall₂.nil), hflat]

example (F : Nat → ℤ) (x : List Nat → ℤ) : ∃ M v, Operands (N := 8)
    (diagonalize (Conv1.mk 5 2 1 0).filter 4 5 8) 4 5 F [5] x M v fun _ => false :=
  exists_operands (filter1_bound _ (by decide) (by decide)) (filter1_unambiguous _ (by decide) (by decide))
    (by decide) (by decide) le_rfl le_rfl ⟨3, rfl⟩ (by omega) (by decide +kernel) (by decide +kernel) F
    (by decide) x

/-- C93: `conv_2d` as the layout pass compiles it (strides 1, no padding). -/
theorem C93_conv2d (d : Conv2) (h1s : d.sh = 1) (h1s' : d.sw = 1) (h0p : d.p = 0) (hkh : 1 ≤ d.kh)
    (hkw : 1 ≤ d.kw) (hh : d.kh ≤ d.h) (hw : d.kw ≤ d.w) (rows' cols' : Nat)
    (hb : IsBound d.filter rows' cols') (hr : rows' ≤ d.rows) (hc : cols' ≤ d.cols)
    (F : Nat × Nat → R) (x : List Nat → R) (M : List (Slots R N)) (v : Slots R N) (skip : Nat → Bool)
    (h : Operands (diagonalize d.filter rows' cols' N) d.rows d.cols F [d.h, d.w] x M v skip) :
    ∃ e y, haleviShoup M v (BitVec.ofNat 64 d.rows) (BitVec.ofNat 64 d.cols) skip = some e ∧
      Computes anyKey e y ∧
      Packs (rowMajor [d.oh, d.ow] N) (fun idx => conv2 d.kh d.kw 1 1 1 1 (fun i j => F (i, j))
        (fun i j => x [i, j]) (idx.getD 0 0) (idx.getD 1 0)) 1 N (fun _ s => y (s : ZMod N)) := by
  have hoh : d.oh = d.h - d.kh + 1 := by simp [Conv2.oh, outSize, h1s, h0p]
  have how : d.ow = d.w - d.kw + 1 := by simp [Conv2.ow, outSize, h1s', h0p]
  have hiff := filter2_iff d
  simp only [h1s, h1s', h0p, Nat.mul_one, Nat.zero_le, true_and, Nat.zero_add, Nat.sub_zero] at hiff
  have hrows : (d.oh - 1) * d.ow + (d.ow - 1) + 1 = d.rows := by
    obtain ⟨a, ha⟩ := Nat.exists_eq_add_of_le (show 1 ≤ d.oh by omega)
    obtain ⟨b, hb'⟩ := Nat.exists_eq_add_of_le (show 1 ≤ d.ow by omega)
    unfold Conv2.rows
    rw [ha, hb']
    simp only [Nat.add_sub_cancel_left]
    ring
  have hcols : (d.h - 1) * d.w + (d.w - 1) + 1 = d.cols := by
    obtain ⟨a, ha⟩ := Nat.exists_eq_add_of_le (show 1 ≤ d.h by omega)
    obtain ⟨b, hb'⟩ := Nat.exists_eq_add_of_le (show 1 ≤ d.w by omega)
    unfold Conv2.cols
    rw [ha, hb']
    simp only [Nat.add_sub_cancel_left]
    ring
  have hr' : rows' = d.rows := by
    have := (hb (0, 0) _ _ ((hiff (0, 0) (d.oh - 1) (d.ow - 1) _ (by omega) (by omega)).2
      ⟨by omega, by omega, ⟨by omega, by omega⟩, rfl⟩)).1
    omega
  have hc' : cols' = d.cols := by
    have := (hb (d.kh - 1, d.kw - 1) _ _ ((hiff (d.kh - 1, d.kw - 1) (d.oh - 1) (d.ow - 1) _
      (by omega) (by omega)).2 ⟨by omega, by omega, ⟨by omega, by omega⟩, rfl⟩)).2
    have e1 : d.oh - 1 + (d.kh - 1) = d.h - 1 := by omega
    have e2 : d.ow - 1 + (d.kw - 1) = d.w - 1 := by omega
    dsimp only at this
    rw [e1, e2] at this
    omega
  obtain ⟨A, hA⟩ := exists_matrix (filter2_unambiguous d) F d.rows d.cols
  obtain ⟨X, hX, e, y, h1, h2, h3⟩ := kernel_matvec hb (by omega) hr hc (by rw [hr']) (by rw [hc']) hA
    (dims := [d.h, d.w]) (by simp [Conv2.cols]) (by omega) h
  refine ⟨e, y, h1, h2, ?_⟩
  have hle := h.rows_le
  have hlc := h.cols_le
  have hN' := h.slots
  have hr2 := Nat.le_pow_clog (b := 2) (by omega) d.rows
  have hc2 := Nat.le_pow_clog (b := 2) (by omega) d.cols
  have how2 : d.ow ≤ d.rows := Nat.le_mul_of_pos_left _ (by omega)
  have hw2 : d.w ≤ d.cols := Nat.le_mul_of_pos_left _ (by omega)
  have eprod : [d.oh, d.ow].prod = d.rows := by simp [Conv2.rows]
  refine packs_result (rows := d.rows) (val := fun o => ∑ j ∈ range d.cols, A o j * X j) (isPerm_id _)
    (dims := [d.oh, d.ow]) eprod (by omega)
    (by omega) (fun idx s hs => ?_) h3 ?_
  · rw [rowMajor_zero (by omega) (by omega) h.slots idx s hs, eprod]
  · rintro idx o hbd ⟨ho, rfl⟩
    obtain ⟨o, q, rfl, ho', hq'⟩ := inBounds2 hbd
    rw [flat2 (by omega) (by omega)] at ho ⊢
    rw [C92_conv2d d F A hA X o q ho' hq']
    simp only [conv2, h1s, h1s', h0p]
    refine sum_congr rfl fun i hi => sum_congr rfl fun j hj => ?_
    have hi := mem_range.1 hi
    have hj := mem_range.1 hj
    have g1 : o * 1 + i * 1 < d.h := by omega
    have g2 : q * 1 + j * 1 < d.w := by omega
    rw [pad2, if_pos (by omega), ← flat2 (h := d.h) (by omega) (by omega),
      hX _ (List.Forall₂.cons (by omega) (List.Forall₂.cons (by omega) List.Forall₂.nil))]
    rfl

example (F : Nat × Nat → ℤ) (x : List Nat → ℤ) : ∃ M v, Operands (N := 16)
    (diagonalize (Conv2.mk 3 4 2 2 1 1 0).filter 6 12 16) 6 12 F [3, 4] x M v fun _ => false :=
  exists_operands (filter2_bound _) (filter2_unambiguous _) (by decide) (by decide) le_rfl le_rfl
    ⟨4, rfl⟩ (by omega) (by decide +kernel) (by decide +kernel) F (by decide) x

omit [DecidableEq R] in
/-- The rows of the matrix of `conv_1d_ncw_fcw`. -/
theorem matrix1_dot (d : Conv1) (hs : 1 ≤ d.s) (hk : d.k ≤ d.w + 2 * d.p) (nf nc : Nat) (b : Bool)
    (hdiv : b = true → d.s ∣ nf) :
    ∃ π, IsPerm (nf * d.out) π ∧
      (∀ i o, π i o ↔ if b then interchange1 nf d.out d.s i o else i < nf * d.out ∧ o = i) ∧
      Unambiguous (d.matrix nf nc b) ∧ IsBound (d.matrix nf nc b) (nf * d.out) (nc * d.w) ∧
      ∀ (F : Nat × Nat × Nat → R) (A : Nat → Nat → R),
        Packs (d.matrix nf nc b) F (nf * d.out) (nc * d.w) A → ∀ (X : Nat → R) (f o r : Nat), f < nf →
        o < d.out → π (f * d.out + o) r → ∑ j ∈ range (nc * d.w), A r j * X j =
          conv1Multi nc d.k d.s 1 (fun f ch i => F (f, ch, i))
            (fun ch => pad1 d.w d.p fun j => X (ch * d.w + j)) f o := by
  have hb1 := filter1_bound d hs hk
  have hu := channels_unambiguous (f := nf) (c := nc) hb1 (filter1_unambiguous d hs hk)
  have hb := channels_bound (f := nf) (c := nc) hb1
  cases b with
  | false =>
    refine ⟨_, isPerm_id _, fun _ _ => Iff.rfl, hu, hb, ?_⟩
    rintro F A hA X f o r hf ho ⟨_, rfl⟩
    exact C92_conv1dMulti d hs hk nf nc F A hA X f o hf ho
  | true =>
    have hp := interchange1_perm (w := d.out) hs (hdiv rfl)
    refine ⟨_, hp, fun _ _ => Iff.rfl, interchangeRows_unambiguous hp hu, interchangeRows_bound hp hb, ?_⟩
    intro F A hA X f o r hf ho hr
    obtain ⟨A', hA'⟩ := exists_matrix hu F (nf * d.out) (nc * d.w)
    rw [← C92_conv1dMulti d hs hk nf nc F A' hA' X f o hf ho]
    refine sum_congr rfl fun j hj => ?_
    have hj := mem_range.1 hj
    congr 1
    obtain ⟨a1, a2⟩ := hA r (hp.bound hr).2 j hj
    obtain ⟨b1, b2⟩ := hA' _ (digits_lt hf ho) j hj
    by_cases hex : ∃ idx, channels nf nc d.out d.w d.filter idx (f * d.out + o) j
    · obtain ⟨idx, hi⟩ := hex
      rw [a1 idx ((interchangeRows_iff hp hr idx j).2 hi), b1 idx hi]
    · rw [a2 fun idx hi => hex ⟨idx, (interchangeRows_iff hp hr idx j).1 hi⟩,
        b2 fun idx hi => hex ⟨idx, hi⟩]

/-- C93: `conv_1d_ncw_fcw` with any stride and folded padding, with and without the row interchange:
the kernel on the diagonalized filter returns the convolution of the padded data in the result
layout, if the sizes found for the matrix round to the same powers of two as the sizes of the
expanded filter.  Missing: they need not, see `C93_columns_violated`. -/
theorem C93_conv1dMulti_partial (d : Conv1) (hs : 1 ≤ d.s) (hk : d.k ≤ d.w + 2 * d.p) (hw : 1 ≤ d.w)
    (nf nc : Nat) (hnf : 1 ≤ nf) (hnc : 1 ≤ nc) (b : Bool) (hdiv : b = true → d.s ∣ nf)
    (rows' cols' : Nat) (hb : IsBound (d.matrix nf nc b) rows' cols') (hr : rows' ≤ nf * d.out)
    (hc : cols' ≤ nc * d.w) (er : padded rows' = padded (nf * d.out))
    (ec : padded cols' = padded (nc * d.w))
    (F : Nat × Nat × Nat → R) (x : List Nat → R) (M : List (Slots R N)) (v : Slots R N)
    (skip : Nat → Bool)
    (h : Operands (diagonalize (d.matrix nf nc b) rows' cols' N) (nf * d.out) (nc * d.w) F
      [1, nc, d.w] x M v skip) :
    ∃ e y, haleviShoup M v (BitVec.ofNat 64 (nf * d.out)) (BitVec.ofNat 64 (nc * d.w)) skip = some e ∧
      Computes anyKey e y ∧
      Packs (result1 nf d.out d.s N b) (fun idx => conv1Multi nc d.k d.s 1 (fun f ch i => F (f, ch, i))
        (fun ch => pad1 d.w d.p fun j => x [0, ch, j]) (idx.getD 1 0) (idx.getD 2 0)) 1 N
        (fun _ s => y (s : ZMod N)) := by
  have hrows1 : 1 ≤ nf * d.out := Nat.mul_pos hnf (outSize_pos _ _ _ _)
  have hcols1 : 1 ≤ nc * d.w := Nat.mul_pos hnc hw
  have hle := h.rows_le
  have hlc := h.cols_le
  have hN' := h.slots
  have hr2 := Nat.le_pow_clog (b := 2) (by omega) (nf * d.out)
  have hc2 := Nat.le_pow_clog (b := 2) (by omega) (nc * d.w)
  obtain ⟨π, hπ, hπiff, hu, -, hdot⟩ := matrix1_dot (R := R) d hs hk nf nc b hdiv
  obtain ⟨A, hA⟩ := exists_matrix hu F (nf * d.out) (nc * d.w)
  obtain ⟨X, hX, e, y, h1, h2, h3⟩ := kernel_matvec hb hrows1 hr hc er ec hA
    (dims := [1, nc, d.w]) (by simp) hcols1 h
  refine ⟨e, y, h1, h2, ?_⟩
  have eprod : [1, nf, d.out].prod = nf * d.out := by simp
  refine packs_result (rows := nf * d.out) (val := fun o => ∑ j ∈ range (nc * d.w), A o j * X j) hπ (dims := [1, nf, d.out]) eprod hrows1 (by omega)
    (fun idx s hs' => ?_) h3 ?_
  · rw [result1_iff hrows1 (by omega)]
    refine and_congr_right fun hbd => ?_
    have hfl : flat [1, nf, d.out] idx < nf * d.out := by
      have := flat_lt hbd (pos_of_prod (by omega)) (by omega)
      omega
    constructor
    · rintro ⟨s1, hp, ht⟩
      have hπ1 : π (flat [1, nf, d.out] idx) s1 := (hπiff _ _).2 (by
        cases b with
        | true => exact hp
        | false => exact ⟨hfl, hp⟩)
      rw [(toCtSlot_zero (hπ.bound hπ1).2 (by omega) h.slots hs').1 ht]
      exact hπ1
    · intro hp
      refine ⟨s % padded (nf * d.out), ?_, (toCtSlot_zero (hπ.bound hp).2 (by omega) h.slots hs').2 rfl⟩
      have := (hπiff _ _).1 hp
      cases b with
      | true => exact this
      | false => exact this.2
  · intro idx o hbd hp
    obtain ⟨i, f, o', rfl, hi, hf, ho⟩ := inBounds3 hbd
    rw [flat3 hnf (show 1 ≤ d.out from outSize_pos _ _ _ _) (by omega) _ _ _ hi] at hp
    rw [hdot F A hA X f o' o hf ho hp]
    simp only [conv1Multi, conv1, List.getD_cons_succ, List.getD_cons_zero]
    refine sum_congr rfl fun ch hch => sum_congr rfl fun j hj => ?_
    have hch := mem_range.1 hch
    congr 1
    unfold pad1
    split
    · rename_i hj'
      dsimp only
      rw [← flat3 hnc hw (by omega) 0 _ _ (by omega), hX]
      exact List.Forall₂.cons (by omega) (List.Forall₂.cons hch (List.Forall₂.cons (by omega) List.Forall₂.nil))
    · rfl

/-- The condition of `C93_conv1dMulti_partial` holds without padding when the stride divides the
distance from the first window to the last: then any bounds are the sizes of the expanded filter. -/
theorem C93_conv1dMulti_sizes (d : Conv1) (hs : 1 ≤ d.s) (hk1 : 1 ≤ d.k) (hk : d.k ≤ d.w) (hp : d.p = 0)
    (nf nc : Nat) (hnf : 1 ≤ nf) (hnc : 1 ≤ nc) (b : Bool) (hdiv : b = true → d.s ∣ nf)
    (hsd : d.s ∣ d.w - d.k) (rows' cols' : Nat) (hb : IsBound (d.matrix nf nc b) rows' cols')
    (hr : rows' ≤ nf * d.out) (hc : cols' ≤ nc * d.w) : rows' = nf * d.out ∧ cols' = nc * d.w := by
  have hk' : d.k ≤ d.w + 2 * d.p := by omega
  have hout := outSize_pos d.w d.k d.s d.p
  have hoeq : d.out = outSize d.w d.k d.s d.p := rfl
  have hlast : (d.out - 1) * d.s = d.w - d.k := by
    rw [hoeq]
    simp only [outSize, hp, Nat.mul_zero, Nat.add_zero, Nat.add_sub_cancel]
    exact Nat.div_mul_cancel hsd
  -- an element in every row, and one in the last column
  have hrow : ∀ f o, f < nf → o < d.out → d.filterMulti nf nc (f, 0, 0) (f * d.out + o) (o * d.s) := by
    intro f o hf ho
    have hle : o * d.s ≤ d.w - d.k := by
      rw [← hlast]; exact Nat.mul_le_mul_right _ (by omega)
    refine (channels_iff (filter1_bound d hs hk') _ f o _ ho).2 ⟨hf, rfl, hnc, o * d.s,
      (filter1_iff d hs hk' _ _ _).2 ⟨ho, hk1, ?_, ?_⟩, ?_⟩
    · dsimp only; omega
    · dsimp only; omega
    · simp
  have hcol : d.filterMulti nf nc (0, nc - 1, d.k - 1) (0 * d.out + (d.out - 1)) (nc * d.w - 1) := by
    refine (channels_iff (filter1_bound d hs hk') _ 0 (d.out - 1) _ (by omega)).2
      ⟨hnf, rfl, by dsimp only; omega, d.w - 1,
        (filter1_iff d hs hk' _ _ _).2 ⟨by omega, by dsimp only; omega, by dsimp only; omega, by dsimp only; omega⟩, ?_⟩
    dsimp only
    obtain ⟨n, rfl⟩ := Nat.exists_eq_add_of_le hnc
    rw [Nat.add_sub_cancel_left, Nat.add_mul]
    omega
  have key : ∃ f o, f < nf ∧ o < d.out ∧ ∃ idx col, d.matrix nf nc b idx (nf * d.out - 1) col := by
    have hpos : 1 ≤ nf * d.out := Nat.mul_pos hnf hout
    cases b with
    | false =>
      refine ⟨nf - 1, d.out - 1, by omega, by omega, (nf - 1, 0, 0), (d.out - 1) * d.s, ?_⟩
      · have := hrow (nf - 1) (d.out - 1) (by omega) (by omega)
        have e : (nf - 1) * d.out + (d.out - 1) = nf * d.out - 1 := by
          obtain ⟨n, rfl⟩ := Nat.exists_eq_add_of_le hnf
          rw [Nat.add_sub_cancel_left, Nat.add_mul]
          omega
        rw [e] at this
        exact this
    | true =>
      have hperm := interchange1_perm (w := d.out) hs (hdiv rfl)
      obtain ⟨i, hi⟩ := hperm.onto (nf * d.out - 1) (by omega)
      obtain ⟨q1, q2, q3⟩ := digits_split (hperm.bound hi).1
      have := hrow (i / d.out) (i % d.out) q1 q2
      rw [← q3] at this
      exact ⟨_, _, q1, q2, (i / d.out, 0, 0), _, i, _, this, hi, rfl⟩
  have kcol : ∃ idx row, d.matrix nf nc b idx row (nc * d.w - 1) := by
    cases b with
    | false => exact ⟨_, _, hcol⟩
    | true =>
      have hperm := interchange1_perm (w := d.out) hs (hdiv rfl)
      obtain ⟨o, ho⟩ := hperm.total (0 * d.out + (d.out - 1)) (digits_lt hnf (by omega))
      exact ⟨_, o, _, _, hcol, ho, rfl⟩
  have hcpos : 1 ≤ nc * d.w := Nat.mul_pos hnc (by omega)
  have hrpos : 1 ≤ nf * d.out := Nat.mul_pos hnf hout
  obtain ⟨f, o, _, _, idx, col, hm⟩ := key
  obtain ⟨idx', row, hm'⟩ := kcol
  have g1 := (hb _ _ _ hm).1
  have g2 := (hb _ _ _ hm').2
  omega

example (F : Nat × Nat × Nat → ℤ) (x : List Nat → ℤ) : ∃ M v, Operands (N := 16)
    (diagonalize ((Conv1.mk 6 2 2 0).matrix 2 2 true) 6 12 16) (2 * 3) (2 * 6) F [1, 2, 6] x M v
      fun _ => false := by
  obtain ⟨_, -, -, hu, hb, -⟩ := matrix1_dot (R := ℤ) (Conv1.mk 6 2 2 0) (by decide) (by decide) 2 2 true
    (by decide)
  exact exists_operands hb hu (by decide) (by decide) le_rfl le_rfl ⟨4, rfl⟩ (by omega)
    (by decide +kernel) (by decide +kernel) F (by decide) x

section
omit [CommRing R] [DecidableEq R]

/-- The rows of the matrix of `conv_2d_nchw_fchw`. -/
theorem matrix2_rows (d : Conv2) (hs : 1 ≤ d.sh) (nf nc : Nat) (b : Bool)
    (hdiv : b = true → d.sh * d.sh ∣ nf) : ∃ π, IsPerm (nf * d.rows) π ∧
      (∀ i o, π i o ↔ if b then interchange2 nf d.oh d.ow d.sh i o else i < nf * d.rows ∧ o = i) ∧
      (∀ idx row col, d.matrix nf nc b idx row col ↔
        interchangeRows (d.filterMulti nf nc) π idx row col) ∧
      Unambiguous (d.matrix nf nc b) ∧ IsBound (d.matrix nf nc b) (nf * d.rows) (nc * d.cols) := by
  have erows : nf * d.oh * d.ow = nf * d.rows := by
    rw [show d.rows = d.oh * d.ow from rfl, Nat.mul_assoc]
  have hu0 := channels_unambiguous (f := nf) (c := nc) (filter2_bound d) (filter2_unambiguous d)
  have hb0 := channels_bound (f := nf) (c := nc) (filter2_bound d)
  -- the rows of the matrix
  have key : ∃ π, IsPerm (nf * d.rows) π ∧
      (∀ i o, π i o ↔ if b then interchange2 nf d.oh d.ow d.sh i o else i < nf * d.rows ∧ o = i) ∧
      ∀ idx row col, d.matrix nf nc b idx row col ↔ interchangeRows (d.filterMulti nf nc) π idx row col := by
    cases b with
    | false =>
      refine ⟨_, isPerm_id _, fun _ _ => Iff.rfl, fun idx row col => ?_⟩
      rw [matrix_false_iff]
      constructor
      · intro h; exact ⟨row, col, h, ⟨(hb0 _ _ _ h).1, rfl⟩, rfl⟩
      · rintro ⟨r, c, h, ⟨_, rfl⟩, rfl⟩; exact h
    | true =>
      have := interchange2_perm (h := d.oh) (w := d.ow) hs (hdiv rfl)
      rw [erows] at this
      exact ⟨_, this, fun _ _ => Iff.rfl, matrix_true_iff d nf nc hs (hdiv rfl)⟩
  obtain ⟨π, hπ, hπiff, hmat⟩ := key
  have hu : Unambiguous (d.matrix nf nc b) := by
    intro i i' row col h h'
    exact interchangeRows_unambiguous hπ hu0 _ _ _ _ ((hmat _ _ _).1 h) ((hmat _ _ _).1 h')
  have hbd : IsBound (d.matrix nf nc b) (nf * d.rows) (nc * d.cols) := by
    intro i row col h
    exact interchangeRows_bound hπ hb0 _ _ _ ((hmat _ _ _).1 h)
  exact ⟨π, hπ, hπiff, hmat, hu, hbd⟩

theorem sequence_eq (d : Conv2) (nf nc : Nat) (b : Bool) (hpr : nf * d.rows ≤ padded (nf * d.rows))
    (hpc : nc * d.cols ≤ padded (nc * d.cols)) :
    d.sequence nf nc b N = diagonalize (d.matrix nf nc b) (nf * d.rows) (nc * d.cols) N := by
  funext idx ct slot
  refine propext ⟨?_, ?_⟩
  · rintro ⟨row, col, hm, s1, s2, s3, s4, s5, s6⟩
    refine ⟨row, col, hm, s1, s2, s5, s6, (sub_emod_eq_zero (by omega)).1 s3, ?_⟩
    rw [← Nat.cast_add] at s4
    exact (sub_emod_eq_zero (by omega)).1 s4
  · rintro ⟨row, col, hm, s1, s2, s5, s6, s3, s4⟩
    dsimp only at s1 s2 s3 s4
    refine ⟨row, col, hm, s1, s2, (sub_emod_eq_zero (by omega)).2 s3, ?_, s5, s6⟩
    rw [← Nat.cast_add]
    exact (sub_emod_eq_zero (by omega)).2 s4

end

/-- C93: `conv_2d_nchw_fchw` with equal strides and folded padding: the kernel on the filter laid
out by the sequence of relations returns the convolution of the padded data in the result layout.
Missing: after another strided convolution the matrix is built for the wrong shape
(`C93_chain_violated`), and dilations are ignored (`C93_dilation_violated`). -/
theorem C93_conv2dMulti_partial (d : Conv2) (hs : 1 ≤ d.sh) (hss : d.sh = d.sw) (hh : 1 ≤ d.h)
    (hw : 1 ≤ d.w) (nf nc : Nat) (hnf : 1 ≤ nf) (hnc : 1 ≤ nc) (b : Bool)
    (hdiv : b = true → d.sh * d.sh ∣ nf)
    (F : Nat × Nat × Nat × Nat → R) (x : List Nat → R) (M : List (Slots R N)) (v : Slots R N)
    (skip : Nat → Bool)
    (h : Operands (d.sequence nf nc b N) (nf * d.rows) (nc * d.cols) F [1, nc, d.h, d.w] x M v skip) :
    ∃ e y, haleviShoup M v (BitVec.ofNat 64 (nf * d.rows)) (BitVec.ofNat 64 (nc * d.cols)) skip = some e ∧
      Computes anyKey e y ∧
      Packs (result2Multi nf d.oh d.ow d.sh N b) (fun idx => conv2Multi nc d.kh d.kw d.sh d.sh 1 1
        (fun f ch i j => F (f, ch, i, j)) (fun ch => pad2 d.h d.w d.p fun i j => x [0, ch, i, j])
        (idx.getD 1 0) (idx.getD 2 0) (idx.getD 3 0)) 1 N (fun _ s => y (s : ZMod N)) := by
  have hrw : d.rows = d.oh * d.ow := rfl
  have hcl : d.cols = d.h * d.w := rfl
  have hoh : 1 ≤ d.oh := outSize_pos _ _ _ _
  have how : 1 ≤ d.ow := outSize_pos _ _ _ _
  have hrows1 : 1 ≤ nf * d.rows := Nat.mul_pos hnf (Nat.mul_pos hoh how)
  have hcols1 : 1 ≤ nc * d.cols := Nat.mul_pos hnc (Nat.mul_pos hh hw)
  have erows : nf * d.oh * d.ow = nf * d.rows := by rw [hrw, Nat.mul_assoc]
  have ecols : nc * d.h * d.w = nc * d.cols := by rw [hcl, Nat.mul_assoc]
  have hle := h.rows_le
  have hlc := h.cols_le
  have hN' := h.slots
  have hr2 := Nat.le_pow_clog (b := 2) (by omega) (nf * d.rows)
  have hc2 := Nat.le_pow_clog (b := 2) (by omega) (nc * d.cols)
  have hpr := padded_ge hrows1 (show _ ≤ 2 ^ 63 by omega)
  have hpc := padded_ge hcols1 (show _ ≤ 2 ^ 63 by omega)
  have hu0 := channels_unambiguous (f := nf) (c := nc) (filter2_bound d) (filter2_unambiguous d)
  obtain ⟨π, hπ, hπiff, hmat, hu, hbd⟩ := matrix2_rows d hs nf nc b hdiv
  have hseq := sequence_eq d nf nc b (N := N) hpr hpc
  rw [hseq] at h
  obtain ⟨A, hA⟩ := exists_matrix hu F (nf * d.rows) (nc * d.cols)
  obtain ⟨X, hX, e, y, h1, h2, h3⟩ := kernel_matvec hbd hrows1 le_rfl le_rfl rfl rfl hA
    (dims := [1, nc, d.h, d.w]) (by simp [Conv2.cols]) hcols1 h
  refine ⟨e, y, h1, h2, ?_⟩
  have eprod : [1, nf, d.oh, d.ow].prod = nf * d.rows := by simp [Conv2.rows]
  refine packs_result (rows := nf * d.rows) (val := fun o => ∑ j ∈ range (nc * d.cols), A o j * X j) hπ (dims := [1, nf, d.oh, d.ow]) eprod hrows1 (by omega)
    (fun idx s hs' => ?_) h3 ?_
  · cases b with
    | true =>
      rw [result2Multi_zero (by omega) (by omega) h.pow h.slots hs (hdiv rfl) idx s hs', erows]
      exact and_congr_right fun _ => ((hπiff _ _).symm)
    | false =>
      have : result2Multi nf d.oh d.ow d.sh N false idx 0 s ↔ _ :=
        result2_iff (dims := [1, nf, d.oh, d.ow]) (by omega) (by omega) N idx 0 s
      rw [this, eprod]
      refine and_congr_right fun hbd' => ?_
      have hfl : flat [1, nf, d.oh, d.ow] idx < nf * d.rows := by
        have := flat_lt hbd' (pos_of_prod (by omega)) (by omega)
        omega
      rw [toCtSlot_zero hfl (by omega) h.slots hs', hπiff]
      exact ⟨fun h => ⟨hfl, h⟩, fun h => h.2⟩
  · intro idx o hbd' hp
    obtain ⟨i, f, o', q, rfl, hi, hf, ho, hq⟩ := inBounds4 hbd'
    rw [flat4 hnf hoh how (by omega) _ _ _ _ hi] at hp
    obtain ⟨A', hA'⟩ := exists_matrix hu0 F (nf * d.rows) (nc * d.cols)
    have hrow : (f * d.oh + o') * d.ow + q < nf * d.rows := by
      rw [← erows]; exact digits_lt (digits_lt hf ho) hq
    have hAA : ∑ j ∈ range (nc * d.cols), A o j * X j =
        ∑ j ∈ range (nc * d.cols), A' ((f * d.oh + o') * d.ow + q) j * X j := by
      refine sum_congr rfl fun j hj => ?_
      have hj := mem_range.1 hj
      congr 1
      obtain ⟨a1, a2⟩ := hA o (hπ.bound hp).2 j hj
      obtain ⟨b1, b2⟩ := hA' _ hrow j hj
      have hiff : ∀ idx, d.matrix nf nc b idx o j ↔
          channels nf nc d.rows d.cols d.filter idx ((f * d.oh + o') * d.ow + q) j := fun idx => by
        rw [hmat, interchangeRows_iff hπ hp]; rfl
      by_cases hex : ∃ idx, channels nf nc d.rows d.cols d.filter idx ((f * d.oh + o') * d.ow + q) j
      · obtain ⟨idx, hi⟩ := hex
        rw [a1 idx ((hiff idx).2 hi), b1 idx hi]
      · rw [a2 fun idx hi => hex ⟨idx, (hiff idx).1 hi⟩, b2 fun idx hi => hex ⟨idx, hi⟩]
    rw [hAA, C92_conv2dMulti d nf nc F A' hA' X f o' q hf ho hq, ← hss]
    simp only [conv2Multi, conv2, List.getD_cons_succ, List.getD_cons_zero]
    refine sum_congr rfl fun ch hch => sum_congr rfl fun i hi => sum_congr rfl fun j hj => ?_
    have hch := mem_range.1 hch
    congr 1
    unfold pad2
    split
    · rename_i hj'
      dsimp only
      rw [← flat4 hnc hh hw (by omega) 0 _ _ _ (by omega), hX]
      exact List.Forall₂.cons (by omega) (List.Forall₂.cons hch (List.Forall₂.cons (by omega)
        (List.Forall₂.cons (by omega) List.Forall₂.nil)))
    · rfl

omit [CommRing R] [DecidableEq R] in
/-- C92: the size of the output is the number of places at which the filter lies in the padded
data. -/
theorem C92_windows {data k s p : Nat} (hk : k ≤ data + 2 * p) (hs : 1 ≤ s) (o : Nat) :
    o < outSize data k s p ↔ o * s + k ≤ data + 2 * p := by
  unfold outSize
  rw [Nat.lt_succ_iff, Nat.le_div_iff_mul_le hs]
  omega

example : 3 ≤ 5 + 2 * 1 ∧ outSize 5 3 2 1 = 3 ∧ 2 * 2 + 3 ≤ 5 + 2 * 1 := by decide

omit [CommRing R] [DecidableEq R] in
/-- C93: when the padding of the data is folded into the convolution, the output has the size it had
for the padded data, and the data that remains is not empty. -/
theorem C93_fold (size p : Nat) (u : Int) (h : foldPadding size p = some u) (k s : Nat) :
    1 ≤ u ∧ size = u.toNat + 2 * p ∧ outSize u.toNat k s p = outSize size k s 0 := by
  unfold foldPadding at h
  rw [if_neg (by omega)] at h
  split at h
  · exact absurd h (by simp)
  · obtain rfl := Option.some.inj h
    have e : (size - 2 * (p : Int)).toNat + 2 * p = size := by omega
    refine ⟨by omega, e.symm, ?_⟩
    unfold outSize
    rw [e, Nat.mul_zero, Nat.add_zero size]

example : foldPadding (6 : Nat) (1 : Nat) = some 4 ∧ outSize 4 3 1 1 = 4 := by decide

example (F : Nat × Nat × Nat × Nat → ℤ) (x : List Nat → ℤ) : ∃ M v, Operands (N := 64)
    ((Conv2.mk 3 3 2 2 2 2 1).sequence 4 2 true 64) (4 * 4) (2 * 9) F [1, 2, 3, 3] x M v
      fun _ => false := by
  obtain ⟨_, -, -, -, hu, hb⟩ := matrix2_rows (Conv2.mk 3 3 2 2 2 2 1) (by decide) 4 2 true (by decide)
  rw [sequence_eq _ _ _ _ (by decide +kernel) (by decide +kernel)]
  exact exists_operands hb hu (by decide) (by decide) le_rfl le_rfl ⟨6, rfl⟩ (by omega)
    (by decide +kernel) (by decide +kernel) F (by decide) x

end Heir.Toeplitz
