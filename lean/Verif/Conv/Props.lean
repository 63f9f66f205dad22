import Verif.Conv.Filters
import Mathlib.Algebra.BigOperators.Group.Finset.Sigma
import Mathlib.Tactic.FieldSimp
import Mathlib.Data.Rat.Defs
import Mathlib.Data.BitVec
import Mathlib.Tactic.NormNum

/-! # Properties of the convolution rewrites -/

namespace Heir.Conv

variable {α : Type}

open Finset

/-! ## Undilation -/

/-- C66: the undilated 1-d convolution computes the results of the dilated one, and reads the input
no further. -/
theorem C66_undilate1D [CommRing α] {f c kw d : Nat} {w : List α} (hw : w.length = f * c * kw)
    (hd : 1 ≤ d) : ∃ r, undilate1D f c kw d w = some r ∧
      r.length = f * c * newKernelExtent d kw ∧
      (∀ u < newKernelExtent d kw, u ≤ (kw - 1) * d) ∧
      ∀ (init X : Nat → Nat → α) (stride : Nat), ∀ fi < f, ∀ o,
        conv1D c (newKernelExtent d kw) stride 1 init X r fi o = conv1D c kw stride d init X w fi o := by
  obtain ⟨r, h1, h2, h3⟩ := undilate1D_spec hw hd
  refine ⟨r, h1, h2, ?_, ?_⟩
  · intro u hu
    unfold newKernelExtent at hu
    rw [Nat.mul_comm] at hu
    omega
  · intro init X stride fi hf o
    unfold conv1D
    congr 1
    refine Finset.sum_congr rfl fun ci hc => ?_
    obtain ⟨h4, h5⟩ := h3 fi hf ci (mem_range.1 hc)
    rw [sum_undilate hd]
    · refine Finset.sum_congr rfl fun k hk => ?_
      rw [h4 k (mem_range.1 hk), Nat.mul_one]
    · intro u hu hne
      rw [h5 u hu hne, mul_zero]

/-- One channel, width 3 and dilation 2. -/
example : undilate1D 1 1 3 2 [1, 2, (3 : Int)] = some [1, 0, 2, 0, 3] ∧
    conv1D 1 5 1 1 (fun _ _ => 7) (fun _ i => (i : Int)) [1, 0, 2, 0, 3] 0 4 = 47 := by decide

/-- C66: the same in two dimensions. -/
theorem C66_undilate2D [CommRing α] {f c kh kw dh dw : Nat} {w : List α}
    (hw : w.length = f * c * kh * kw) (hdh : 1 ≤ dh) (hdw : 1 ≤ dw) :
    ∃ r, undilate2D f c kh kw dh dw w = some r ∧
      r.length = f * c * newKernelExtent dh kh * newKernelExtent dw kw ∧
      (∀ u < newKernelExtent dh kh, u ≤ (kh - 1) * dh) ∧
      (∀ v < newKernelExtent dw kw, v ≤ (kw - 1) * dw) ∧
      ∀ (init X : Nat → Nat → Nat → α) (sH sW : Nat), ∀ fi < f, ∀ oh ow,
        conv2D c (newKernelExtent dh kh) (newKernelExtent dw kw) sH sW 1 1 init X r fi oh ow =
          conv2D c kh kw sH sW dh dw init X w fi oh ow := by
  obtain ⟨r, h1, h2, h3⟩ := undilate2D_spec hw hdh hdw
  refine ⟨r, h1, h2, ?_, ?_, ?_⟩
  · intro u hu
    unfold newKernelExtent at hu
    rw [Nat.mul_comm] at hu
    omega
  · intro u hu
    unfold newKernelExtent at hu
    rw [Nat.mul_comm] at hu
    omega
  · intro init X sH sW fi hf oh ow
    unfold conv2D
    congr 1
    refine Finset.sum_congr rfl fun ci hc => ?_
    obtain ⟨h4, h5⟩ := h3 fi hf ci (mem_range.1 hc)
    rw [sum_undilate hdh]
    · refine Finset.sum_congr rfl fun i hi => ?_
      rw [sum_undilate hdw]
      · refine Finset.sum_congr rfl fun j hj => ?_
        rw [h4 i (mem_range.1 hi) j (mem_range.1 hj), Nat.mul_one, Nat.mul_one]
      · intro v hv hne
        rw [h5 _ (extent_lt (mem_range.1 hi)) v hv (Or.inr hne), mul_zero]
    · intro u hu hne
      refine Finset.sum_eq_zero fun v hv => ?_
      rw [h5 u hu v (mem_range.1 hv) (Or.inl hne), mul_zero]

example : undilate2D 1 1 2 2 2 1 [1, 2, 3, (4 : Int)] = some [1, 2, 0, 0, 3, 4] := by decide

/-! ## Poolings as convolutions -/

/-- C66: the convolution that replaces a 1-d sum pooling, or the division after it.

Partial: the constant is the divisor, and the initial value is zero when there is a division. -/
theorem C66_pool1D_partial [Field α] {c w stride dilation : Nat} {use : DivUse α}
    {init X : Nat → Nat → α} (hu : ∀ d, use ≠ .divInto d)
    (hi : ∀ d, use = .divBy d → ∀ f o, init f o = 0) :
    ∃ r, poolKernel1D c w (avgAttr use) = some r ∧ r.length = c * c * w ∧ ∀ f < c, ∀ o,
      conv1D c w stride dilation init X r f o = use.eval (pool1D w stride dilation init X f o) := by
  obtain ⟨r, h1, h2, h3⟩ := poolKernel1D_spec (c := c) (w := w) (avg := avgAttr use)
  refine ⟨r, h1, h2, fun f hf o => ?_⟩
  have key : conv1D c w stride dilation init X r f o =
      init f o + (∑ k ∈ range w, X f (o * stride + k * dilation)) * avgAttr use := by
    unfold conv1D
    congr 1
    rw [Finset.sum_eq_single f]
    · rw [Finset.sum_mul]
      refine Finset.sum_congr rfl fun k hk => ?_
      rw [h3 f hf f hf k (mem_range.1 hk), if_pos rfl]
    · intro ci hc hne
      refine Finset.sum_eq_zero fun k hk => ?_
      rw [h3 f hf ci (mem_range.1 hc) k (mem_range.1 hk), if_neg (Ne.symm hne), mul_zero]
    · intro h; exact absurd (mem_range.2 hf) h
  rw [key]
  unfold pool1D
  cases use with
  | other => simp [avgAttr, DivUse.eval]
  | divBy d => rw [hi d rfl]; simp [avgAttr, DivUse.eval, div_eq_mul_inv]
  | divInto d => exact absurd rfl (hu d)

/-- Two channels, windows of two, halved. -/
example : avgAttr (.divBy (2 : ℚ)) = 1 / 2 ∧
    poolKernel1D 2 2 (1 : Int) = some [1, 1, 0, 0, 0, 0, 1, 1] := ⟨rfl, by decide⟩

/-- C66: the same for 2-d poolings.

Partial: as in one dimension. -/
theorem C66_pool2D_partial [Field α] {c kh kw sH sW dH dW : Nat} {use : DivUse α}
    {init X : Nat → Nat → Nat → α} (hu : ∀ d, use ≠ .divInto d)
    (hi : ∀ d, use = .divBy d → ∀ f oh ow, init f oh ow = 0) :
    ∃ r, poolKernel2D c kh kw (avgAttr use) = some r ∧ r.length = c * c * kh * kw ∧
      ∀ f < c, ∀ oh ow, conv2D c kh kw sH sW dH dW init X r f oh ow =
        use.eval (pool2D kh kw sH sW dH dW init X f oh ow) := by
  obtain ⟨r, h1, h2, h3⟩ := poolKernel2D_spec (c := c) (kh := kh) (kw := kw) (avg := avgAttr use)
  refine ⟨r, h1, h2, fun f hf oh ow => ?_⟩
  have key : conv2D c kh kw sH sW dH dW init X r f oh ow = init f oh ow +
      (∑ i ∈ range kh, ∑ j ∈ range kw, X f (oh * sH + i * dH) (ow * sW + j * dW)) * avgAttr use := by
    unfold conv2D
    congr 1
    rw [Finset.sum_eq_single f]
    · rw [Finset.sum_mul]
      refine Finset.sum_congr rfl fun i hi => ?_
      rw [Finset.sum_mul]
      refine Finset.sum_congr rfl fun j hj => ?_
      rw [h3 f hf f hf i (mem_range.1 hi) j (mem_range.1 hj), if_pos rfl]
    · intro ci hc hne
      refine Finset.sum_eq_zero fun i hi => Finset.sum_eq_zero fun j hj => ?_
      rw [h3 f hf ci (mem_range.1 hc) i (mem_range.1 hi) j (mem_range.1 hj), if_neg (Ne.symm hne),
        mul_zero]
    · intro h; exact absurd (mem_range.2 hf) h
  rw [key]
  unfold pool2D
  cases use with
  | other => simp [avgAttr, DivUse.eval]
  | divBy d => rw [hi d rfl]; simp [avgAttr, DivUse.eval, div_eq_mul_inv]
  | divInto d => exact absurd rfl (hu d)

example : poolKernel2D 2 1 2 (1 : Int) = some [1, 1, 0, 0, 0, 0, 1, 1] := by decide

/-- C66 is violated by a constant divided by the pooling: the pooling of 2 and 2 is 4, 8 / 4 is 2, but
the convolution computes 4 / 8. -/
theorem C66_violated_divInto : ∃ r, poolKernel1D 1 2 (avgAttr (.divInto (8 : ℚ))) = some r ∧
    conv1D 1 2 1 1 (fun _ _ => 0) (fun _ _ => 2) r 0 0 ≠
      (DivUse.divInto (8 : ℚ)).eval (pool1D 2 1 1 (fun _ _ => 0) (fun _ _ => 2) 0 0) := by
  refine ⟨[1 / 8, 1 / 8], rfl, ?_⟩
  simp [conv1D, pool1D, DivUse.eval, Finset.sum_range_succ]
  norm_num

/-- C66 is violated by an initial value other than zero under a division: it is not divided. -/
theorem C66_violated_init : ∃ r, poolKernel1D 1 2 (avgAttr (.divBy (2 : ℚ))) = some r ∧
    conv1D 1 2 1 1 (fun _ _ => 1) (fun _ _ => 3) r 0 0 ≠
      (DivUse.divBy (2 : ℚ)).eval (pool1D 2 1 1 (fun _ _ => 1) (fun _ _ => 3) 0 0) := by
  refine ⟨[1 / 2, 1 / 2], rfl, ?_⟩
  simp [conv1D, pool1D, DivUse.eval, Finset.sum_range_succ]
  norm_num

/-! ## Fusion with a pooling -/

/-- C67 (auxiliary): the fused convolution reads as far as the pooling of the convolution does. -/
theorem C67_extent {conv : ConvParams} {pool : PoolParams} (oh ow : Nat) :
    oh * (conv.strideH * pool.strideH) + (effH conv pool - 1) =
      (oh * pool.strideH + (pool.pH - 1) * pool.dilationH) * conv.strideH +
        (conv.kH - 1) * conv.dilationH ∧
    ow * (conv.strideW * pool.strideW) + (effW conv pool - 1) =
      (ow * pool.strideW + (pool.pW - 1) * pool.dilationW) * conv.strideW +
        (conv.kW - 1) * conv.dilationW := by
  refine ⟨?_, ?_⟩
  · unfold effH; rw [Nat.add_sub_cancel]; ring
  · unfold effW; rw [Nat.add_sub_cancel]; ring

/-- A sum over all positions of sums of what lands there. -/
theorem sum_indicator [CommRing α] {U V : Nat} {Y : Nat → Nat → α} {u v : Nat} {x : α} (hu : u < U)
    (hv : v < V) :
    ∑ a ∈ range U, ∑ b ∈ range V, Y a b * (if u = a ∧ v = b then x else 0) = Y u v * x := by
  rw [Finset.sum_eq_single u, Finset.sum_eq_single v]
  · rw [if_pos ⟨rfl, rfl⟩]
  · intro b _ h; rw [if_neg fun e => h e.2.symm, mul_zero]
  · intro h; exact absurd (mem_range.2 hv) h
  · intro a _ h
    exact Finset.sum_eq_zero fun b _ => by rw [if_neg fun e => h e.1.symm, mul_zero]
  · intro h; exact absurd (mem_range.2 hu) h

/-- Moves two sums inside one. -/
theorem sum_move1 [AddCommMonoid α] {U V P : Finset Nat} {G : Nat → Nat → Nat → α} :
    ∑ u ∈ U, ∑ v ∈ V, ∑ p ∈ P, G u v p = ∑ p ∈ P, ∑ u ∈ U, ∑ v ∈ V, G u v p := by
  rw [Finset.sum_congr rfl fun u _ => Finset.sum_comm, Finset.sum_comm]

/-- Moves two sums inside four. -/
theorem sum_move [AddCommMonoid α] {U V P Q K L : Finset Nat}
    {G : Nat → Nat → Nat → Nat → Nat → Nat → α} :
    ∑ u ∈ U, ∑ v ∈ V, ∑ p ∈ P, ∑ q ∈ Q, ∑ k ∈ K, ∑ l ∈ L, G u v p q k l =
      ∑ p ∈ P, ∑ q ∈ Q, ∑ k ∈ K, ∑ l ∈ L, ∑ u ∈ U, ∑ v ∈ V, G u v p q k l := by
  refine sum_move1.trans (Finset.sum_congr rfl fun p _ => ?_)
  refine sum_move1.trans (Finset.sum_congr rfl fun q _ => ?_)
  refine sum_move1.trans (Finset.sum_congr rfl fun k _ => ?_)
  exact sum_move1

/-- What a filter that collects weights contributes to one element. -/
theorem collected_sum [CommRing α] {U V P Q K L : Nat} {Y W : Nat → Nat → α} {x : Nat → Nat → α}
    {pu pv : Nat → Nat → Nat} (hu : ∀ p < P, ∀ k < K, pu p k < U) (hv : ∀ q < Q, ∀ l < L, pv q l < V)
    (hW : ∀ u < U, ∀ v < V, W u v = ∑ p ∈ range P, ∑ q ∈ range Q, ∑ k ∈ range K, ∑ l ∈ range L,
      if pu p k = u ∧ pv q l = v then x k l else 0) :
    ∑ u ∈ range U, ∑ v ∈ range V, Y u v * W u v =
      ∑ p ∈ range P, ∑ q ∈ range Q, ∑ k ∈ range K, ∑ l ∈ range L, Y (pu p k) (pv q l) * x k l := by
  have step : ∀ u ∈ range U, ∀ v ∈ range V, Y u v * W u v = ∑ p ∈ range P, ∑ q ∈ range Q,
      ∑ k ∈ range K, ∑ l ∈ range L, Y u v * if pu p k = u ∧ pv q l = v then x k l else 0 := by
    intro u h1 v h2
    rw [hW u (mem_range.1 h1) v (mem_range.1 h2)]
    simp only [Finset.mul_sum]
  rw [Finset.sum_congr rfl fun u hu => Finset.sum_congr rfl fun v hv => step u hu v hv, sum_move]
  refine Finset.sum_congr rfl fun p hp => Finset.sum_congr rfl fun q hq =>
    Finset.sum_congr rfl fun k hk => Finset.sum_congr rfl fun l hl => ?_
  rw [mem_range] at hp hq hk hl
  exact sum_indicator (hu p hp k hk) (hv q hq l hl)

/-- The pooling of a convolution, with the sums of the fused convolution. -/
theorem pool_conv_sum [CommRing α] {C P Q K L : Nat} {s a : α} {Z : Nat → Nat → α}
    {Y : Nat → Nat → Nat → Nat → Nat → α} {x : Nat → Nat → Nat → α} :
    (a + ∑ p ∈ range P, ∑ q ∈ range Q, Z p q) * s +
      ∑ c ∈ range C, ∑ p ∈ range P, ∑ q ∈ range Q, ∑ k ∈ range K, ∑ l ∈ range L,
        Y c p q k l * (x c k l * s) =
    (a + ∑ p ∈ range P, ∑ q ∈ range Q, (Z p q + ∑ c ∈ range C, ∑ k ∈ range K, ∑ l ∈ range L,
      Y c p q k l * x c k l)) * s := by
  have h1 : ∑ p ∈ range P, ∑ q ∈ range Q, (Z p q + ∑ c ∈ range C, ∑ k ∈ range K, ∑ l ∈ range L,
      Y c p q k l * x c k l) = ∑ p ∈ range P, ∑ q ∈ range Q, Z p q +
      ∑ p ∈ range P, ∑ q ∈ range Q, ∑ c ∈ range C, ∑ k ∈ range K, ∑ l ∈ range L,
        Y c p q k l * x c k l := by
    rw [← Finset.sum_add_distrib]
    exact Finset.sum_congr rfl fun p _ => Finset.sum_add_distrib
  have h2 : ∑ c ∈ range C, ∑ p ∈ range P, ∑ q ∈ range Q, ∑ k ∈ range K, ∑ l ∈ range L,
      Y c p q k l * (x c k l * s) = (∑ p ∈ range P, ∑ q ∈ range Q, ∑ c ∈ range C, ∑ k ∈ range K,
        ∑ l ∈ range L, Y c p q k l * x c k l) * s := by
    rw [Finset.sum_comm, Finset.sum_mul]
    refine Finset.sum_congr rfl fun p _ => ?_
    rw [Finset.sum_comm, Finset.sum_mul]
    refine Finset.sum_congr rfl fun q _ => ?_
    rw [Finset.sum_mul]
    refine Finset.sum_congr rfl fun c _ => ?_
    rw [Finset.sum_mul]
    refine Finset.sum_congr rfl fun k _ => ?_
    rw [Finset.sum_mul]
    exact Finset.sum_congr rfl fun l _ => (mul_assoc _ _ _).symm
  rw [h1, h2]
  generalize ∑ p ∈ range P, ∑ q ∈ range Q, Z p q = z
  rw [← add_mul, add_assoc]

/-- The fused convolution, for weights scaled by a factor. -/
theorem fused_conv [CommRing α] {w : List α} {conv : ConvParams} {pool : PoolParams}
    {scale : α → α} {s : α} (hs : ∀ x, scale x = x * s)
    (hw : w.length = conv.F * conv.C * conv.kH * conv.kW) :
    ∃ r, fuseFiltersImpl w conv pool (· + ·) scale 0 = some r ∧
      r.length = conv.F * conv.C * effH conv pool * effW conv pool ∧
      ∀ (initNew initC initP X : Nat → Nat → Nat → α), ∀ f < conv.F, ∀ oh ow,
        initNew f oh ow = pool2D pool.pH pool.pW pool.strideH pool.strideW pool.dilationH
          pool.dilationW initP initC f oh ow * s →
        conv2D conv.C (effH conv pool) (effW conv pool) (conv.strideH * pool.strideH)
          (conv.strideW * pool.strideW) 1 1 initNew X r f oh ow =
        pool2D pool.pH pool.pW pool.strideH pool.strideW pool.dilationH pool.dilationW initP
          (conv2D conv.C conv.kH conv.kW conv.strideH conv.strideW conv.dilationH conv.dilationW
            initC X w) f oh ow * s := by
  obtain ⟨r, h1, h2, h3⟩ := fuse_spec (pool := pool) (scale := scale) hw
  refine ⟨r, h1, h2, ?_⟩
  intro initNew initC initP X f hf oh ow hinit
  have key : ∀ c ∈ range conv.C, ∑ u ∈ range (effH conv pool), ∑ v ∈ range (effW conv pool),
      X c (oh * (conv.strideH * pool.strideH) + u * 1) (ow * (conv.strideW * pool.strideW) + v * 1) *
        r.getD (((f * conv.C + c) * effH conv pool + u) * effW conv pool + v) 0 =
      ∑ ph ∈ range pool.pH, ∑ pw ∈ range pool.pW, ∑ kh ∈ range conv.kH, ∑ kw ∈ range conv.kW,
        X c ((oh * pool.strideH + ph * pool.dilationH) * conv.strideH + kh * conv.dilationH)
          ((ow * pool.strideW + pw * pool.dilationW) * conv.strideW + kw * conv.dilationW) *
          (w.getD (((f * conv.C + c) * conv.kH + kh) * conv.kW + kw) 0 * s) := by
    intro c hc
    refine Eq.trans (collected_sum (Y := fun u v => X c (oh * (conv.strideH * pool.strideH) + u * 1)
      (ow * (conv.strideW * pool.strideW) + v * 1)) (fun p hp k hk => fusedPos_lt hp hk)
      (fun p hp k hk => fusedPos_lt hp hk) (h3 f hf c (mem_range.1 hc))) ?_
    refine Finset.sum_congr rfl fun ph _ => Finset.sum_congr rfl fun pw _ =>
      Finset.sum_congr rfl fun kh _ => Finset.sum_congr rfl fun kw _ => ?_
    have e1 : oh * (conv.strideH * pool.strideH) +
        fusedPos pool.dilationH conv.strideH conv.dilationH ph kh * 1 =
        (oh * pool.strideH + ph * pool.dilationH) * conv.strideH + kh * conv.dilationH := by
      unfold fusedPos; ring
    have e2 : ow * (conv.strideW * pool.strideW) +
        fusedPos pool.dilationW conv.strideW conv.dilationW pw kw * 1 =
        (ow * pool.strideW + pw * pool.dilationW) * conv.strideW + kw * conv.dilationW := by
      unfold fusedPos; ring
    rw [hs, e1, e2]
  unfold conv2D
  rw [hinit, Finset.sum_congr rfl key]
  exact pool_conv_sum

/-- C67: for integers, the fused convolution of the pooled initial value is the pooling of the
convolution. -/
theorem C67_int [CommRing α] {w : List α} {conv : ConvParams} {pool : PoolParams}
    (hw : w.length = conv.F * conv.C * conv.kH * conv.kW) :
    ∃ r, fuseIntFilters w conv pool = some r ∧
      r.length = conv.F * conv.C * effH conv pool * effW conv pool ∧
      ∀ (initC initP X : Nat → Nat → Nat → α), ∀ f < conv.F, ∀ oh ow,
        conv2D conv.C (effH conv pool) (effW conv pool) (conv.strideH * pool.strideH)
          (conv.strideW * pool.strideW) 1 1
          (pool2D pool.pH pool.pW pool.strideH pool.strideW pool.dilationH pool.dilationW initP initC)
          X r f oh ow =
        pool2D pool.pH pool.pW pool.strideH pool.strideW pool.dilationH pool.dilationW initP
          (conv2D conv.C conv.kH conv.kW conv.strideH conv.strideW conv.dilationH conv.dilationW
            initC X w) f oh ow := by
  obtain ⟨r, h1, h2, h3⟩ := fused_conv (pool := pool) (scale := id) (s := (1 : α))
    (fun x => (mul_one x).symm) hw
  refine ⟨r, h1, h2, fun initC initP X f hf oh ow => ?_⟩
  have := h3 (pool2D pool.pH pool.pW pool.strideH pool.strideW pool.dilationH pool.dilationW initP
    initC) initC initP X f hf oh ow (mul_one _).symm
  rwa [mul_one] at this

/-- One channel, a 2 x 1 kernel with stride 1, pooled by windows of 2 x 1: the middle row is the sum
of both weights. Over 8-bit integers the sum wraps. -/
example : fuseIntFilters [200, (100 : BitVec 8)] ⟨1, 1, 2, 1, 1, 1, 1, 1⟩ ⟨2, 1, 2, 1, 1, 1⟩ =
    some [200, 44, 100] := by decide

/-- C67: for floats, with the scaling by a constant after the pooling folded into the filter.

Partial: a matched `linalg.generic` must read its input in place and yield the result of its op; the
matcher checks neither. -/
theorem C67_float_partial [Field α] {w : List α} {conv : ConvParams} {pool : PoolParams}
    {user : User α (Nat × Nat × Nat)} (hw : w.length = conv.F * conv.C * conv.kH * conv.kW)
    (hg : ∀ k a b y m, user = .generic k a b y m → matchScalingFactor user ≠ none →
      y = .result ∧ m = id) :
    ∃ r, fuseFloatFilters w conv pool (matchScalingFactor user) = some r ∧
      r.length = conv.F * conv.C * effH conv pool * effW conv pool ∧
      ∀ (initC initP X : Nat → Nat → Nat → α), ∀ f < conv.F, ∀ oh ow,
        conv2D conv.C (effH conv pool) (effW conv pool) (conv.strideH * pool.strideH)
          (conv.strideW * pool.strideW) 1 1
          (fun f oh ow => (replacedUser user).eval (fun i => pool2D pool.pH pool.pW pool.strideH pool.strideW
            pool.dilationH pool.dilationW initP initC i.1 i.2.1 i.2.2) (f, oh, ow))
          X r f oh ow =
        (replacedUser user).eval (fun i => pool2D pool.pH pool.pW pool.strideH pool.strideW pool.dilationH
          pool.dilationW initP
          (conv2D conv.C conv.kH conv.kW conv.strideH conv.strideW conv.dilationH conv.dilationW
            initC X w) i.1 i.2.1 i.2.2) (f, oh, ow) := by
  -- the user multiplies by the scale
  have scaled : ∀ (x : Nat × Nat × Nat → α) i,
      (replacedUser user).eval x i = x i * (matchScalingFactor user).getD 1 := by
    intro x i
    have arith : ∀ (k : Kind) (b : Operand α) s, getScale k b = some s → ∀ (a r : α),
        k.eval a (b.eval a r) = a * s := by
      intro k b s h a r
      cases b with
      | const v =>
        cases k <;> simp only [getScale, Option.some.injEq] at h <;> subst h <;>
          simp [Kind.eval, Operand.eval, div_eq_mul_inv]
      | pool => exact absurd h (by simp [getScale])
      | result => exact absurd h (by simp [getScale])
      | other v => exact absurd h (by simp [getScale])
    cases hm : matchScalingFactor user with
    | none => simp [replacedUser, hm, User.eval]
    | some s =>
      rw [show replacedUser user = user by unfold replacedUser; rw [hm]]
      cases user with
      | none => exact absurd hm (by simp [matchScalingFactor])
      | arith k a b =>
        cases a <;> simp only [matchScalingFactor] at hm <;> try exact absurd hm (by simp)
        exact arith k b s hm _ _
      | generic k a b y m =>
        obtain ⟨rfl, rfl⟩ := hg k a b y m rfl (by rw [hm]; simp)
        cases a <;> simp only [matchScalingFactor] at hm <;> try exact absurd hm (by simp)
        exact arith k b s hm _ _
  obtain ⟨r, h1, h2, h3⟩ := fused_conv (pool := pool)
    (scale := (· * (matchScalingFactor user).getD 1)) (fun x => rfl) hw
  refine ⟨r, h1, h2, fun initC initP X f hf oh ow => ?_⟩
  rw [scaled]
  refine h3 _ initC initP X f hf oh ow ?_
  exact scaled _ _

/-- A division by 4 on tensors and the same in a `linalg.generic`. -/
example : matchScalingFactor (User.arith .div .pool (.const (4 : ℚ)) : User ℚ (Nat × Nat × Nat)) =
      some (1 / 4) ∧
    matchScalingFactor (User.generic .div .pool (.const (4 : ℚ)) .result id :
      User ℚ (Nat × Nat × Nat)) = some (1 / 4) ∧
    matchScalingFactor (User.arith .div (.const (4 : ℚ)) .pool : User ℚ (Nat × Nat × Nat)) = none :=
  ⟨rfl, rfl, rfl⟩

/-- The result of the fused convolution of 1 x 1 kernels and windows, for a given user. -/
def fused1 (user : User ℚ (Nat × Nat × Nat)) (X : Nat → Nat → Nat → ℚ) (r : List ℚ) :
    Nat → Nat → Nat → ℚ :=
  conv2D 1 1 1 1 1 1 1 (fun f oh ow => user.eval (fun i => pool2D 1 1 1 1 1 1 (fun _ _ _ => 0)
    (fun _ _ _ => 0) i.1 i.2.1 i.2.2) (f, oh, ow)) X r

/-- What it replaces, with filter 1. -/
def original1 (user : User ℚ (Nat × Nat × Nat)) (X : Nat → Nat → Nat → ℚ) (i : Nat × Nat × Nat) : ℚ :=
  user.eval (fun i => pool2D 1 1 1 1 1 1 (fun _ _ _ => 0)
    (conv2D 1 1 1 1 1 1 1 (fun _ _ _ => 0) X [1]) i.1 i.2.1 i.2.2) i

/-- C67 is violated by a `linalg.generic` that scales and transposes: the result is not
transposed. -/
theorem C67_violated_map : ∃ r, fuseFloatFilters [(1 : ℚ)] ⟨1, 1, 1, 1, 1, 1, 1, 1⟩ ⟨1, 1, 1, 1, 1, 1⟩
      (matchScalingFactor (User.generic .mul .pool (.const (2 : ℚ)) .result
        (fun i : Nat × Nat × Nat => (i.1, i.2.2, i.2.1)))) = some r ∧
    fused1 (.generic .mul .pool (.const 2) .result fun i => (i.1, i.2.2, i.2.1))
      (fun _ h w => h - w) r 0 0 1 ≠
    original1 (.generic .mul .pool (.const 2) .result fun i => (i.1, i.2.2, i.2.1))
      (fun _ h w => h - w) (0, 0, 1) := by
  refine ⟨[0 + 1 * 2], rfl, ?_⟩
  simp [fused1, original1, conv2D, pool2D, User.eval, Operand.eval, Kind.eval]
  norm_num

/-- C67 is violated by a `linalg.generic` that scales but yields its input: the result is scaled. -/
theorem C67_violated_yield : ∃ r, fuseFloatFilters [(1 : ℚ)] ⟨1, 1, 1, 1, 1, 1, 1, 1⟩ ⟨1, 1, 1, 1, 1, 1⟩
      (matchScalingFactor (User.generic .mul .pool (.const (2 : ℚ)) .pool
        (id : Nat × Nat × Nat → Nat × Nat × Nat))) = some r ∧
    fused1 (.generic .mul .pool (.const 2) .pool id) (fun _ _ _ => 1) r 0 0 0 ≠
      original1 (.generic .mul .pool (.const 2) .pool id) (fun _ _ _ => 1) (0, 0, 0) := by
  refine ⟨[0 + 1 * 2], rfl, ?_⟩
  simp [fused1, original1, conv2D, pool2D, User.eval, Operand.eval]

end Heir.Conv
