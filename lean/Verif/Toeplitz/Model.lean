import Verif.Layout.Model

/-!
# Model of the convolution layouts

The relations of `lib/Utils/Layout/Convolution.cpp` that expand the filter of a convolution into a
(Toeplitz) matrix, diagonalize the matrix and lay out the result, and what
`lib/Transforms/LayoutPropagation/LayoutPropagation.cpp` passes to them.  A Presburger relation is
modelled as the predicate it denotes.  Variables with lower bound 0 are natural numbers, the others
integers; the sizes are natural numbers (dimensions of static tensor types).
-/

namespace Heir.Toeplitz

open Heir.Layout

/-- Sizes of a one-dimensional convolution: data, filter, stride, padding on both sides. -/
structure Conv1 where
  w : Nat
  k : Nat
  s : Nat
  p : Nat

/-- Sizes of a two-dimensional convolution: data, filter, strides, padding on all sides. -/
structure Conv2 where
  h : Nat
  w : Nat
  kh : Nat
  kw : Nat
  sh : Nat
  sw : Nat
  p : Nat

/-- `(dataSize + 2 * padding - filterSize) / stride + 1`, `Convolution.cpp:64-67`, `229`,
`249-252`, `475`, `509-510`.  The difference is negative in the code when the filter does not fit
the data; the theorems exclude this. -/
def outSize (data filter stride padding : Nat) : Nat := (data + 2 * padding - filter) / stride + 1

/-- Rows of `get1dConvFilterExpandedType`, `Convolution.cpp:223-235` (the columns are `w`). -/
def Conv1.out (d : Conv1) : Nat := outSize d.w d.k d.s d.p

/-- `slidingRowSize`, `Convolution.cpp:64-65`, and `filterSlidingRows`, `249-250`. -/
def Conv2.oh (d : Conv2) : Nat := outSize d.h d.kh d.sh d.p

/-- `slidingColSize`, `Convolution.cpp:66-67`, and `filterSlidingCols`, `251-252`. -/
def Conv2.ow (d : Conv2) : Nat := outSize d.w d.kw d.sw d.p

/-- Rows of `get2dConvFilterExpandedType`, `Convolution.cpp:253`. -/
def Conv2.rows (d : Conv2) : Nat := d.oh * d.ow

/-- Columns of `get2dConvFilterExpandedType`, `Convolution.cpp:256`. -/
def Conv2.cols (d : Conv2) : Nat := d.h * d.w

/-! ## Expansion of the filter -/

/-- `get2dConvFilterRelation`, `Convolution.cpp:28-134`, from an element of the filter to a
position of the matrix. -/
def Conv2.filter (d : Conv2) (idx : Nat × Nat) (row col : Nat) : Prop :=
  ∃ sr sc : Nat, idx.1 < d.kh ∧ idx.2 < d.kw ∧ sr < d.oh ∧ sc < d.ow ∧
    0 ≤ (sr : Int) * d.sh + idx.1 - d.p ∧ 0 ≤ (d.h : Int) + d.p - 1 - sr * d.sh - idx.1 ∧
    0 ≤ (sc : Int) * d.sw + idx.2 - d.p ∧ 0 ≤ (d.w : Int) + d.p - 1 - sc * d.sw - idx.2 ∧
    row = sr * d.ow + sc ∧
    (col : Int) = sr * (d.sh * d.w) + sc * d.sw + idx.1 * d.w + idx.2 + (-(d.p : Int) * d.w - d.p)

/-- `matrixRowStridingRelation`, `Convolution.cpp:136-158`. -/
def rowStriding (rowSize colSize : Int) (stride : Nat) (row col row' col' : Nat) : Prop :=
  (row : Int) ≤ rowSize ∧ (col : Int) ≤ colSize ∧ row = stride * row' ∧ col = col'

/-- `get1dConvFilterRelation` before the striding, `Convolution.cpp:168-212`. -/
def Conv1.dense (d : Conv1) (idx row col : Nat) : Prop :=
  ∃ i : Int, idx < d.k ∧ -(d.p : Int) ≤ i ∧ i ≤ (d.w : Int) + d.p - d.k ∧ (col : Int) ≤ d.w - 1 ∧
    (row : Int) ≤ (d.w : Int) + d.p - d.k + d.p ∧ (row : Int) = i + d.p ∧ (col : Int) = i + idx

/-- `get1dConvFilterRelation`, `Convolution.cpp:168-221`. -/
def Conv1.filter (d : Conv1) (idx row col : Nat) : Prop :=
  if 1 < d.s then
    ∃ r c, d.dense idx r c ∧
      rowStriding ((d.w : Int) + d.p - d.k + d.p) ((d.w : Int) - 1) d.s r c row col
  else d.dense idx row col

/-- The embedding of the matrix of one channel in the matrix of all channels,
`Convolution.cpp:322-374` and `394-446`: `f` output channels, `c` input channels and a matrix of
`rows` by `cols` for each pair. -/
def channels {ι : Type} (f c rows cols : Nat) (single : ι → Nat → Nat → Prop)
    (idx : Nat × Nat × ι) (row col : Nat) : Prop :=
  ∃ sr sc, single idx.2.2 sr sc ∧ idx.1 < f ∧ idx.2.1 < c ∧
    row = idx.1 * rows + sr ∧ col = idx.2.1 * cols + sc ∧
    (row : Int) ≤ (f : Int) * rows - 1 ∧ (col : Int) ≤ (c : Int) * cols - 1

/-- `get1dConvCwFcwFilterRelation`, `Convolution.cpp:307-375`. -/
def Conv1.filterMulti (d : Conv1) (f c : Nat) : Nat × Nat × Nat → Nat → Nat → Prop :=
  channels f c d.out d.w d.filter

/-- `get2dConvChwFchwFilterRelation`, `Convolution.cpp:377-447`. -/
def Conv2.filterMulti (d : Conv2) (f c : Nat) : Nat × Nat × Nat × Nat → Nat → Nat → Prop :=
  channels f c d.rows d.cols d.filter

/-! ## Row interchange -/

/-- `get1dConvRowInterchangeRelation`, `Convolution.cpp:645-669`. -/
def interchange1 (c w g : Nat) (i o : Nat) : Prop :=
  ∃ wi ci wo co : Nat, wi < w ∧ ci < c ∧ wo < w * g ∧ co < c / g ∧ co = ci / g ∧
    wo = wi * g + ci % g ∧ i = wi + ci * w ∧ o = wo + co * (w * g) ∧ i < c * w ∧ o < c * w

/-- `get2dConvRowInterchangeRelation`, `Convolution.cpp:615-643`. -/
def interchange2 (c h w g : Nat) (i o : Nat) : Prop :=
  ∃ hi wi ci ho wo co : Nat, hi < h ∧ wi < w ∧ ci < c ∧
    ho < h * g ∧ wo < w * g ∧ co < c / (g * g) ∧ co = ci / g ^ 2 ∧ wo = wi * g + ci % g ∧
    ho = hi * g + ci % g ^ 2 / g ∧ i = wi + hi * w + ci * (h * w) ∧
    o = wo + ho * (w * g) + co * (h * g * (w * g)) ∧ i < c * h * w ∧ o < c * h * w

/-! ## Diagonalization -/

/-- `diagonalize2dMatrix`, `Utils.cpp:237-256`: `rows` and `cols` are one more than the bounds
`getConstantBound64` finds for the matrix position (the algorithm that finds them is in MLIR, see
`IsBound`). -/
def diagonalize {ι : Type} (rel : ι → Nat → Nat → Prop) (rows cols numSlots : Nat) (idx : ι)
    (ct slot : Nat) : Prop :=
  ∃ row col, rel idx row col ∧ diagonal rows cols numSlots (row, col) ct slot

/-- What is assumed of the bounds found by `getConstantBound64`: no position of the relation is
outside. -/
def IsBound {ι : Type} (rel : ι → Nat → Nat → Prop) (rows cols : Nat) : Prop :=
  ∀ idx row col, rel idx row col → row < rows ∧ col < cols

/-- The least bounds: they are also reached. -/
def IsTight {ι : Type} (rel : ι → Nat → Nat → Prop) (rows cols : Nat) : Prop :=
  IsBound rel rows cols ∧ (∃ idx col, rel idx (rows - 1) col) ∧ ∃ idx row, rel idx row (cols - 1)

/-- The composition with the row interchange, `Convolution.cpp:472-491`. -/
def interchangeRows {ι : Type} (rel : ι → Nat → Nat → Prop) (perm : Nat → Nat → Prop) (idx : ι)
    (row col : Nat) : Prop :=
  ∃ r c, rel idx r c ∧ perm r row ∧ c = col

/-- The matrix of `get1dConvCwFcwFilterDiagonalizedRelation` before the diagonalization,
`Convolution.cpp:465-491`; the gap is the stride. -/
def Conv1.matrix (d : Conv1) (f c : Nat) (interchange : Bool) :
    Nat × Nat × Nat → Nat → Nat → Prop :=
  if interchange then interchangeRows (d.filterMulti f c) (interchange1 f d.out d.s)
  else d.filterMulti f c

/-! ### The sequence for two dimensions -/

/-- Step 1 of `get2dConvChwFchwFilterAsSequence`, `Convolution.cpp:535-548`. -/
def Conv2.step1 (d : Conv2) (nf nc : Nat) (f c fh fw : Nat) (f' c' oh ow col : Nat) : Prop :=
  f' = f ∧ c' = c ∧ f < nf ∧ c < nc ∧ fh < d.kh ∧ fw < d.kw ∧ oh < d.oh ∧ ow < d.ow ∧
    (col : Int) = ((oh : Int) * d.sh - d.p + fh) * d.w + ow * d.sw - d.p + fw ∧
    0 ≤ (oh : Int) * d.sh - d.p + fh ∧ (oh : Int) * d.sh - d.p + fh < d.h ∧
    0 ≤ (ow : Int) * d.sw - d.p + fw ∧ (ow : Int) * d.sw - d.p + fw < d.w

/-- Step 2, `Convolution.cpp:550-564`; the gap is `strides[0]`. -/
def Conv2.step2 (d : Conv2) (nf nc : Nat) (f c oh ow col : Nat) (f' c' oh' ow' col' : Nat) : Prop :=
  f < nf ∧ c < nc ∧ oh < d.oh ∧ ow < d.ow ∧ col < nc * d.cols ∧ c' = c ∧ col' = col ∧
    ow' = ow * d.sh + f % d.sh ∧ oh' = oh * d.sh + f % (d.sh * d.sh) / d.sh ∧
    f' = f / (d.sh * d.sh)

/-- Step 3, `Convolution.cpp:529-531` and `566-576`. -/
def Conv2.step3 (d : Conv2) (nf nc : Nat) (interchange : Bool) (f c oh ow col : Nat)
    (row c' col' : Nat) : Prop :=
  let f3 := if interchange then nf / (d.sh * d.sh) else nf
  let h3 := if interchange then d.oh * d.sh else d.oh
  let w3 := if interchange then d.ow * d.sh else d.ow
  f < f3 ∧ c < nc ∧ oh < h3 ∧ ow < w3 ∧ col < nc * d.cols ∧ c' = c ∧ col' = col ∧
    row = f * h3 * w3 + oh * w3 + ow

/-- Step 4, `Convolution.cpp:578-587`. -/
def Conv2.step4 (d : Conv2) (nf nc : Nat) (row c col : Nat) (row' col' : Nat) : Prop :=
  row < nf * d.rows ∧ c < nc ∧ col < d.cols ∧ row' = row ∧ col' = c * d.cols + col

/-- Step 5, `Convolution.cpp:522-527` and `589-599`. -/
def Conv2.step5 (d : Conv2) (nf nc numSlots : Nat) (row col : Nat) (ct slot : Nat) : Prop :=
  let maxRow := nf * d.rows
  let maxCol := nc * d.cols
  row < maxRow ∧ col < maxCol ∧ ((slot : Int) - row) % padded maxRow = 0 ∧
    ((ct : Int) + slot - col) % padded maxCol = 0 ∧ ct < min (padded maxRow) (padded maxCol) ∧
    slot < numSlots

/-- `get2dConvChwFchwFilterAsSequence`, `Convolution.cpp:495-602`: steps 1 to 4 composed. -/
def Conv2.matrix (d : Conv2) (nf nc : Nat) (interchange : Bool) (idx : Nat × Nat × Nat × Nat)
    (row col : Nat) : Prop :=
  ∃ f c oh ow cl, d.step1 nf nc idx.1 idx.2.1 idx.2.2.1 idx.2.2.2 f c oh ow cl ∧
    ∃ f' c' oh' ow' cl',
      (if interchange then d.step2 nf nc f c oh ow cl f' c' oh' ow' cl'
        else (f', c', oh', ow', cl') = (f, c, oh, ow, cl)) ∧
      ∃ r c'' cl'', d.step3 nf nc interchange f' c' oh' ow' cl' r c'' cl'' ∧
        d.step4 nf nc r c'' cl'' row col

/-- `get2dConvChwFchwFilterAsSequence`: all steps composed. -/
def Conv2.sequence (d : Conv2) (nf nc : Nat) (interchange : Bool) (numSlots : Nat)
    (idx : Nat × Nat × Nat × Nat) (ct slot : Nat) : Prop :=
  ∃ row col, d.matrix nf nc interchange idx row col ∧ d.step5 nf nc numSlots row col ct slot

/-! ## Layout of the result -/

/-- `std::ceil((float)numElements / minSlotCount)`, `Convolution.cpp:682-683`, `739-740`,
`770-771`. -/
def numCts (numElements numSlots : Nat) : Int := ⌈f32 (f32 numElements / f32 numSlots)⌉

/-- `mapToCtSlot`, `Convolution.cpp:707-711`, `717-721` and `745-749`, for a tensor of `n`
elements. -/
def toCtSlot (n numSlots : Nat) (i : Nat) (ct slot : Nat) : Prop :=
  (ct : Int) < numCts n numSlots ∧ slot < numSlots ∧ slot % padded n = i % numSlots ∧
    ct = i / numSlots

/-- `get1dConvResultRelation`, `Convolution.cpp:671-725`, for a result of `c` channels of width
`w`. -/
def result1 (c w stride numSlots : Nat) (interchange : Bool) (idx : List Nat) (ct slot : Nat) :
    Prop :=
  let dims := [1, c, w]
  let n := numElements dims
  ∃ ct0 s0, rowMajor dims n idx ct0 s0 ∧ ct0 = 0 ∧
    if interchange then ∃ s1, interchange1 c w stride s0 s1 ∧ toCtSlot n numSlots s1 ct slot
    else toCtSlot n numSlots s0 ct slot

/-- `get2dConvResultRelation`, `Convolution.cpp:727-753`. -/
def result2 (dims : List Nat) (numSlots : Nat) (idx : List Nat) (ct slot : Nat) : Prop :=
  let n := numElements dims
  ∃ ct0 s0, rowMajor dims n idx ct0 s0 ∧ ct0 = 0 ∧ toCtSlot n numSlots s0 ct slot

/-- `get2dConvRowInterchangeLayoutRelation`, `Convolution.cpp:755-843`, for a result of `c`
channels of `h` by `w`. -/
def interchangeLayout (c h w g numSlots : Nat) (ct slot ct' slot' : Nat) : Prop :=
  let n := numElements [1, c, h, w]
  ∃ i o k hi wi ci ho wo co : Nat,
    ct * numSlots + slot = k * padded n + i ∧ ct' * numSlots + slot' = k * padded n + o ∧
    slot < numSlots ∧ slot' < numSlots ∧ (ct : Int) < numCts n numSlots ∧
    (ct' : Int) < numCts n numSlots ∧ i < padded n ∧ i < n ∧ o < padded n ∧ o < n ∧
    hi < h ∧ wi < w ∧ ci < c ∧ ho < h * g ∧ wo < w * g ∧ co < c / (g * g) ∧
    co = ci / g ^ 2 ∧ wo = wi * g + ci % g ∧ ho = hi * g + ci % g ^ 2 / g ∧
    i = wi + hi * w + ci * (h * w) ∧ o = wo + ho * (w * g) + co * (h * g * (w * g))

/-- The result layout of `conv_2d_nchw_fchw`, `LayoutPropagation.cpp:1238-1250`: the list of
layouts is composed. -/
def result2Multi (c h w g numSlots : Nat) (interchange : Bool) (idx : List Nat) (ct slot : Nat) :
    Prop :=
  if interchange then
    ∃ ct1 s1, result2 [1, c, h, w] numSlots idx ct1 s1 ∧
      interchangeLayout c h w g numSlots ct1 s1 ct slot
  else result2 [1, c, h, w] numSlots idx ct slot

/-! ## What the layout pass passes on -/

/-- `foldConvSpatialPadding` on one spatial dimension, `LayoutPropagation/Utils.cpp:62-76`: the
size of the data without the padding. -/
def foldPadding (size p : Int) : Option Int :=
  if p < 0 then none else if size - 2 * p ≤ 0 then none else some (size - 2 * p)

/-- The shape recorded for the result of a strided `conv_2d_nchw_fchw`,
`LayoutPropagation.cpp:1163-1177`: channels, height, width for an output of `c` by `h` by `w`, a
data operand of `dh` by `dw` and the gap `g`. -/
def fheShape (c h w dh dw g : Nat) : Nat × Nat × Nat :=
  (c / (g * g), max dh (h * g), max dw (w * g))

end Heir.Toeplitz
