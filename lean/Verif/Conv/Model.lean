import Mathlib.Algebra.Field.Basic

/-! # Convolutions with materialized filters

Model of the undilation and pooling rewrites in `lib/Transforms/LinalgCanonicalizations`. Filters are
the lists of their elements in row-major order; extents are at least 1, strides and dilations
nonnegative, and products of extents fit `int64_t`. Floats are elements of a field. -/

namespace Heir.Conv

variable {α : Type}

/-- `for (int64_t i = 0; i < n; ++i)` over an array; undefined as soon as one step is. -/
def loop (n : Nat) (body : Nat → List α → Option (List α)) (a : List α) : Option (List α) :=
  (List.range n).foldlM (fun a i => body i a) a

/-- `values[i] = x`; outside the vector undefined. -/
def write (values : List α) (i : Nat) (x : α) : Option (List α) :=
  if i < values.length then some (values.set i x) else none

/-- The new width in `UndilateConv1DNcwFcw`, LinalgCanonicalizations.cpp:1226, also 1311-1312. -/
def newKernelExtent (d k : Nat) : Nat := d * (k - 1) + 1

/-- The loops of `UndilateConv1DNcwFcw`, LinalgCanonicalizations.cpp:1251-1262. -/
def undilate1D [Zero α] (f c kw d : Nat) (inputValues : List α) : Option (List α) :=
  let newKw := newKernelExtent d kw
  loop f (fun fi => loop c fun ci => loop kw fun ki values =>
    let src := fi * (c * kw) + ci * kw + ki
    let dst := fi * (c * newKw) + ci * newKw + ki * d
    (inputValues[src]?).bind fun x => write values dst x) (List.replicate (f * c * newKw) 0)

/-- The loops of `UndilateConv2DNchwFchw`, LinalgCanonicalizations.cpp:1337-1350. -/
def undilate2D [Zero α] (f c kh kw dh dw : Nat) (inputValues : List α) : Option (List α) :=
  let newKh := newKernelExtent dh kh
  let newKw := newKernelExtent dw kw
  loop f (fun fi => loop c fun ci => loop kh fun khi => loop kw fun kwi values =>
    let src := ((fi * c + ci) * kh + khi) * kw + kwi
    let dst := ((fi * c + ci) * newKh + khi * dh) * newKw + kwi * dw
    (inputValues[src]?).bind fun x => write values dst x) (List.replicate (f * c * newKh * newKw) 0)

/-- How the result of a sum pooling is used: once, by an `arith.divf` with a splat constant as the
other operand, or otherwise. -/
inductive DivUse (α : Type) where
  | other
  /-- pooling / constant -/
  | divBy (d : α)
  /-- constant / pooling -/
  | divInto (d : α)

/-- The value of `avgAttr`, LinalgCanonicalizations.cpp:696-713 and 782-799: the constant is
`getOperand(1 - use.getOperandNumber())`. -/
def avgAttr [DivisionRing α] : DivUse α → α
  | .other => 1
  | .divBy d => 1 / d
  | .divInto d => 1 / d

/-- The loops of `RewriteAvgPoolAsConv1D`, LinalgCanonicalizations.cpp:721-735. -/
def poolKernel1D [Zero α] (c w : Nat) (avg : α) : Option (List α) :=
  loop c (fun f => loop c fun ci values =>
    if f = ci then loop w (fun wi values => write values (f * (c * w) + ci * w + wi) avg) values
    else some values) (List.replicate (c * c * w) 0)

/-- The loops of `RewriteAvgPoolAsConv2D`, LinalgCanonicalizations.cpp:807-825. -/
def poolKernel2D [Zero α] (c kh kw : Nat) (avg : α) : Option (List α) :=
  loop c (fun f => loop c fun ci values =>
    if f = ci then loop kh (fun hi => loop kw fun wi values =>
      write values (f * (c * kh * kw) + ci * (kh * kw) + hi * kw + wi) avg) values
    else some values) (List.replicate (c * c * kh * kw) 0)

/-- `Conv2DSizeParams`, lib/Transforms/LinalgCanonicalizations/ConvPoolFusion.h. -/
structure ConvParams where
  F : Nat
  C : Nat
  kH : Nat
  kW : Nat
  strideH : Nat
  strideW : Nat
  dilationH : Nat
  dilationW : Nat

/-- `Pool2DSizeParams`, lib/Transforms/LinalgCanonicalizations/ConvPoolFusion.h. -/
structure PoolParams where
  pH : Nat
  pW : Nat
  strideH : Nat
  strideW : Nat
  dilationH : Nat
  dilationW : Nat

/-- `getEffectiveKernelHeight`, ConvPoolFusion.cpp:40-44. -/
def effH (conv : ConvParams) (pool : PoolParams) : Nat :=
  (pool.pH - 1) * pool.dilationH * conv.strideH + (conv.kH - 1) * conv.dilationH + 1

/-- `getEffectiveKernelWidth`, ConvPoolFusion.cpp:46-50. -/
def effW (conv : ConvParams) (pool : PoolParams) : Nat :=
  (pool.pW - 1) * pool.dilationW * conv.strideW + (conv.kW - 1) * conv.dilationW + 1

/-- `fuseFiltersImpl`, ConvPoolFusion.cpp:54-102. -/
def fuseFiltersImpl (convValues : List α) (conv : ConvParams) (pool : PoolParams)
    (addFn : α → α → α) (scaleFn : α → α) (zeroVal : α) : Option (List α) :=
  let kEffH := effH conv pool
  let kEffW := effW conv pool
  loop conv.F (fun f => loop conv.C fun c => loop pool.pH fun ph => loop pool.pW fun pw =>
    loop conv.kH fun kh => loop conv.kW fun kw fusedValues =>
      let u := ph * pool.dilationH * conv.strideH + kh * conv.dilationH
      let v := pw * pool.dilationW * conv.strideW + kw * conv.dilationW
      let srcIdx := ((f * conv.C + c) * conv.kH + kh) * conv.kW + kw
      let dstIdx := ((f * conv.C + c) * kEffH + u) * kEffW + v
      (convValues[srcIdx]?).bind fun weight => (fusedValues[dstIdx]?).bind fun old =>
        write fusedValues dstIdx (addFn old (scaleFn weight)))
    (List.replicate (conv.F * conv.C * kEffH * kEffW) zeroVal)

/-- `fuseFloatFilters`, ConvPoolFusion.cpp:106-122. -/
def fuseFloatFilters [Field α] (convValues : List α) (conv : ConvParams) (pool : PoolParams)
    (scaleVal : Option α) : Option (List α) :=
  fuseFiltersImpl convValues conv pool (· + ·) (· * scaleVal.getD 1) 0

/-- `fuseIntFilters`, ConvPoolFusion.cpp:124-135, in the ring of integers of the width. -/
def fuseIntFilters [CommRing α] (convValues : List α) (conv : ConvParams) (pool : PoolParams) :
    Option (List α) :=
  fuseFiltersImpl convValues conv pool (· + ·) id 0

/-- `arith.divf` or `arith.mulf`. -/
inductive Kind where
  | div
  | mul
  deriving DecidableEq

/-- An operand of the user, or a value in the body of a `linalg.generic`: the pooling result (or the
element of it), a constant (splat), the op's own result, or another value. -/
inductive Operand (α : Type) where
  | pool
  | const (v : α)
  | result
  | other (v : α)

/-- The only user of the pooling, as far as `matchScalingFactor` looks at it; `ι` are the indices of
the tensor. -/
inductive User (α ι : Type) where
  /-- no single use, or an op that is not matched -/
  | none
  /-- `arith.divf` or `arith.mulf` on tensors -/
  | arith (k : Kind) (arg0 arg1 : Operand α)
  /-- A `linalg.generic` with one input and one init whose body is one op and the yield. `map` takes
  an index of the result to the index of the input read there. -/
  | generic (k : Kind) (arg0 arg1 yielded : Operand α) (map : ι → ι)

/-- `getScale`, ConvPoolFusion.cpp:169-184. -/
def getScale [Field α] (k : Kind) (arg1 : Operand α) : Option α :=
  match arg1 with
  | .const v => some (match k with | .div => 1 / v | .mul => v)
  | _ => none

/-- `matchScalingFactor`, ConvPoolFusion.cpp:167-221. -/
def matchScalingFactor {ι : Type} [Field α] : User α ι → Option α
  | .none => none
  | .arith k .pool arg1 => getScale k arg1
  | .arith _ _ _ => none
  | .generic k .pool arg1 _ _ => getScale k arg1
  | .generic _ _ _ _ _ => none

/-- The op whose result the fused convolution replaces, and that is cloned onto the pooled initial
value, LinalgCanonicalizations.cpp:954-1008: the matched user, or the pooling itself. -/
def replacedUser {ι : Type} [Field α] (user : User α ι) : User α ι :=
  match matchScalingFactor user with
  | some _ => user
  | none => .none

end Heir.Conv
