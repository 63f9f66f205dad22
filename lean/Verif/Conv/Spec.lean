import Verif.Conv.Model
import Mathlib.Algebra.BigOperators.Group.Finset.Basic
import Mathlib.Algebra.BigOperators.Ring.Finset

/-! # What convolutions and poolings compute

The ops of the linalg dialect, per batch entry. Inputs are functions of the channel and the
positions; filters are lists in row-major order. -/

namespace Heir.Conv

variable {α : Type}

open Finset

/-- `linalg.conv_1d_ncw_fcw` with filters of `C x K`. -/
def conv1D [CommRing α] (C K stride dilation : Nat) (init : Nat → Nat → α) (X : Nat → Nat → α)
    (W : List α) (f o : Nat) : α :=
  init f o + ∑ c ∈ range C, ∑ k ∈ range K,
    X c (o * stride + k * dilation) * W.getD ((f * C + c) * K + k) 0

/-- `linalg.conv_2d_nchw_fchw` with filters of `C x KH x KW`. -/
def conv2D [CommRing α] (C KH KW sH sW dH dW : Nat) (init : Nat → Nat → Nat → α)
    (X : Nat → Nat → Nat → α) (W : List α) (f oh ow : Nat) : α :=
  init f oh ow + ∑ c ∈ range C, ∑ kh ∈ range KH, ∑ kw ∈ range KW,
    X c (oh * sH + kh * dH) (ow * sW + kw * dW) * W.getD (((f * C + c) * KH + kh) * KW + kw) 0

/-- `linalg.pooling_ncw_sum`. -/
def pool1D [CommRing α] (K stride dilation : Nat) (init : Nat → Nat → α) (X : Nat → Nat → α)
    (c o : Nat) : α :=
  init c o + ∑ k ∈ range K, X c (o * stride + k * dilation)

/-- `linalg.pooling_nchw_sum`. -/
def pool2D [CommRing α] (KH KW sH sW dH dW : Nat) (init : Nat → Nat → Nat → α)
    (X : Nat → Nat → Nat → α) (c oh ow : Nat) : α :=
  init c oh ow + ∑ kh ∈ range KH, ∑ kw ∈ range KW, X c (oh * sH + kh * dH) (ow * sW + kw * dW)

/-- The value that is replaced by the convolution: the pooling, or the division after it. -/
def DivUse.eval [Field α] : DivUse α → α → α
  | .other, x => x
  | .divBy d, x => x / d
  | .divInto d, x => d / x

/-- `arith.divf` and `arith.mulf`. -/
def Kind.eval [Field α] : Kind → α → α → α
  | .div, x, y => x / y
  | .mul, x, y => x * y

/-- An operand, given the element of the pooling and the result of the op. -/
def Operand.eval (x res : α) : Operand α → α
  | .pool => x
  | .const v => v
  | .result => res
  | .other v => v

/-- The tensor the user computes from the tensor `x`. -/
def User.eval {ι : Type} [Field α] (x : ι → α) : User α ι → ι → α
  | .none, i => x i
  | .arith k a b, i => k.eval (a.eval (x i) 0) (b.eval (x i) 0)
  | .generic k a b y map, i =>
    y.eval (x (map i)) (k.eval (a.eval (x (map i)) 0) (b.eval (x (map i)) 0))

end Heir.Conv
