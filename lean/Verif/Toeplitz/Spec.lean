import Mathlib.Algebra.BigOperators.Group.Finset.Basic
import Mathlib.Algebra.Ring.Defs
import Mathlib.Data.Finset.Range

/-! # Convolutions as the linalg dialect defines them -/

namespace Heir.Toeplitz

open Finset

variable {R : Type} [CommRing R]

/-- A vector of length `w` with `p` zeros on each side. -/
def pad1 (w p : Nat) (x : Nat → R) (j : Nat) : R :=
  if p ≤ j ∧ j < p + w then x (j - p) else 0

/-- A matrix of `h` by `w` with `p` zeros on each side. -/
def pad2 (h w p : Nat) (x : Nat → Nat → R) (i j : Nat) : R :=
  if (p ≤ i ∧ i < p + h) ∧ p ≤ j ∧ j < p + w then x (i - p) (j - p) else 0

/-- `linalg.conv_1d` (and its window in the versions with strides and dilations): element `o` for
a filter `F` of length `k`, stride `s` and dilation `dil`. -/
def conv1 (k s dil : Nat) (F x : Nat → R) (o : Nat) : R :=
  ∑ i ∈ range k, F i * x (o * s + i * dil)

/-- `linalg.conv_2d`: element `(o, q)`. -/
def conv2 (kh kw sh sw dh dw : Nat) (F x : Nat → Nat → R) (o q : Nat) : R :=
  ∑ i ∈ range kh, ∑ j ∈ range kw, F i j * x (o * sh + i * dh) (q * sw + j * dw)

/-- `linalg.conv_1d_ncw_fcw` with one batch: element `o` of channel `f` for `c` input channels. -/
def conv1Multi (c k s dil : Nat) (F : Nat → Nat → Nat → R) (x : Nat → Nat → R) (f o : Nat) : R :=
  ∑ ch ∈ range c, conv1 k s dil (F f ch) (x ch) o

/-- `linalg.conv_2d_nchw_fchw` with one batch: element `(o, q)` of channel `f`. -/
def conv2Multi (c kh kw sh sw dh dw : Nat) (F : Nat → Nat → Nat → Nat → R)
    (x : Nat → Nat → Nat → R) (f o q : Nat) : R :=
  ∑ ch ∈ range c, conv2 kh kw sh sw dh dw (F f ch) (x ch) o q

end Heir.Toeplitz
