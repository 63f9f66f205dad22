import Verif.Memref.CopyModel

namespace Heir.Memref

/-- The indices of a memref of these dimensions. -/
def InBounds : List Nat → List Int → Prop
  | [], [] => True
  | d :: ds, i :: is => 0 ≤ i ∧ i < d ∧ InBounds ds is
  | _, _ => False

/-- `memref.copy`: each element of the target is that of the source, nothing else changes. -/
structure Copied {V A : Type} (dims : List Nat) (src dst : List Int → A) (mem mem' : A → V) :
    Prop where
  elems : ∀ is, InBounds dims is → mem' (dst is) = mem (src is)
  rest : ∀ x, (∀ is, InBounds dims is → x ≠ dst is) → mem' x = mem x

/-- The elements of the target are distinct, and none is an element of the source, but the same. -/
structure Separate {A : Type} (dims : List Nat) (src dst : List Int → A) : Prop where
  inj : ∀ is js, InBounds dims is → InBounds dims js → dst is = dst js → is = js
  apart : ∀ is js, InBounds dims is → InBounds dims js → dst is = src js → is = js

/-- A type of a memref with these dimensions. -/
def TypeOf : List (Option Nat) → List Nat → Prop
  | [], [] => True
  | some d :: ty, e :: dims => d = e ∧ TypeOf ty dims
  | none :: ty, _ :: dims => TypeOf ty dims
  | _, _ => False

/-- The elements of a dense constant, listed in row-major order: the sublists of the outermost
index, one after the other. -/
def element {V : Type} (vals : List V) : List Nat → List Nat → Option V
  | [], [] => vals.head?
  | d :: ds, i :: is =>
    let size := vals.length / d
    element ((vals.drop (i * size)).take size) ds is
  | _, _ => none

/-- Indices within a shape. -/
def Within : List Nat → List Nat → Prop
  | [], [] => True
  | d :: ds, i :: is => i < d ∧ Within ds is
  | _, _ => False

/-- The strides of the identity layout. -/
def rowMajor : List Nat → List Int
  | [] => []
  | _ :: ds => ((ds.foldr (· * ·) 1 : Nat) : Int) :: rowMajor ds

end Heir.Memref
