import Verif.Memref.Model

/-!
# Copies and constant globals

Model of `lib/Transforms/MemrefToArith/ExpandCopy.cpp` and of the index computation of
`lib/Transforms/MemrefToArith/MemrefGlobalReplace.cpp`.
-/

namespace Heir.Memref

open Heir.Lut (flattenIndex)

/-- The values of the induction variable of `affine.for %i = 0 to dim`, `ExpandCopy.cpp:43-53`; for
a dimension of size 1 there is no loop and the index is 0.  A dynamic dimension is the sentinel
`kDynamic`, a negative number. -/
def loopValues (dim : Int) : List Int :=
  if dim = 1 then [0] else (List.range dim.toNat).map Int.ofNat

/-- The indices the nest visits, in its order, `expandWithAffineLoops`, `ExpandCopy.cpp:32-58`. -/
def nest : List Int → List (List Int)
  | [] => [[]]
  | d :: ds => (loopValues d).flatMap fun i => (nest ds).map fun is => i :: is

/-- The dimensions as `getShape` lists them. -/
def shapeVals (ty : List (Option Nat)) : List Int := ty.map fun
  | some d => (d : Int)
  | none => kDynamic

/-- The body of the nest, `ExpandCopy.cpp:55-56`: a load at the source address and a store at the
target address. -/
def copyStep {V A : Type} [DecidableEq A] (src dst : List Int → A) (mem : A → V) (is : List Int) :
    A → V :=
  fun x => if x = dst is then mem (src is) else mem x

def copyLoops {V A : Type} [DecidableEq A] (ty : List (Option Nat)) (src dst : List Int → A)
    (mem : A → V) : A → V :=
  (nest (shapeVals ty)).foldl (copyStep src dst) mem

/-- `ElementsAttr::getFlattenedIndex` (MLIR), called in `Utils.cpp:45-53`: the number of the
element, from the innermost dimension on. -/
def flattenedIndex : List Nat → List Nat → Nat
  | d :: ds, i :: is => i * ds.foldr (· * ·) 1 + flattenedIndex ds is
  | _, _ => 0

/-- The element an `affine.load` with constant indices is replaced with,
`MemrefGlobalReplace.cpp:104-115` and `:130`. -/
def globalAffine {V : Type} (vals : List V) (shape idx : List Nat) : Option V :=
  vals[flattenedIndex shape idx]?

/-- The element a `memref.load` with constant indices is replaced with,
`MemrefGlobalReplace.cpp:92-103` and `:130`: the index into the values is the address. -/
def globalLoad {V : Type} (vals : List V) (lay : Layout) (idx : List Nat) : Option V :=
  match flattenIndex lay.offsetVal (idx.map Int.ofNat) lay.strideVals with
  | some k => if k < 0 then none else vals[k.toNat]?
  | none => none

end Heir.Memref
