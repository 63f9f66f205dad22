/-
Model of the pass that seeds tensors with Rotom layouts.

Source: lib/Dialect/Rotom/Transforms/SeedLayout/SeedLayout.cpp

Simplification: the extents are the ones after the rounding to powers of two at
lines 124-126, and are natural numbers.
-/
import Verif.Rotom.Model

namespace Heir.Rotom

/-- The values of the loop at SeedLayout.cpp:48, from `i` on; `fuel` bounds the
number of iterations and `m` of them are enough. -/
def pows : Nat → Nat → Nat → List Nat
  | 0, _, _ => []
  | fuel + 1, i, m => if i ≤ m then i :: pows fuel (i * 2) m else []

/-- `findValidTuples` (SeedLayout.cpp:34-54), on the extents that are left. -/
def findTuples : List Nat → Nat → Nat → List (List Nat)
  | [], n, cur => if cur = n then [[]] else []
  | m :: ms, n, cur =>
    (pows m 1 m).flatMap fun i =>
      if n % (cur * i) ≠ 0 then [] else (findTuples ms n (cur * i)).map (i :: ·)

/-- Each element of a list with the others. -/
def selects {α : Type} : List α → List (α × List α)
  | [] => []
  | x :: xs => (x, xs) :: (selects xs).map (fun p => (p.1, x :: p.2))

/-- The arrangements of `k` elements of a list, which for all of its elements is
the order of `std::next_permutation` from the sorted list
(SeedLayout.cpp:140-143, 172). -/
def perms {α : Type} : Nat → List α → List (List α)
  | 0, _ => [[]]
  | k + 1, l => (selects l).flatMap fun p => (perms k p.2).map (p.1 :: ·)

/-- `slotDims` (SeedLayout.cpp:146-149). -/
def seedSlot (t : List Nat) (perm : List Nat) : List Dim := perm.map fun d : Nat => ⟨d, t.getD d 0, 1⟩

/-- `ctDims` (SeedLayout.cpp:155-161). -/
def seedCt (dims t : List Nat) : List Dim :=
  (List.range dims.length).filterMap fun d : Nat =>
    if t.getD d 0 < dims.getD d 0 then some ⟨d, dims.getD d 0 / t.getD d 0, t.getD d 0⟩ else none

/-- The layouts of `SeedLayout::runOnOperation` (SeedLayout.cpp:132-172) for a
tensor of these extents. -/
def seeds (dims : List Nat) (n : Nat) : List Layout :=
  (findTuples dims n 1).flatMap fun t =>
    (perms dims.length (List.range dims.length)).map fun p =>
      canonical ⟨seedCt dims t ++ seedSlot t p, n, []⟩

end Heir.Rotom
