import Mathlib.Data.Int.Notation

/-! # Forwarding stores to loads and inserts to extracts

Model of `lib/Transforms/ForwardStoreToLoad` and `lib/Transforms/ForwardInsertToExtract`. -/

namespace Heir.Forward

/-! ## Stores and loads -/

/-- The ops of one block. Values, memrefs and indices are SSA values, named by numbers. `call` is an
op without regions that may write memory, `region` an op with regions. Affine loads and stores are
lowered to these first (ForwardStoreToLoad.cpp:26-70). -/
inductive Op where
  | pure (res f : Nat) (args : List Nat)
  | load (res memref : Nat) (indices : List Nat)
  | store (value memref : Nat) (indices : List Nat)
  | call (res f : Nat) (args : List Nat)
  | region (res f : Nat) (args : List Nat)
  deriving DecidableEq, Repr

/-- `getNumRegions() > 0`. -/
def Op.hasRegions : Op → Bool
  | .region .. => true
  | _ => false

/-- `ForwardSingleStoreToLoad::isForwardableOp`, ForwardStoreToLoad.cpp:72-124, for the ops at
positions `i` (the potential store) and `j` (the load) of one block. In a block dominance is
order. -/
def isForwardableOp (p : List Op) (i j : Nat) : Bool :=
  match p[i]?, p[j]? with
  | some (.store _ m idx), some (.load _ _ idx') =>
    decide (i < j) && decide (idx = idx') &&
      ((p.take j).drop (i + 1)).all fun op => !op.hasRegions && (match op with
        | .store _ m' idx'' => !(decide (m' = m) && decide (idx'' = idx))
        | _ => true)
  | _, _ => false

/-- `RemoveUnusedStore::isPostDominated`, ForwardStoreToLoad.cpp:158-217, for the store at `i` and
the potential later store at `k`. -/
def isPostDominated (p : List Op) (k i : Nat) : Bool :=
  match p[i]?, p[k]? with
  | some (.store _ m idx), some (.store _ _ idx') =>
    decide (i < k) && decide (idx = idx') &&
      ((p.take k).drop (i + 1)).all fun op => !op.hasRegions && (match op with
        | .load _ m' idx'' => !(decide (m' = m) && decide (idx'' = idx))
        | _ => true)
  | _, _ => false

/-- Replacing a name. -/
def rename (r v a : Nat) : Nat := if a = r then v else a

/-- `replaceAllUsesWith` on the operands of one op. -/
def Op.subst (r v : Nat) : Op → Op
  | .pure x f args => .pure x f (args.map (rename r v))
  | .load x m idx => .load x (rename r v m) (idx.map (rename r v))
  | .store x m idx => .store (rename r v x) (rename r v m) (idx.map (rename r v))
  | .call x f args => .call x f (args.map (rename r v))
  | .region x f args => .region x f (args.map (rename r v))

/-- `ForwardSingleStoreToLoad::matchAndRewrite`, ForwardStoreToLoad.cpp:135-156, on the load at `j`.
`users` are the positions of the users of its memref in the order of its use list. The load stays
until the driver erases it as dead. -/
def forwardLoad (p : List Op) (users : List Nat) (j : Nat) : Option (List Op) :=
  (users.find? fun i => isForwardableOp p i j).bind fun i =>
    match p[i]?, p[j]? with
    | some (.store v _ _), some (.load r _ _) => some (p.map (Op.subst r v))
    | _, _ => none

/-- `RemoveUnusedStore::matchAndRewrite`, ForwardStoreToLoad.cpp:219-232, on the store at `i`. -/
def removeStore (p : List Op) (users : List Nat) (i : Nat) : Option (List Op) :=
  (users.find? fun k => isPostDominated p k i).map fun _ => p.eraseIdx i

/-! ## Inserts and extracts -/

/-- An index operand as `OpFoldResult`: a constant or an SSA value that is not a constant. -/
inductive Idx where
  | const (z : Int)
  | val (n : Nat)
  deriving DecidableEq, Repr

/-- How a tensor was made, along the operands the walk follows. -/
inductive Tensor (α : Type) where
  | other (n : Nat)
  | insert (scalar : Nat) (dest : Tensor α) (indices : List Idx)
  | splat (a : α) (shape : List Nat)
  | dense (elements : List α) (shape : List Nat)
  | fromElements (elements : List Nat) (shape : List Nat)

/-- The forwarded `OpFoldResult`. -/
inductive Found (α : Type) where
  | value (n : Nat)
  | attr (a : α)
  deriving DecidableEq

/-- MLIR's `getConstantIntValues`. -/
def constInts : List Idx → Option (List Int)
  | [] => some []
  | .const z :: l => (constInts l).map (z :: ·)
  | .val _ :: _ => none

/-- Narrowing to `int`. -/
def toInt32 (z : Int) : Int := (z + 2147483648) % 4294967296 - 2147483648

/-- The loop of `getFlattenedIndex`, lib/Utils/TensorUtils.cpp:16-26, over the reversed lists, with
`flatIndex` and `stride` of type `int`. Products and sums of `int64_t` do not overflow for indices
below 2^32. -/
def flattenLoop : List Int → List Nat → Int → Int → Int
  | i :: is, d :: ds, flat, stride =>
    flattenLoop is ds (toInt32 (flat + i * stride)) (toInt32 (stride * d))
  | _, _, flat, _ => flat

/-- `getFlattenedIndex`, lib/Utils/TensorUtils.cpp:16-36. Reading `indices[i]` outside the vector is
undefined behaviour. -/
def getFlattenedIndex (shape : List Nat) (indices : List Int) : Option Int :=
  if indices.length < shape.length then none
  else some (flattenLoop (indices.take shape.length).reverse shape.reverse 0 1)

/-- MLIR's `ElementsAttr::isValidIndex`, on indices cast to `uint64_t`. -/
def isValidIndex (shape : List Nat) (indices : List Int) : Bool :=
  decide (indices.length = shape.length) &&
    (indices.zip shape).all fun p => decide (p.1 % 18446744073709551616 < p.2)

/-- MLIR's row-major position in an `ElementsAttr`, `getFlattenedIndex` of the attribute, on indices
cast to `uint64_t`. -/
def attrPosition (shape : List Nat) (indices : List Int) : Nat :=
  (indices.zip shape).foldl (fun acc p => acc * p.2 + (p.1 % 18446744073709551616).toNat) 0

/-- `ForwardSingleInsertToExtract::getValueAtIndex`, ForwardInsertToExtract.cpp:36-100. The outer
`none` is a failed match; reading outside `getElements()` is undefined behaviour, `some none`. -/
def getValueAtIndex {α : Type} : Tensor α → List Idx → Option (Option (Found α))
  | .other _, _ => none
  | .insert scalar dest insertIndices, indices =>
    if insertIndices = indices then some (some (.value scalar))
    else getValueAtIndex dest indices
  | .splat a _, _ => some (some (.attr a))
  | .dense elements shape, indices =>
    (constInts indices).bind fun is =>
      if isValidIndex shape is then some ((elements[attrPosition shape is]?).map .attr) else none
  | .fromElements elements shape, indices =>
    (constInts indices).bind fun is => some <|
      (getFlattenedIndex shape is).bind fun k =>
        if 0 ≤ k then (elements[k.toNat]?).map .value else none

end Heir.Forward
