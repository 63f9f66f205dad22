/-
Model of the Rotom layout attributes and of their lowering to a relation from
tensor indices to (ciphertext, slot).

Sources:
  lib/Dialect/Rotom/IR/RotomAttributes.{td,h,cpp}
  lib/Dialect/Rotom/Utils/RotomTensorExtLayoutLowering.cpp
  lib/Dialect/Rotom/Transforms/SeedLayout/SeedLayout.cpp

Simplifications, for the whole file:
* sizes, strides and the slot count are natural numbers of any size, where the
  code has `int64_t` (the overflow of products of sizes is not modelled);
* the lowering prints a string for the Integer Set Library; here it builds the
  terms that the string spells.
-/
import Mathlib.Data.List.Sort
import Mathlib.Algebra.BigOperators.Group.List.Basic

namespace Heir.Rotom

/-- `#rotom.dim<[dim:size:stride]>` (RotomAttributes.td:16-44). -/
structure Dim where
  dim : Int
  size : Nat
  stride : Nat
deriving DecidableEq, Repr

/-- `isGap` (RotomAttributes.td:38). -/
def Dim.isGap (d : Dim) : Bool := d.dim == -2

/-- `isReplicate` (RotomAttributes.td:39). -/
def Dim.isReplicate (d : Dim) : Bool := d.dim == -1

/-- `DimAttr::verify` (RotomAttributes.cpp:328-340). -/
def Dim.verify (d : Dim) : Bool := decide (-2 ≤ d.dim) && decide (0 < d.size) && decide (0 < d.stride)

/-- `#rotom.layout` (RotomAttributes.td:46-86).  An absent list of rolls is the
empty list, which every function here treats alike. -/
structure Layout where
  dims : List Dim
  n : Nat
  rolls : List Int
deriving DecidableEq, Repr

/-- The product of the sizes of a list of dims. -/
def extent (ds : List Dim) : Nat := (ds.map (·.size)).prod

/-- The first loop of `inferCtPrefixLen` (RotomAttributes.cpp:25-39), on the
reversed list: what is left when no further dim fits. -/
def takeFit : List Dim → Nat → List Dim
  | [], _ => []
  | d :: ds, r =>
    if r ≤ 1 then d :: ds
    else if d.size = 0 then d :: ds
    else if d.size ≤ r ∧ r % d.size = 0 then takeFit ds (r / d.size)
    else d :: ds

/-- The second loop of `inferCtPrefixLen` (RotomAttributes.cpp:40). -/
def dropOnes : List Dim → List Dim
  | [] => []
  | d :: ds => if d.size = 1 then dropOnes ds else d :: ds

/-- `inferCtPrefixLen` (RotomAttributes.cpp:25-42). -/
def ctLen (ds : List Dim) (n : Nat) : Nat := (dropOnes (takeFit ds.reverse n)).length

/-- `LayoutPieceKind` (RotomAttributes.h:18). -/
inductive Kind where
  | trav
  | repl
  | gap
deriving DecidableEq, Repr

/-- `LayoutPiece` (RotomAttributes.h:20-38). -/
structure Piece where
  dim : Dim
  kind : Kind
  axis : Nat
  divBy : Nat
  modBy : Nat
deriving DecidableEq, Repr

/-- `LayoutData` (RotomAttributes.h:40-54). -/
structure Data where
  n : Nat
  ctPrefixLen : Nat
  axes : List Dim
  pieces : List Piece
deriving DecidableEq, Repr

/-- Insertion of a key in the ordered map of axes, if it is absent
(RotomAttributes.cpp:59, 78). -/
def insertAxis (d : Int) : List Int → List Int
  | [] => [d]
  | x :: xs => if d < x then d :: x :: xs else if d = x then x :: xs else x :: insertAxis d xs

/-- Whether a dim is neither a gap nor a replication (RotomAttributes.cpp:68-75). -/
def Dim.isTrav (d : Dim) : Bool := !d.isGap && !d.isReplicate

/-- The dims of the axes in ascending order (RotomAttributes.cpp:59-89). -/
def axisIds (ds : List Dim) : List Int :=
  (ds.filter Dim.isTrav).foldl (fun acc d => insertAxis d.dim acc) []

/-- `pieceCount` (RotomAttributes.cpp:97-101). -/
def pieceCount (ds : List Dim) (id : Int) : Nat := (ds.filter (fun d => d.isTrav && d.dim == id)).length

/-- `dimFullExtent` (RotomAttributes.cpp:98-103). -/
def fullExtent (ds : List Dim) (id : Int) : Nat := extent (ds.filter (fun d => d.isTrav && d.dim == id))

/-- The piece made of a dim (RotomAttributes.cpp:64-82, 90-94, 106-118). -/
def mkPiece (ds : List Dim) (d : Dim) : Piece :=
  if d.isGap then ⟨d, .gap, 0, 1, 0⟩
  else if d.isReplicate then ⟨d, .repl, 0, 1, 0⟩
  else if pieceCount ds d.dim = 1 then ⟨d, .trav, (axisIds ds).idxOf d.dim, 1, 0⟩
  else ⟨d, .trav, (axisIds ds).idxOf d.dim, d.stride,
    if d.stride * d.size < fullExtent ds d.dim then d.size else 0⟩

/-- The order of `llvm::sort` on pairs of stride and extent
(RotomAttributes.cpp:123-131). -/
def partLe (a b : Dim) : Prop := a.stride < b.stride ∨ (a.stride = b.stride ∧ a.size ≤ b.size)

instance : DecidableRel partLe := fun a b => by unfold partLe; infer_instance

/-- The check of the sorted parts (RotomAttributes.cpp:132-136): the final
`expected`, or a failure. -/
def radix : Nat → List Dim → Option Nat
  | e, [] => some e
  | e, d :: ds => if d.size = 0 ∨ d.stride ≠ e then none else radix (e * d.size) ds

/-- The check of one tensor dim (RotomAttributes.cpp:121-138). -/
def radixOk (ds : List Dim) (id : Int) : Bool :=
  if pieceCount ds id = 1 then true
  else radix 1 ((ds.filter (fun d => d.isTrav && d.dim == id)).insertionSort partLe)
    == some (fullExtent ds id)

/-- `preprocessLayoutData` (RotomAttributes.cpp:53-148). -/
def preprocess (ds : List Dim) (n : Nat) : Option Data :=
  if n = 0 then none
  else if ds.any (fun d => d.isTrav && decide (d.dim < 0)) then none
  else if (axisIds ds).all (radixOk ds) then
    some { n := n, ctPrefixLen := ctLen ds n,
           axes := (axisIds ds).map (fun id => ⟨id, fullExtent ds id, 1⟩),
           pieces := ds.map (mkPiece ds) }
  else none

/-- One pair of `verifyLayoutRolls` (RotomAttributes.cpp:266-302). -/
def rollOk (ds : List Dim) (i j : Int) : Bool :=
  if i = j then false
  else if i < 0 ∨ j < 0 ∨ (ds.length : Int) ≤ i ∨ (ds.length : Int) ≤ j then false
  else
    match ds[i.toNat]?, ds[j.toNat]? with
    | some di, some dj =>
      if di.isGap || di.isReplicate then false
      else if dj.isGap && decide (di.size < dj.size) then false
      else true
    | _, _ => false

/-- `verifyLayoutRolls` (RotomAttributes.cpp:255-305); an odd list is refused. -/
def rollsOk (ds : List Dim) : List Int → Bool
  | [] => true
  | [_] => false
  | i :: j :: rest => rollOk ds i j && rollsOk ds rest

/-- `llvm::isPowerOf2_64`. -/
def isPow2 (x : Nat) : Bool := decide (0 < x) && decide (x = 2 ^ Nat.log2 x)

/-- `LayoutAttr::verify` (RotomAttributes.cpp:444-485), with the verification of
the dims, each of which is an attribute of its own. -/
def Layout.verify (l : Layout) : Bool :=
  l.dims.all Dim.verify
  && decide (0 < l.n)
  && (preprocess l.dims l.n).isSome
  && rollsOk l.dims l.rolls
  && (l.dims.drop (ctLen l.dims l.n)).all (fun d => isPow2 d.size && isPow2 d.stride)
  && decide (extent (l.dims.drop (ctLen l.dims l.n)) = l.n)

/-- `canonicalizeLayoutDims` and `getCanonical` (RotomAttributes.cpp:501-526). -/
def canonical (l : Layout) : Layout :=
  let k := ctLen l.dims l.n
  let e := extent (l.dims.drop k)
  if e = 0 ∨ l.n % e ≠ 0 then l
  else if l.n / e ≤ 1 then l
  else { dims := l.dims.take k ++ ⟨-2, l.n / e, 1⟩ :: l.dims.drop k, n := l.n,
         rolls := l.rolls.map (fun x => if (k : Int) ≤ x then x + 1 else x) }

/-! ### Lowering -/

/-- The expressions of the emitted relation: the variables `i`, `d` and `g` of
the lowering (`d` counted from zero instead of from the number of axes),
subtraction, `modExpr` and `floorDivExpr`
(RotomTensorExtLayoutLowering.cpp:35-48, 163-166, 188-212). -/
inductive Expr where
  | i (k : Nat)
  | d (k : Nat)
  | g (k : Nat)
  | sub (a b : Expr)
  | md (a : Expr) (m : Nat)
  | fdiv (a : Expr) (m : Nat)
deriving DecidableEq, Repr

/-- `varIndexForRotomDim` (RotomTensorExtLayoutLowering.cpp:23-33). -/
def varIndex (axes : List Dim) (want : Dim) : Option Nat := axes.idxOf? want

/-- `gapIndexForPosition` (RotomTensorExtLayoutLowering.cpp:52-56). -/
def gapIndex (ds : List Dim) (k : Nat) : Nat := ((ds.take k).filter Dim.isGap).length

/-- The replication index of a position (RotomTensorExtLayoutLowering.cpp:199-203). -/
def replIndex (ds : List Dim) (k : Nat) : Nat := ((ds.take k).filter Dim.isReplicate).length

/-- `rolledGapIndexSet` (RotomTensorExtLayoutLowering.cpp:73-85), as a test. -/
def rolledGap (ds : List Dim) : List Int → Nat → Bool
  | _ :: j :: rest, o =>
    (if j < 0 then false
     else match ds[j.toNat]? with
       | some dj => dj.isGap && gapIndex ds j.toNat == o
       | none => false)
    || rolledGap ds rest o
  | _, _ => false

/-- The expression rolled by (RotomTensorExtLayoutLowering.cpp:191-208). -/
def byExpr (axes ds : List Dim) (es : List Expr) (j : Nat) (dj : Dim) : Option Expr :=
  if dj.isGap then some (.g (gapIndex ds j))
  else if dj.isReplicate then some (.d (replIndex ds j))
  else (varIndex axes dj).bind (fun v => es[v]?)

/-- One roll (RotomTensorExtLayoutLowering.cpp:178-212). -/
def rollStep (axes ds : List Dim) (es : List Expr) (i j : Int) : Option (List Expr) :=
  if i < 0 ∨ j < 0 then none
  else
    match ds[i.toNat]?, ds[j.toNat]? with
    | some di, some dj =>
      (varIndex axes di).bind fun f =>
        (byExpr axes ds es j.toNat dj).bind fun b =>
          es[f]?.map fun e => es.set f (.md (.sub e b) di.size)
    | _, _ => none

/-- All the rolls, from left to right (RotomTensorExtLayoutLowering.cpp:176-214). -/
def rollAll (axes ds : List Dim) : List Int → List Expr → Option (List Expr)
  | [], es => some es
  | [_], _ => none
  | i :: j :: rest, es => (rollStep axes ds es i j).bind (rollAll axes ds rest)

/-- The digit read by a piece (RotomTensorExtLayoutLowering.cpp:222-227). -/
def digit (p : Piece) (e : Expr) : Expr :=
  let e := if 1 < p.divBy then Expr.fdiv e p.divBy else e
  if 0 < p.modBy then .md e p.modBy else e

/-- The product of the sizes of a list of pieces: the coefficient of the piece
before them (RotomTensorExtLayoutLowering.cpp:92-101). -/
def spans (ps : List Piece) : Nat := (ps.map (·.dim.size)).prod

/-- The term of one piece, given the ordinals of its kind.  An axis of extent
one and a gap that no roll uses have no term
(RotomTensorExtLayoutLowering.cpp:120-152). -/
def term (rolled : Nat → Bool) (axes : List Dim) (es : List Expr) (p : Piece) (gi ri : Nat) :
    Option Expr :=
  match p.kind with
  | .gap => if rolled gi then some (.g gi) else none
  | .repl => some (.d ri)
  | .trav =>
    if (axes[p.axis]?.map (·.size)) = some 1 then none else es[p.axis]?.map (digit p)

/-- The ordinals after a piece (RotomTensorExtLayoutLowering.cpp:61-67). -/
def bumpGap (p : Piece) (gi : Nat) : Nat := if p.kind = .gap then gi + 1 else gi

/-- See `bumpGap`. -/
def bumpRepl (p : Piece) (ri : Nat) : Nat := if p.kind = .repl then ri + 1 else ri

/-- `emitSegmentAddress` (RotomTensorExtLayoutLowering.cpp:87-235): the terms of
an address.  The code prints the terms by axis, then the gaps, then the
replications; here they stand in the order of the pieces. -/
def segTerms (rolled : Nat → Bool) (axes : List Dim) (es : List Expr) :
    List Piece → Nat → Nat → List (Nat × Expr)
  | [], _, _ => []
  | p :: ps, gi, ri =>
    ((term rolled axes es p gi ri).map (fun e => (spans ps, e))).toList
      ++ segTerms rolled axes es ps (bumpGap p gi) (bumpRepl p ri)

/-- The sizes of the replications and of the rolled gaps by ordinal, which bound
the local variables (RotomTensorExtLayoutLowering.cpp:331-345). -/
def dBounds (ps : List Piece) : List Nat :=
  (ps.filter (fun p => p.kind == .repl)).map (·.dim.size)

/-- See `dBounds`; the gaps that no roll uses are listed and never read. -/
def gBounds (ps : List Piece) : List Nat :=
  (ps.filter (fun p => p.kind == .gap)).map (·.dim.size)

/-- `numCt` (RotomTensorExtLayoutLowering.cpp:252-265). -/
def numCt (rolled : Nat → Bool) : List Piece → Nat → Nat
  | [], _ => 1
  | p :: ps, gi =>
    (if p.kind = .gap ∧ rolled gi = false then 1 else p.dim.size) * numCt rolled ps (bumpGap p gi)

/-- The emitted relation (RotomTensorExtLayoutLowering.cpp:237-351). -/
structure Rel where
  axes : List Nat
  numCt : Nat
  n : Nat
  ct : List (Nat × Expr)
  slot : List (Nat × Expr)
  dB : List Nat
  gB : List Nat
  rolled : Nat → Bool

/-- The value of an expression. -/
def Expr.eval (ix d g : Nat → Int) : Expr → Int
  | .i k => ix k
  | .d k => d k
  | .g k => g k
  | .sub a b => a.eval ix d g - b.eval ix d g
  | .md a m => a.eval ix d g % m
  | .fdiv a m => a.eval ix d g / m

/-- The value of an address. -/
def addr (ix d g : Nat → Int) (ts : List (Nat × Expr)) : Int :=
  (ts.map (fun t => (t.1 : Int) * t.2.eval ix d g)).sum

/-- Variables within their bounds: `0 <= v <= b - 1`. -/
def Within (v : Nat → Int) (bs : List Nat) : Prop := ∀ (k b : Nat), bs[k]? = some b → 0 ≤ v k ∧ v k < b

/-- The relation at given block indices. -/
def Rel.At (r : Rel) (ix d g : Nat → Int) (ct slot : Int) : Prop :=
  Within ix r.axes ∧ (0 ≤ ct ∧ ct < r.numCt) ∧ (0 ≤ slot ∧ slot < r.n)
  ∧ Within d r.dB ∧ (∀ (k b : Nat), r.gB[k]? = some b → r.rolled k = true → 0 ≤ g k ∧ g k < b)
  ∧ ct = addr ix d g r.ct ∧ slot = addr ix d g r.slot

/-- The relation (RotomTensorExtLayoutLowering.cpp:267-348). -/
def Rel.Holds (r : Rel) (ix : Nat → Int) (ct slot : Int) : Prop := ∃ d g, r.At ix d g ct slot

/-- `emitSplitCtSlotIsl` and `lowerToIslImpl`
(RotomTensorExtLayoutLowering.cpp:237-370).  The check for repeated strides at
lines 358-363 cannot fail, since the axes are distinct, and is left out. -/
def lower (l : Layout) : Option Rel :=
  (preprocess l.dims l.n).bind fun data =>
    (rollAll data.axes l.dims l.rolls ((List.range data.axes.length).map Expr.i)).bind fun es =>
      let rolled := rolledGap l.dims l.rolls
      let pre := data.pieces.take data.ctPrefixLen
      let post := data.pieces.drop data.ctPrefixLen
      let ct := segTerms rolled data.axes es pre 0 0
      let slot := segTerms rolled data.axes es post
        (pre.filter (fun p => p.kind == .gap)).length (pre.filter (fun p => p.kind == .repl)).length
      if (ct ++ slot).any (fun t => t.1 == 0) then none
      else some { axes := data.axes.map (·.size), numCt := numCt rolled pre 0, n := data.n,
                  ct := ct, slot := slot, dB := dBounds data.pieces, gB := gBounds data.pieces,
                  rolled := rolled }

end Heir.Rotom
