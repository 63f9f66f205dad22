/-
Model of the textual form of the Rotom layout attributes.

Source: lib/Dialect/Rotom/IR/RotomAttributes.cpp

Simplifications: the text is a list of tokens; the lexer of MLIR is not
modelled.  A dim written in place is built by an unchecked `get` (line 199),
which asserts that the dim verifies; here it ends the parse with a failure.
-/
import Verif.Rotom.Model

namespace Heir.Rotom

/-- The tokens of a layout; `attr` is a whole `#rotom.dim<...>` attribute. -/
inductive Tok where
  | lt | gt | lsq | rsq | lpar | rpar | comma | colon | bar | eq
  | int (v : Int)
  | kn | kdims | krolls | kR | kG
  | attr (d : Dim)
deriving DecidableEq, Repr

/-- The first entry of a dim (RotomAttributes.cpp:178-184). -/
def printId (d : Dim) : Tok := if d.isReplicate then .kR else if d.isGap then .kG else .int d.dim

/-- `printDimTriple` (RotomAttributes.cpp:176-186). -/
def printTriple (d : Dim) : List Tok :=
  [.lsq, printId d, .colon, .int d.size, .colon, .int d.stride, .rsq]

/-- `DimAttr::print` (RotomAttributes.cpp:307-311). -/
def printDim (d : Dim) : List Tok := [.lt] ++ printTriple d ++ [.gt]

/-- The loop over the dims from position `i` (RotomAttributes.cpp:363-366). -/
def printDims (ctLen : Nat) : Nat → List Dim → List Tok
  | _, [] => []
  | i, d :: ds =>
    (if i = 0 then [] else if i = ctLen then [.bar] else [.comma]) ++ printTriple d
      ++ printDims ctLen (i + 1) ds

/-- The loop over the rolls (RotomAttributes.cpp:348-353); an odd list reads past
the end of the array, which is `none`. -/
def printRolls : Bool → List Int → Option (List Tok)
  | _, [] => some []
  | _, [_] => none
  | first, i :: j :: rest =>
    (printRolls false rest).map fun ts =>
      (if first then [] else [.comma]) ++ [.lpar, .int i, .comma, .int j, .rpar] ++ ts

/-- `LayoutAttr::print` (RotomAttributes.cpp:342-369). -/
def printLayout (l : Layout) : Option (List Tok) :=
  (printRolls true l.rolls).map fun rs =>
    [.lt, .kn, .eq, .int l.n]
      ++ (if l.rolls.isEmpty then [] else [.comma, .krolls, .eq, .lsq] ++ rs ++ [.rsq])
      ++ [.comma, .kdims, .eq, .lsq] ++ printDims (ctLen l.dims l.n) 0 l.dims ++ [.rsq, .gt]

/-- A dim of three integers, if it verifies. -/
def mkDim (dim size stride : Int) : Option Dim :=
  if -2 ≤ dim ∧ 0 < size ∧ 0 < stride then some ⟨dim, size.toNat, stride.toNat⟩ else none

/-- The first entry of a dim (RotomAttributes.cpp:155-161). -/
def parseId : List Tok → Option (Int × List Tok)
  | .kR :: ts => some (-1, ts)
  | .kG :: ts => some (-2, ts)
  | .int v :: ts => some (v, ts)
  | _ => none

/-- The entries after the first (RotomAttributes.cpp:162-167). -/
def parseTail (dim : Int) : List Tok → Option (Dim × List Tok)
  | .colon :: .int s :: .colon :: .int st :: .rsq :: ts => (mkDim dim s st).map (·, ts)
  | .colon :: .int s :: .rsq :: ts => (mkDim dim s 1).map (·, ts)
  | _ => none

/-- `parseDimTripleAfterLSquare` (RotomAttributes.cpp:153-168). -/
def parseTriple (ts : List Tok) : Option (Dim × List Tok) :=
  (parseId ts).bind fun p => parseTail p.1 p.2

/-- The end of `DimAttr::parse` (RotomAttributes.cpp:318-321). -/
def parseClose : Dim × List Tok → Option Dim
  | (d, [.gt]) => some d
  | _ => none

/-- `DimAttr::parse` (RotomAttributes.cpp:313-326). -/
def parseDimAttr : List Tok → Option Dim
  | .lt :: .lsq :: ts => (parseTriple ts).bind parseClose
  | _ => none

/-- One dim of a layout (RotomAttributes.cpp:193-210). -/
def parseDim : List Tok → Option (Dim × List Tok)
  | .lsq :: ts => parseTriple ts
  | .attr d :: ts => if d.verify then some (d, ts) else none
  | _ => none

/-- What follows a dim (RotomAttributes.cpp:212-223): another dim after a comma
or after the first bar, or the end. -/
inductive After where
  | more (ts : List Tok)
  | split (ts : List Tok)
  | done (ts : List Tok)
  | bad

/-- See `After`. -/
def after : List Tok → After
  | .comma :: ts => .more ts
  | .bar :: ts => .split ts
  | .rsq :: ts => .done ts
  | _ => .bad

/-- The loop of `parseLayoutDims` (RotomAttributes.cpp:192-225).  `fuel` bounds
the number of dims. -/
def dimsLoop : Nat → List Dim → Option Nat → List Tok → Option (List Dim × Option Nat × List Tok)
  | 0, _, _, _ => none
  | fuel + 1, acc, w, ts =>
    (parseDim ts).bind fun p =>
      match after p.2 with
      | .more ts => dimsLoop fuel (acc ++ [p.1]) w ts
      | .split ts =>
        if w.isSome then none else dimsLoop fuel (acc ++ [p.1]) (some (acc.length + 1)) ts
      | .done ts => some (acc ++ [p.1], w, ts)
      | .bad => none

/-- `parseLayoutDims` (RotomAttributes.cpp:192-226). -/
def parseDims : List Tok → Option (List Dim × Option Nat × List Tok)
  | .lsq :: .rsq :: ts => some ([], none, ts)
  | .lsq :: ts => dimsLoop ts.length [] none ts
  | _ => none

/-- One entry of the rolls (RotomAttributes.cpp:234-247). -/
def parseRoll : List Tok → Option (List Int × List Tok)
  | .lpar :: .int i :: .comma :: .int j :: .rpar :: ts => some ([i, j], ts)
  | .int v :: ts => some ([v], ts)
  | _ => none

/-- The loop of `parseLayoutRolls` (RotomAttributes.cpp:233-251). -/
def rollsLoop : Nat → List Int → List Tok → Option (List Int × List Tok)
  | 0, _, _ => none
  | fuel + 1, acc, ts =>
    (parseRoll ts).bind fun p =>
      match after p.2 with
      | .more ts => rollsLoop fuel (acc ++ p.1) ts
      | .done ts => some (acc ++ p.1, ts)
      | _ => none

/-- `parseLayoutRolls` (RotomAttributes.cpp:228-252). -/
def parseRolls : List Tok → Option (List Int × List Tok)
  | .lsq :: .rsq :: ts => some ([], ts)
  | .lsq :: ts => rollsLoop ts.length [] ts
  | _ => none

/-- The end of `LayoutAttr::parse` (RotomAttributes.cpp:415-442): the written
boundary is checked and the layout is verified. -/
def finish (n : Int) (rolls : List Int) (dims : List Dim) (w : Option Nat) : Option Layout :=
  if n ≤ 0 then none
  else if w.getD 0 ≠ ctLen dims n.toNat then none
  else if Layout.verify ⟨dims, n.toNat, rolls⟩ then some ⟨dims, n.toNat, rolls⟩ else none

/-- `dims = [...]>` after `n` and the rolls (RotomAttributes.cpp:391-395). -/
def parseNDims (n : Int) (rolls : List Int) : List Tok → Option Layout
  | .kdims :: .eq :: ts =>
    (parseDims ts).bind fun p =>
      match p.2.2 with
      | [.gt] => finish n rolls p.1 p.2.1
      | _ => none
  | _ => none

/-- `rolls = [...],` if it is there (RotomAttributes.cpp:384-389). -/
def parseNRolls (n : Int) : List Tok → Option Layout
  | .krolls :: .eq :: ts =>
    (parseRolls ts).bind fun p =>
      match p.2 with
      | .comma :: ts => parseNDims n p.1 ts
      | _ => none
  | ts => parseNDims n [] ts

/-- What follows the dims in the other order (RotomAttributes.cpp:397-410). -/
def parseDimsN (dims : List Dim) (w : Option Nat) : List Tok → Option Layout
  | [.comma, .kn, .eq, .int n, .gt] => finish n [] dims w
  | .comma :: .kn :: .eq :: .int n :: .comma :: .krolls :: .eq :: ts =>
    (parseRolls ts).bind fun p =>
      match p.2 with
      | [.gt] => finish n p.1 dims w
      | _ => none
  | _ => none

/-- `LayoutAttr::parse` (RotomAttributes.cpp:371-442). -/
def parseLayout : List Tok → Option Layout
  | .lt :: .kn :: .eq :: .int n :: .comma :: ts => parseNRolls n ts
  | .lt :: .kdims :: .eq :: ts => (parseDims ts).bind fun p => parseDimsN p.1 p.2.1 p.2.2
  | _ => none

end Heir.Rotom
