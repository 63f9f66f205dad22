import Mathlib.Data.Finset.Basic

/-!
# Model of the rotation counts and of the rewrites of `--layout-optimization`

Sources: `lib/Kernel/RotationCountVisitor.cpp`, `lib/Transforms/LayoutOptimization/`
(`LayoutConversionCost.cpp`, `LayoutOptimization.cpp`, `Patterns.cpp`), `lib/Kernel/ArithmeticDag.h`.
-/

namespace Heir.LayoutOpt

/-! ## Counting rotations -/

/-- A node of an arithmetic DAG over symbolic values, `ArithmeticDag.h:98-252`; children are the
numbers of nodes.  `bin`: sum, difference, product, comparison.  `un`: floor division, power,
`ResultAtNode`.  The shift of a rotation is not visited. -/
inductive Node
  | leaf (secret : Bool)
  | const
  | splat
  | empty
  | var
  | bin (l r : Nat)
  | un (x : Nat)
  | rot (x : Nat)
  | bulk (x shifts : Nat)
  | extract (x i : Nat)
  | insert (s d i : Nat)
  | ite (c t e : Nat)
  | yield (xs : List Nat)
  | loop (inits : List Nat) (body : Nat) (lower upper step : Int)
deriving DecidableEq, Repr

abbrev Dag := Nat → Node

/-- The state of the visitor, `RotationCountVisitor.h:55-56`: `visitedNodes`, `nodeSecretStatus`
(a node that is not in the map reads as `false`, `operator[]` of `unordered_map`). -/
structure St where
  seen : Finset Nat
  sec : Nat → Bool

/-- The children in the order of the visit, with the factor of their count; the body of a loop is
multiplied by `(upper - lower) / step`, `RotationCountVisitor.cpp:246-273`. -/
def Node.kids : Node → List (Nat × Int)
  | .bin l r => [(l, 1), (r, 1)]
  | .un x => [(x, 1)]
  | .rot x => [(x, 1)]
  | .bulk x _ => [(x, 1)]
  | .extract x i => [(x, 1), (i, 1)]
  | .insert s d i => [(s, 1), (d, 1), (i, 1)]
  | .ite c t e => [(c, 1), (t, 1), (e, 1)]
  | .yield xs => xs.map (·, 1)
  | .loop inits body lower upper step =>
    inits.map (·, 1) ++ [(body, Int.tdiv (upper - lower) step)]
  | _ => []

/-- The children whose status the node inherits; the index of `extract` and of `insert` is left out
(`RotationCountVisitor.cpp:152-183`). -/
def Node.statusKids : Node → List Nat
  | .bin l r => [l, r]
  | .un x => [x]
  | .rot x => [x]
  | .bulk x _ => [x]
  | .extract x _ => [x]
  | .insert s d _ => [s, d]
  | .ite c t e => [c, t, e]
  | .yield xs => xs
  | .loop inits body _ _ _ => inits ++ [body]
  | _ => []

/-- The status of a node; constants, splats and variables are plaintexts
(`RotationCountVisitor.cpp:37-53`, `217-222`, `275-284`). -/
def Node.status (sec : Nat → Bool) : Node → Bool
  | .leaf s => s
  | n => n.statusKids.any sec

/-- The rotations of the node itself, `RotationCountVisitor.cpp:118-150`. -/
def Node.own (sec : Nat → Bool) : Node → Int
  | .rot x => if sec x then 1 else 0
  | .bulk x k => if sec x then k else 0
  | _ => 0

/-- The children one after the other, `f` visits one. -/
def visitKids (f : Nat → St → Int × St) : List (Nat × Int) → St → Int × St
  | [], s => (0, s)
  | k :: ks, s => ((f k.1 s).1 * k.2 + (visitKids f ks (f k.1 s).2).1, (visitKids f ks (f k.1 s).2).2)

/-- The end of a visit: the rotations of the node are added and its status is stored. -/
def finishVisit (D : Dag) (n : Nat) (r : Int × St) : Int × St :=
  (r.1 + (D n).own r.2.sec,
    ⟨r.2.seen, fun m => if m = n then (D n).status r.2.sec else r.2.sec m⟩)

/-- `processInternal`, `RotationCountVisitor.cpp:20-35`, with the visitor methods.  The first
argument bounds the depth. -/
def visit (D : Dag) : Nat → Nat → St → Int × St
  | 0, _, s => (0, s)
  | fuel + 1, n, s =>
    if n ∈ s.seen then (0, s)
    else finishVisit D n (visitKids (visit D fuel) (D n).kids ⟨insert n s.seen, s.sec⟩)

/-- `RotationCountVisitor::process`, `RotationCountVisitor.cpp:14-18`. -/
def process (D : Dag) (n : Nat) : Int := (visit D (n + 1) n ⟨∅, fun _ => false⟩).1

/-! ## The cost of a conversion -/

abbrev Cache := Nat → Option Int

/-- The methods of the visitor of `LayoutConversionCost.cpp:49-78`: what is added to the counts of
the children; `none` for the nodes it does not override (`assert(false)`,
`ArithmeticDag.h:553-660`; builds without assertions go on with 0). -/
def Node.weight : Node → Option Int
  | .leaf _ => some 0
  | .const => some 0
  | .bin _ _ => some 0
  | .rot _ => some 1
  | _ => none

/-- The children this visitor processes. -/
def Node.operands : Node → List Nat
  | .bin l r => [l, r]
  | .rot x => [x]
  | _ => []

/-- The sum over the children. -/
def costKids (f : Nat → Cache → Option (Int × Cache)) : List Nat → Cache → Option (Int × Cache)
  | [], c => some (0, c)
  | k :: ks, c => do
    let a ← f k c
    let b ← costKids f ks a.2
    return (a.1 + b.1, b.2)

/-- What `process` does for a node that is not in the cache. -/
def costNew (D : Dag) (f : Nat → Cache → Option (Int × Cache)) (n : Nat) (c : Cache) :
    Option (Int × Cache) := do
  let w ← (D n).weight
  let r ← costKids f (D n).operands c
  return (r.1 + w, fun m => if m = n then some (r.1 + w) else r.2 m)

/-- `CachingVisitor::process`, `ArithmeticDag.h:519-535`. -/
def costOf (D : Dag) : Nat → Nat → Cache → Option (Int × Cache)
  | 0, _, _ => none
  | fuel + 1, n, c =>
    match c n with
    | some v => some (v, c)
    | none => costNew D (costOf D fuel) n c

/-- The rotations of a group, `LayoutConversionCost.cpp:116-124`: a new counter for each output. -/
def groupCost (D : Dag) : List Nat → Option Int
  | [] => some 0
  | v :: vs => do
    let a ← costOf D (v + 1) v fun _ => none
    let b ← groupCost D vs
    return a.1 + b

/-- The cost of a conversion, `LayoutConversionCost.cpp:113-127`: the largest group. -/
def conversionCost (D : Dag) : List (List Nat) → Option Int
  | [] => some 0
  | g :: gs => do
    let a ← groupCost D g
    let b ← conversionCost D gs
    return max a b

/-! ## Programs with layouts -/

variable {L F : Type} [DecidableEq L]

/-- An operation of a program: values are numbers, `L` the layouts, `F` the operations with their
kernels.  The plain operand of `assign` has no layout. -/
inductive Instr (L F : Type)
  | assign (r plain : Nat) (dst : L)
  | conv (r x : Nat) (src dst : L)
  | op (r : Nat) (f : F) (xs : List Nat) (lay : L)
deriving DecidableEq, Repr

/-- The values an operation reads. -/
def Instr.uses : Instr L F → List Nat
  | .assign _ _ _ => []
  | .conv _ x _ _ => [x]
  | .op _ _ xs _ => xs

def Instr.res : Instr L F → Nat
  | .assign r _ _ => r
  | .conv r _ _ _ => r
  | .op r _ _ _ => r

/-- Conversions of the operands of an operation, `LayoutOptimization.cpp:274-297`: operand `i` is
converted from its layout to `ins[i]`, and every use by the operation of the converted value is
replaced.  `lays` is the layout of every value, `fresh` the first unused number; returns the
conversions and the new operands. -/
def convertOperands (lays : Nat → Option L) (fresh : Nat) :
    Nat → List L → List Nat → Option (List (Instr L F) × List Nat)
  | _, [], xs => some ([], xs)
  | i, l :: ls, xs => do
    let x ← xs[i]?
    let src ← lays x
    let r ← convertOperands (fun y => if y = fresh then some l else lays y) (fresh + 1) (i + 1) ls
      (xs.map fun y => if y = x then fresh else y)
    return (.conv fresh x src l :: r.1, r.2)

/-- The rest of the program once the conversions in `gone` read `r` in its new layout `out`:
uses of them are replaced by `r` and they are erased, conversions of `r` start from `out`
(`LayoutOptimization.cpp:303-317`; `Patterns.cpp:206-220`). -/
def redirect (gone : Nat → Bool) (r : Nat) (out : L) : List (Instr L F) → List (Instr L F)
  | [] => []
  | i :: is =>
    if gone i.res then redirect gone r out is
    else (match i with
      | .assign z p l => .assign z p l
      | .conv z x a b =>
        let x' := if gone x then r else x
        .conv z x' (if x' = r then out else a) b
      | .op z g xs l => .op z g (xs.map fun x => if gone x then r else x) l) :: redirect gone r out is

/-- `hoistOp`, `LayoutOptimization.cpp:270-320`: the operation `r = f xs` with the operations after
it; the conversion with result `c` is moved before it, the operands are converted to `ins`. -/
def hoist (lays : Nat → Option L) (fresh : Nat) (r : Nat) (f : F) (xs : List Nat)
    (ins : List L) (out : L) (c : Nat) (post : List (Instr L F)) : Option (List (Instr L F)) := do
  let cv ← convertOperands lays fresh 0 ins xs
  return cv.1 ++ .op r f cv.2 out :: redirect (· == c) r out post

/-- The operation that defines a value. -/
def defOf (pre : List (Instr L F)) (x : Nat) : Option (Instr L F) := pre.find? (·.res = x)

/-- `tryFoldLayoutConversionIntoPrevious`, `Patterns.cpp:31-74`: what a conversion is replaced by.
Layouts that are arrays are left out. -/
def foldPrevious (pre : List (Instr L F)) : Instr L F → Option (Instr L F)
  | .conv z y _ c =>
    match defOf pre y with
    | some (.conv _ x a _) => some (.conv z x a c)
    | some (.assign _ p _) => some (.assign z p c)
    | _ => none
  | _ => none

/-- `HoistArgLayouts`, `Patterns.cpp:150-222`, for one argument `a` whose uses are those of the body:
each of them converts it to the same layout.  Returns the layout and the new body. -/
def hoistArg (a : Nat) (body : List (Instr L F)) : Option (L × List (Instr L F)) :=
  match body.filter fun i => a ∈ i.uses with
  | .conv z x s d :: is =>
    if is.all (fun i => match i with | .conv _ _ _ d' => d' = d | _ => false) then
      some (d, redirect (fun y => (Instr.conv z x s d :: is : List (Instr L F)).any (·.res = y)) a d body)
    else none
  | _ => none

/-! ## The choice of a hoisting -/

/-- An operand as the costs see it: its value, whether its layout is free, the layout it has, and the
layout before the conversion that defines it, if one does. -/
structure Operand (L : Type) where
  value : Nat
  free : Bool
  lay : L
  before : Option L
deriving DecidableEq, Repr

/-- `costOfChangedOperand`, `LayoutOptimization.cpp:343-379`: the key of the table (`none` for the
two null attributes of a free operand) and the cost; `cost` is `costOfLayoutConversion`. -/
def operandChange (cost : L → L → Int) (new : L) (o : Operand L) :
    (Nat × Option (L × L)) × Int :=
  if o.free then ((o.value, none), 0)
  else
    match o.before with
    | some b => ((o.value, some (b, new)), cost b new - cost b o.lay)
    | none => ((o.value, some (o.lay, new)), cost o.lay new)

/-- `DenseMap::operator[]` in the order of the operands; the last cost of a key stays. -/
def setKey {κ : Type} [DecidableEq κ] (m : List (κ × Int)) (k : κ) (v : Int) : List (κ × Int) :=
  (k, v) :: m.filter fun e => e.1 ≠ k

/-- The cost of an option for an operation whose kernel is trivial and stays so,
`LayoutOptimization.cpp:563-598` (`costOfChangedResult` is 0, `:391-401`); `out` is the layout the
hoisted conversion converts to. -/
def optionCost (cost : L → L → Int) (out : L) (os : List (Operand L)) : Int :=
  ((os.foldl (fun m o => setKey m (operandChange cost out o).1 (operandChange cost out o).2) []).map
    (·.2)).sum

/-- What `hoistOp` does with the options, `LayoutOptimization.cpp:255-270`. -/
inductive Pick
  /-- `UNHOISTABLE` -/
  | no
  /-- the option with this number is taken -/
  | take (i : Nat)
  /-- the end iterator of an empty vector is read -/
  | ub
deriving DecidableEq, Repr

/-- `std::min_element` by cost: the first least element, with its number. -/
def minAt : Nat → Nat × Int → List Int → Nat × Int
  | _, b, [] => b
  | i, b, c :: cs => minAt (i + 1) (if c < b.2 then (i, c) else b) cs

def pick : List Int → Pick
  | [] => .ub
  | c :: cs => if (minAt 1 (0, c) cs).2 > 0 then .no else .take (minAt 1 (0, c) cs).1

end Heir.LayoutOpt
