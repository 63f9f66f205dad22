import Verif.Codegen.Spec

/-!
# Packing tensors into ciphertexts and back

Model of `lib/Transforms/ConvertToCiphertextSemantics/AssignLayout.cpp:61-720`: what the operations that
implement `tensor_ext.assign_layout` and `tensor_ext.unpack` compute.  A tensor is the list of its
elements in row-major order.  isl is asked for the points of a relation, for a syntax tree that visits
them (`Verif.Codegen`), for a point of its range and for comparisons of relations; its answers are the
fields of `Isl`.  Undefined behaviour and failures are `none`.
-/

namespace Heir.Assign

open Heir.Codegen (Node generateForLoop result)

/-! ## Tensors -/

structure Tensor (β : Type) where
  shape : List Nat
  vals : List β
deriving DecidableEq, Repr

def numElements : List Nat → Nat
  | [] => 1
  | d :: ds => d * numElements ds

/-- The index is one of the shape. -/
def inB : List Nat → List Int → Bool
  | [], [] => true
  | d :: ds, i :: is => decide (0 ≤ i) && decide (i < d) && inB ds is
  | _, _ => false

/-- The position in row-major order. -/
def flat : List Nat → List Int → Int
  | _ :: ds, i :: is => i * numElements ds + flat ds is
  | _, _ => 0

/-- `tensor.extract`, undefined out of bounds. -/
def Tensor.get {β : Type} (t : Tensor β) (idx : List Int) : Option β :=
  if inB t.shape idx then t.vals[(flat t.shape idx).toNat]? else none

/-- `tensor.insert`, undefined out of bounds. -/
def Tensor.insert {β : Type} (t : Tensor β) (a : β) (idx : List Int) : Option (Tensor β) :=
  if inB t.shape idx then some { t with vals := t.vals.set (flat t.shape idx).toNat a } else none

/-- A constant tensor of one value, `tensor.splat`. -/
def splat {β : Type} (shape : List Nat) (a : β) : Tensor β := ⟨shape, List.replicate (numElements shape) a⟩

/-! ## Inputs -/

/-- The definition of an input tensor: some value, a dense constant, which may be stored as one value, or
a resource. -/
inductive Origin where
  | value
  | const (isSplat : Bool)
  | resource
deriving DecidableEq, Repr

/-- An input; `const` tells whether a scalar is a constant.  `empty` is `tensor.empty`. -/
inductive Src (β : Type) where
  | scalar (const : Bool) (a : β)
  | tensor (o : Origin) (t : Tensor β)
  | empty (shape : List Nat)
deriving DecidableEq, Repr

variable {β : Type}

/-- A point of a relation: indices of the domain and of the range. -/
abbrev Pt := List Int × List Int

inductive Strategy where
  | auto | fold | loops
deriving DecidableEq, Repr

/-- The answers of isl about a relation with the bounds added. -/
structure Isl where
  /-- `enumeratePoints` -/
  points : List Pt
  /-- `constructAst` -/
  tree : Node
  /-- `isDenseLayout` -/
  dense : Bool
  /-- `isRelationBicyclic` or `isRelationTricyclic` -/
  crt : Bool
  /-- `relationSize` -/
  size : Int
  locals : Nat
  /-- whether an attribute of equal values is stored as one value; not isl's but the context's -/
  stored : Bool
  /-- `anyRangePoint` -/
  sample : Option (List Int)

/-! ## `assign_layout` -/

/-- The value of a constant stored as one value, a `SplatElementsAttr`. -/
def Src.splat? : Src β → Option β
  | .tensor (.const true) t => t.vals.head?
  | _ => none

/-- `m_Zero`, `m_AnyZeroFloat`: a scalar, or a constant stored as one value. -/
def Src.isZero [DecidableEq β] [Zero β] : Src β → Bool
  | .scalar c a => c && decide (a = 0)
  | src => src.splat? == some 0

/-- `implementCrtAssignLayoutStep`, `AssignLayout.cpp:256-310`: the body of the loop. -/
def crtStep (t : Tensor β) (target : List Nat) (acc : Option (Tensor β)) (k : Nat) : Option (Tensor β) :=
  let numSlots := target.getLast?.getD 1
  let numCts := if target.length = 2 then target.headD 1 else 1
  let idx : List Int := if target.length = 2 then
      (if numCts = 1 then [0, (k : Int)] else [(k : Int) / numSlots, (k : Int) % numSlots])
    else [(k : Int)]
  acc.bind fun out => (t.get (t.shape.map fun d => (k : Int).tmod d)).bind fun a => out.insert a idx

def crtAssign [Zero β] (t : Tensor β) (target : List Nat) : Option (Tensor β) :=
  let numSlots := target.getLast?.getD 1
  let numCts := if target.length = 2 then target.headD 1 else 1
  (List.range (numCts * numSlots)).foldl (crtStep t target) (some (splat target 0))

/-- `rowMajorStrides`, `AssignLayout.cpp:436-442`. -/
def rowMajorStrides : List Nat → List Int
  | [] => []
  | [_] => [1]
  | _ :: d :: ds => (rowMajorStrides (d :: ds)).headD 1 * d :: rowMajorStrides (d :: ds)

/-- `flatten`, `AssignLayout.cpp:445-449`. -/
def flatten (pt : List Int) (strides : List Int) : Int := (pt.zipWith (· * ·) strides).foldl (· + ·) 0

/-- The packing of a constant, `AssignLayout.cpp:425-515`: of bytes or of attributes.  `isSplat` tells
whether the constant is stored as one value. -/
def foldStep (t : Tensor β) (isSplat : Bool) (target : List Nat) (acc : Option (List β)) (p : Pt) :
    Option (List β) :=
  acc.bind fun out =>
    let dst := flatten p.2 (rowMajorStrides target)
    if dst < 0 ∨ (numElements target : Int) ≤ dst then some out
    else
      let src := if isSplat then 0 else flatten p.1 (rowMajorStrides t.shape)
      if src < 0 then none else (t.vals[src.toNat]?).map fun a => out.set dst.toNat a

def foldConst [Zero β] (t : Tensor β) (isSplat : Bool) (target : List Nat) (points : List Pt) :
    Option (Tensor β) :=
  (points.foldl (foldStep t isSplat target) (some (List.replicate (numElements target) 0))).map
    fun vals => ⟨target, vals⟩

/-- `AssignLayout.cpp:517-541`. -/
def shouldFold (s : Strategy) (o : Origin) (isl : Isl) : Bool :=
  o != .value &&
    (s == .fold || (s == .auto && (o == .resource || decide (5 < isl.locals) ||
      (decide (0 ≤ isl.size) && decide (isl.size ≤ 16384)))))

/-- The body of the loops, `AssignLayout.cpp:580-605`; `dom` and `rng` are the numbers of variables. -/
def assignBody (src : List Int → Option β) (rank dom rng : Nat) (is : List Int) (t : Tensor β) :
    Option (Tensor β) :=
  (src (is.take rank)).bind fun a => t.insert a ((is.drop dom).take rng)

/-- A body with one tensor carried. -/
def lift (body : List Int → Tensor β → Option (Tensor β)) (is : List Int)
    (xs : List (Option (Tensor β))) : List (Option (Tensor β)) := xs.map fun x => x.bind (body is)

/-- The loops run on `init`. -/
def runLoops (tree : Node) (rev : Bool) (body : List Int → Tensor β → Option (Tensor β))
    (init : Tensor β) : Option (Tensor β) :=
  ((generateForLoop tree 1 rev).bind fun p => result (lift body) p [some init]).bind fun xs =>
    xs.head?.bind id

/-- What is extracted from the input at an index; of a scalar, the scalar. -/
def Src.at : Src β → List Int → Option β
  | .scalar _ a, _ => some a
  | .tensor _ t, idx => t.get idx
  | .empty _, _ => none

def Src.rank : Src β → Nat
  | .scalar _ _ => 0
  | .tensor _ t => t.shape.length
  | .empty s => s.length

/-- The definition of a packed constant.  Whether equal values are stored as one is up to the attribute
and is the field `stored`. -/
def packedOrigin [DecidableEq β] (o : Origin) (stored : Bool) (t : Tensor β) : Origin :=
  match o with
  | .resource => .resource
  | _ => .const (stored && t.vals.all fun a => t.vals.all fun b => decide (a = b))

/-- `implementAssignLayoutStep`, `AssignLayout.cpp:312-614`, after the bounds are added; `dom` and `rng`
are the numbers of variables of the relation.  The result comes with its definition. -/
def assignStep [DecidableEq β] [Zero β] (s : Strategy) (src : Src β) (isl : Isl) (dom rng : Nat)
    (target : List Nat) : Option (Src β) :=
  if src.isZero then some (.tensor (.const true) (splat target 0))
  else
    match src with
    | .empty _ => some (.empty target)
    | .scalar c a =>
      if isl.dense then some (.tensor .value (splat target a))
      else (runLoops isl.tree false (assignBody (Src.scalar c a).at 0 dom rng) (splat target 0)).map
        (.tensor .value)
    | .tensor o t =>
      if isl.crt then (crtAssign t target).map (.tensor .value)
      else if isl.dense && ((Src.tensor o t).splat?.isSome || decide (numElements t.shape = 1)) then
        match (Src.tensor o t).splat? with
        | some a => some (.tensor (.const true) (splat target a))
        | none => (t.get (t.shape.map fun _ => 0)).map fun a => .tensor .value (splat target a)
      else if shouldFold s o isl then
        (foldConst t (Src.tensor o t).splat?.isSome target isl.points).map fun t' =>
          .tensor (packedOrigin o isl.stored t') t'
      else
        (runLoops isl.tree false (assignBody (Src.tensor o t).at t.shape.length dom rng)
          (splat target 0)).map (.tensor .value)

/-- The bounds added to the domain, `AssignLayout.cpp:323-332`. -/
def bounded (src : Src β) (p : Pt) : Bool :=
  match src with
  | .scalar _ _ => true
  | .tensor _ t => (p.1.zip t.shape).all fun x => decide (0 ≤ x.1) && decide (x.1 < x.2)
  | .empty s => (p.1.zip s).all fun x => decide (0 ≤ x.1) && decide (x.1 < x.2)

/-- A layout of a list: isl's answers, numbers of variables and the type of the result. -/
structure Layer where
  isl : Isl
  dom : Nat
  rng : Nat
  target : List Nat

/-- `implementAssignLayout`, `AssignLayout.cpp:623-653`, of a list of layouts: every step gets the result
of the previous one. -/
def assignChain [DecidableEq β] [Zero β] (s : Strategy) : Src β → List Layer → Option (Src β)
  | src, [] => some src
  | src, l :: ls =>
    (assignStep s src l.isl l.dom l.rng l.target).bind fun src' => assignChain s src' ls

/-! ## Permutations -/

/-- One entry of a permutation: source ciphertext and slot, target ciphertext and slot. -/
structure Move where
  srcCt : Int
  srcSlot : Int
  dstCt : Int
  dstSlot : Int
deriving DecidableEq, Repr

/-- The check of an entry, `AssignLayout.cpp:200-208`. -/
def moveOk (ctBound srcBound dstBound : Int) (m : Move) : Bool :=
  !(decide (ctBound ≤ m.srcCt) || decide (srcBound ≤ m.srcSlot) || decide (ctBound ≤ m.dstCt) ||
    decide (dstBound ≤ m.dstSlot))

/-- `implementAssignLayoutPermutation`, `AssignLayout.cpp:171-235`: the body of the loop. -/
def moveStep (t : Tensor β) (ctBound srcBound dstBound : Int) (acc : Option (Tensor β)) (m : Move) :
    Option (Tensor β) :=
  acc.bind fun out =>
    if !moveOk ctBound srcBound dstBound m then none
    else
      (t.get (if t.shape.length = 2 then [m.srcCt, m.srcSlot] else [m.srcSlot])).bind fun a =>
        out.insert a [m.dstCt, m.dstSlot]

def assignPermutation [Zero β] (t : Tensor β) (moves : List Move) (minSlots : Nat) : Option (Tensor β) :=
  if t.shape.length ≤ 2 ∧ t.shape ≠ [] then
    let cts := if t.shape.length = 2 then t.shape.headD 1 else 1
    moves.foldl (moveStep t cts (t.shape.getLast?.getD 0 : Nat) minSlots)
      (some (splat [cts, minSlots] 0))
  else none

/-! ## `unpack` -/

/-- The body of the loops, `AssignLayout.cpp:139-158`. -/
def unpackBody (ct : Tensor β) (rank : Nat) (is : List Int) (t : Tensor β) : Option (Tensor β) :=
  (ct.get (is.drop rank)).bind fun a => t.insert a (is.take (is.length - ct.shape.length))

/-- The bounds added by `unpack`, `AssignLayout.cpp:76-83`: upper ones. -/
def below (shape : List Nat) (p : Pt) : Bool := (p.1.zip shape).all fun x => decide (x.1 < x.2)

/-- `implementUnpackOpStep`, `AssignLayout.cpp:61-169`, after the bounds are added; `none` as the shape is
a scalar. -/
def unpackStep [Zero β] (ct : Tensor β) (isl : Isl) (shape : Option (List Nat)) : Option (Tensor β) :=
  match shape with
  | none => (isl.sample.bind ct.get).map fun a => ⟨[], [a]⟩
  | some s =>
    if numElements s = 1 then (isl.sample.bind ct.get).map fun a => ⟨s, [a]⟩
    else runLoops isl.tree true (unpackBody ct s.length) (splat s 0)

/-- `implementUnpackOp`, `AssignLayout.cpp:670-720`, of a list of layouts; the layers are given in the
order of the list, with the shapes of their domains, and are undone in the opposite order. -/
def unpackChain [Zero β] (ct : Tensor β) : List (Isl × Option (List Nat)) → Option (Tensor β)
  | [] => some ct
  | (isl, shape) :: ls => (unpackChain ct ls).bind fun t => unpackStep t isl shape

end Heir.Assign
