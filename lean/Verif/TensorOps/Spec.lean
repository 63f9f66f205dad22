import Mathlib.Data.List.Basic

/-! # Indices of tensors -/

namespace Heir.TensorOps

/-- The indices of a tensor in the order of `tensor.from_elements` and of dense attributes: the last one
runs fastest. -/
def box : List Nat → List (List Nat)
  | [] => [[]]
  | d :: ds => (List.range d).flatMap fun i => (box ds).map (i :: ·)

/-- `tensor.from_elements`. -/
def fromElements {α : Type} (shape : List Nat) (vals : List α) (idx : List Nat) : Option α :=
  vals[(box shape).idxOf idx]?

/-- A tensor with one element replaced. -/
def put {α : Type} (t : List Nat → α) (idx : List Nat) (x : α) : List Nat → α :=
  fun j => if j = idx then x else t j

/-! ### Operations on elements -/

/-- An argument of an operation on elements: an element, or a tensor of its own. -/
inductive Arg (α : Type)
  | elem (a : α)
  | sub (rank : Nat) (t : List Nat → Option α)

/-- An operand: a scalar or a tensor that is used as it is, a tensor of which one element is used, and a
tensor of `rank` dimensions of which the first `n` are mapped over. -/
inductive Operand (α : Type)
  | whole (a : Arg α)
  | elems (t : List Nat → α)
  | prefix (n rank : Nat) (t : List Nat → α)

/-- What the operation gets at an index of the result. -/
def Operand.get {α : Type} (idx : List Nat) : Operand α → Arg α
  | .whole a => a
  | .elems t => .elem (t idx)
  | .prefix n rank t =>
    .sub (rank - n) fun rest => if rest.length = rank - n then some (t (idx.take n ++ rest)) else none

/-! ### `linalg.generic` -/

/-- An operand that is read: a scalar, or a tensor with its indexing map. -/
inductive Input (α : Type)
  | scalar (a : α)
  | tensor (map : List Nat → List Nat) (t : List Nat → α)

/-- The value at a point. -/
def Input.read {α : Type} (p : List Nat) : Input α → α
  | .scalar a => a
  | .tensor m t => t (m p)

/-- `linalg.generic`: the sizes of the loops, the operands that are read, the indexing maps of those that
are written, and the body; the body may ask for the point it is run for, if there is one. -/
structure Generic (α : Type) where
  sizes : List Nat
  ins : List (Input α)
  maps : List (List Nat → List Nat)
  body : Option (List Nat) → List α → Option (List α)

/-- The values at a point of the tensors that are written. -/
def current {α : Type} (maps : List (List Nat → List Nat)) (p : List Nat) (outs : List (List Nat → α)) :
    List α := List.zipWith (fun m t => t (m p)) maps outs

/-- The tensors with the values written at a point. -/
def written {α : Type} (maps : List (List Nat → List Nat)) (p : List Nat) (outs : List (List Nat → α))
    (vs : List α) : List (List Nat → α) :=
  List.zipWith (fun (mt : (List Nat → List Nat) × (List Nat → α)) v => put mt.2 (mt.1 p) v)
    (List.zip maps outs) vs

/-- One point of the operation. -/
def Generic.point {α : Type} (g : Generic α) (outs : List (List Nat → α)) (p : List Nat) :
    Option (List (List Nat → α)) :=
  (g.body (some p) (g.ins.map (Input.read p) ++ current g.maps p outs)).map (written g.maps p outs)

/-- The operation: all points, one after the other. -/
def Generic.run {α : Type} (g : Generic α) (outs : List (List Nat → α)) :
    Option (List (List Nat → α)) := (box g.sizes).foldlM g.point outs

/-! ### Slices -/

/-- A static or dynamic offset. -/
inductive Off
  | static (n : Nat)
  | dyn (v : Nat)
deriving DecidableEq, Repr

/-- Its value. -/
def Off.val (env : Nat → Nat) : Off → Nat
  | .static n => n
  | .dyn v => env v

/-- One dimension of a slice. -/
structure Dim where
  off : Off
  size : Nat
  stride : Nat
deriving DecidableEq, Repr

/-- The place in the large tensor of an element of the slice. -/
def place (env : Nat → Nat) (sl : List Dim) (k : List Nat) : List Nat :=
  List.zipWith (fun d i => d.off.val env + d.stride * i) sl k

/-- Programs of insertions of slices; `shape` is the shape of the inserted tensor. -/
inductive Prog (α : Type)
  | other (t : List Nat → Option α)
  | empty
  | insert (v : List Nat → Option α) (shape : List Nat) (sl : List Dim) (dest : Prog α)

/-- The element of a program at an index; `none` is undefined.  `drop sizes shape k` is the index in a
tensor of the given shape of the element `k` of a slice of the given sizes, which may have more
dimensions of size one. -/
def Prog.at {α : Type} (drop : List Nat → List Nat → List Nat → List Nat) (env : Nat → Nat) :
    Prog α → List Nat → Option α
  | .other t, idx => t idx
  | .empty, _ => none
  | .insert v shape sl dest, idx =>
    match (box (sl.map Dim.size)).find? fun k => place env sl k == idx with
    | some k => v (drop (sl.map Dim.size) shape k)
    | none => dest.at drop env idx

end Heir.TensorOps
