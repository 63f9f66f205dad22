import Mathlib.Algebra.Field.Basic
import Mathlib.Algebra.Order.Group.MinMax

/-!
# Model of `--linalg-fuse-linear-ops`

Source: `lib/Transforms/LinalgFuseLinearOps/LinalgFuseLinearOps.cpp`.

Floats are elements of a field.  A tensor is a function of lists of indices; shapes are kept where
the pass looks at them.
-/

namespace Heir.Fuse

variable {K : Type}

/-- The elements of a tensor. -/
abbrev Tensor (K : Type) := List Nat → K

/-- How an operation of `linalg` combines the accumulator with an element: the sums of contractions
and of pooling, the maxima and minima of pooling, the body of `linalg.reduce`, the body of
`linalg.generic`. -/
inductive Comb (K : Type)
  | add
  | max
  | min
  /-- `linalg.reduce` with any body -/
  | reduce (f : K → K → K)
  /-- `linalg.generic`; `addsOut`: the yielded value is a sum one of whose operands is the block
  argument of the output, the other one is `f` -/
  | generic (addsOut : Bool) (f : K → K → K)

/-- The operations.  Sizes of the reduced dimensions, strides and dilations are as in the
operations; `pool` and `reduce` stand for all operations without weights, which read `taps`. -/
inductive Kind (K : Type)
  | matmul (k : Nat)
  | vecmat (k : Nat)
  | matvec (k : Nat)
  | conv1dNcwFcw (c kw s d : Nat)
  | conv1dNwcWcf (c kw s d : Nat)
  | conv2dNchwFchw (c kh kw sh sw dh dw : Nat)
  | conv2dNhwcFhwc (c kh kw sh sw dh dw : Nat)
  | conv2dNhwcHwcf (c kh kw sh sw dh dw : Nat)
  | other (comb : Comb K) (taps : List Nat → List (List Nat))

/-- An operation with its operands; `outs` is `none` for `tensor.empty`. -/
structure Lin (K : Type) where
  kind : Kind K
  weights : Tensor K
  weightShape : List Nat
  data : Tensor K
  outs : Option (Tensor K)

/-- All pairs. -/
def grid2 (a b : Nat) : List (Nat × Nat) :=
  (List.range a).flatMap fun i => (List.range b).map fun j => (i, j)

/-- All triples. -/
def grid3 (a b c : Nat) : List (Nat × Nat × Nat) :=
  (List.range a).flatMap fun i => (grid2 b c).map fun jk => (i, jk)

section
variable [Field K]

/-- The elements that are accumulated into an element of the output, as the operations of `linalg`
define it. -/
def terms (kind : Kind K) (w x : Tensor K) (o : List Nat) : List K :=
  match kind, o with
  | .matmul k, [m, n] => (List.range k).map fun r => w [r, n] * x [m, r]
  | .vecmat k, [n] => (List.range k).map fun r => w [r, n] * x [r]
  | .matvec k, [m] => (List.range k).map fun r => w [m, r] * x [r]
  | .conv1dNcwFcw c kw s d, [n, f, i] =>
    (grid2 c kw).map fun r => w [f, r.1, r.2] * x [n, r.1, i * s + r.2 * d]
  | .conv1dNwcWcf c kw s d, [n, i, f] =>
    (grid2 kw c).map fun r => w [r.1, r.2, f] * x [n, i * s + r.1 * d, r.2]
  | .conv2dNchwFchw c kh kw sh sw dh dw, [n, f, i, j] =>
    (grid3 c kh kw).map fun r =>
      w [f, r.1, r.2.1, r.2.2] * x [n, r.1, i * sh + r.2.1 * dh, j * sw + r.2.2 * dw]
  | .conv2dNhwcFhwc c kh kw sh sw dh dw, [n, i, j, f] =>
    (grid3 kh kw c).map fun r =>
      w [f, r.1, r.2.1, r.2.2] * x [n, i * sh + r.1 * dh, j * sw + r.2.1 * dw, r.2.2]
  | .conv2dNhwcHwcf c kh kw sh sw dh dw, [n, i, j, f] =>
    (grid3 kh kw c).map fun r =>
      w [r.1, r.2.1, r.2.2, f] * x [n, i * sh + r.1 * dh, j * sw + r.2.1 * dw, r.2.2]
  | .other _ taps, o => (taps o).map x
  | _, _ => []

/-- How an element is accumulated. -/
def step [LinearOrder K] : Kind K → K → K → K
  | .other .max _, a, t => max a t
  | .other .min _, a, t => min a t
  | .other (.reduce f) _, a, t => f a t
  | .other (.generic true f) _, a, t => f a t + a
  | .other (.generic false f) _, a, t => f a t
  | _, a, t => a + t

/-- The result of an operation; `tensor.empty` is read as zero (its contents are undefined). -/
def Lin.result [LinearOrder K] (l : Lin K) (o : List Nat) : K :=
  (terms l.kind l.weights l.data o).foldl (step l.kind)
    (match l.outs with
     | some t => t o
     | none => 0)
end

/-! ### the operations that are fused -/

/-- `arith.mulf`, `arith.divf`, `arith.addf`, `arith.subf`. -/
inductive Bin | mul | div | add | sub
  deriving DecidableEq

def Bin.ap [Field K] : Bin → K → K → K
  | .mul => (· * ·)
  | .div => (· / ·)
  | .add => (· + ·)
  | .sub => (· - ·)

/-- How the other operand is defined, as far as `findOriginalScalar` follows it. -/
inductive Src (K : Type)
  /-- a scalar of the function -/
  | scalar (c : K)
  /-- an argument -/
  | arg (shape : List Nat) (t : Tensor K)
  /-- `arith.constant`; the attribute is a splat -/
  | splatConst (shape : List Nat) (c : K)
  /-- `arith.constant`, not a splat -/
  | const (shape : List Nat) (t : Tensor K)
  /-- another operation -/
  | op (shape : List Nat) (t : Tensor K)
  /-- `tensor.splat` -/
  | splat (shape : List Nat) (s : Src K)
  /-- `linalg.broadcast` to a shape, with the added dimensions -/
  | broadcast (shape : List Nat) (dims : List Nat) (s : Src K)
  /-- `tensor.expand_shape` -/
  | expand (shape : List Nat) (s : Src K)

def Src.shape : Src K → List Nat
  | .scalar _ => []
  | .arg sh _ => sh
  | .splatConst sh _ => sh
  | .const sh _ => sh
  | .op sh _ => sh
  | .splat sh _ => sh
  | .broadcast sh _ _ => sh
  | .expand sh _ => sh

/-- The row-major number of an index. -/
def linear : List Nat → List Nat → Nat
  | _ :: ss, i :: is => i * ss.prod + linear ss is
  | _, _ => 0

/-- The index of a row-major number. -/
def delinear : List Nat → Nat → List Nat
  | [], _ => []
  | _ :: ss, n => n / ss.prod :: delinear ss (n % ss.prod)

/-- The coordinates whose positions are not among `dims`. -/
def dropDims (dims : List Nat) : Nat → List Nat → List Nat
  | _, [] => []
  | p, i :: is => if p ∈ dims then dropDims dims (p + 1) is else i :: dropDims dims (p + 1) is

/-- The elements of the operand. -/
def Src.val : Src K → Tensor K
  | .scalar c, _ => c
  | .arg _ t, o => t o
  | .splatConst _ c, _ => c
  | .const _ t, o => t o
  | .op _ t, o => t o
  | .splat _ s, _ => s.val []
  | .broadcast _ dims s, o => s.val (dropDims dims 0 o)
  | .expand sh s, o => s.val (delinear s.shape (linear sh o))

/-- What `findOriginalScalar` returns. -/
inductive Found (K : Type)
  | scalar (c : K)
  | attr (c : K)
  | vec (n : Nat) (t : Tensor K)

/-- Case 3 of `findOriginalScalar`: a tensor of one dimension. -/
def asVec (shape : List Nat) (t : Tensor K) : Option (Found K) :=
  match shape with
  | [n] => some (.vec n t)
  | _ => none

/-- `findOriginalScalar`, `LinalgFuseLinearOps.cpp:142-185`. -/
def findOriginalScalar : Src K → Option (Found K)
  | .scalar c => some (.scalar c)
  | .arg sh t => asVec sh t
  | .splatConst _ c => some (.attr c)
  | .const sh t => asVec sh t
  | .op _ _ => none
  | .splat _ s => findOriginalScalar s
  | .broadcast _ _ s => findOriginalScalar s
  | .expand _ s => findOriginalScalar s

/-- The dimension of the weights that is matched, `LinalgFuseLinearOps.cpp:211-238`; `none` for
operations that are not listed. -/
def matchDim : Kind K → Option Nat
  | .matmul _ => some 1
  | .vecmat _ => some 1
  | .matvec _ => some 0
  | .conv2dNchwFchw .. => some 0
  | .conv2dNhwcFhwc .. => some 0
  | .conv1dNcwFcw .. => some 0
  | .conv2dNhwcHwcf .. => some 3
  | .conv1dNwcWcf .. => some 2
  | .other _ _ => none

/-- The outcome of a pattern. -/
inductive Res (K : Type)
  /-- not matched -/
  | no
  /-- `cast` to a type that the value does not have -/
  | ub
  /-- the operation with its new operands; its result replaces the fused operation -/
  | ok (l : Lin K)

/-- `fuseScaleOrDivIntoLinearOp`, `LinalgFuseLinearOps.cpp:194-308`, for public operands.  Which
side of `op` the result of the linear operation is on does not matter (`findLinearOpAndOperand`,
`LinalgFuseLinearOps.cpp:100-126`). -/
def fuseScale [Field K] (op : Bin) (l : Lin K) (s : Src K) : Res K :=
  match matchDim l.kind, findOriginalScalar s with
  | some d, some (.attr c) => .ok { l with weights := fun i => op.ap (l.weights i) c }
  | some _, some (.scalar _) => .ub
  | some d, some (.vec n t) =>
    if l.weightShape = [n] then .ok { l with weights := fun i => op.ap (l.weights i) (t i) }
    else if l.weightShape.getD d 0 = n then
      .ok { l with weights := fun i => op.ap (l.weights i) (t [i.getD d 0]) }
    else .no
  | _, _ => .no

/-- `accumulatesIntoOuts`, `LinalgFuseLinearOps.cpp:41-94`: all named operations, among them
pooling by maxima and minima and `linalg.reduce`; generic operations by their yielded value. -/
def accumulates : Kind K → Bool
  | .other (.generic b _) _ => b
  | _ => true

/-- `fuseAddOrSubIntoLinearOp`, `LinalgFuseLinearOps.cpp:313-353`, for a public addend. -/
def fuseAdd [Field K] (op : Bin) (l : Lin K) (a : Tensor K) : Res K :=
  if accumulates l.kind then
    .ok { l with outs := some fun i =>
      match l.outs with
      | none => if op = .sub then -(a i) else a i
      | some t => op.ap (t i) (a i) }
  else .no

/-- The four patterns. -/
def fuse [Field K] (op : Bin) (l : Lin K) (s : Src K) : Res K :=
  match op with
  | .mul => fuseScale .mul l s
  | .div => fuseScale .div l s
  | .add => fuseAdd .add l s.val
  | .sub => fuseAdd .sub l s.val

end Heir.Fuse
