import Verif.Fuse.Model

/-!
# Specification for C152–C153
-/

namespace Heir.Fuse

variable {K : Type}

/-- An index of a tensor of the shape. -/
def InBox (shape o : List Nat) : Prop := List.Forall₂ (· < ·) o shape

/-- The operation as written: a result of `linalg` on one side, another operand on the other, and
possibly other users of the result. -/
structure Site (K : Type) where
  op : Bin
  lin : Lin K
  src : Src K
  /-- the result of `linalg` is the left operand -/
  left : Bool
  /-- the result of `linalg` has other users -/
  shared : Bool

section
variable [Field K] [LinearOrder K]

/-- What the operation computes. -/
def Site.value (s : Site K) (o : List Nat) : K :=
  if s.left then s.op.ap (s.lin.result o) (s.src.val o) else s.op.ap (s.src.val o) (s.lin.result o)

/-- A replacement by an operation changed in place is right: its result is the value of the
fused operation, and other users see what they saw. -/
def Site.Right (s : Site K) (l : Lin K) : Prop :=
  ∀ o, InBox s.src.shape o →
    l.result o = s.value o ∧ (s.shared = true → l.result o = s.lin.result o)
end

/-- The dimension of the output that numbers the output channels. -/
def outDim : Kind K → Nat
  | .matmul _ => 1
  | .vecmat _ => 0
  | .matvec _ => 0
  | .conv2dNchwFchw .. => 1
  | .conv2dNhwcFhwc .. => 3
  | .conv1dNcwFcw .. => 1
  | .conv2dNhwcHwcf .. => 3
  | .conv1dNwcWcf .. => 2
  | .other _ _ => 0

/-- The number of dimensions of the output. -/
def outRank : Kind K → Nat
  | .matmul _ => 2
  | .vecmat _ => 1
  | .matvec _ => 1
  | .conv2dNchwFchw .. => 4
  | .conv2dNhwcFhwc .. => 4
  | .conv1dNcwFcw .. => 3
  | .conv2dNhwcHwcf .. => 4
  | .conv1dNwcWcf .. => 3
  | .other _ _ => 0

/-- The operand is a vector repeated along all dimensions but the one of the output channels. -/
def Aligned (kind : Kind K) (s : Src K) : Prop :=
  ∀ n t, findOriginalScalar s = some (.vec n t) →
    ∀ o, InBox s.shape o → s.val o = t [o.getD (outDim kind) 0]

/-- Sums that do not depend on the accumulator: the accumulator is added. -/
def Sums : Kind K → Prop
  | .other .add _ => True
  | .other (.generic true f) _ => ∀ a b t, f a t = f b t
  | .other _ _ => False
  | _ => True

end Heir.Fuse
