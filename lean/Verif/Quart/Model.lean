/-! # Integers split into 8-bit chunks

Model of `lib/Dialect/Arith/Conversions/ArithToCGGIQuart`. A converted integer is a tensor of 16-bit
CGGI ciphertexts, least significant chunk first; here the list of the encrypted words. `cggi.add`,
`cggi.sub` and `cggi.mul` are modulo 2^16, `cggi.cast` from 16 to 8 bits truncates and back extends
by zeros, `cggi.scalar_shift_right` is logical (the operations of unsigned `tfhe-rs` integers). -/

namespace Heir.Quart

/-- `maxIntWidth`, ArithToCGGIQuart.cpp:40. -/
abbrev Chunk := BitVec 16

/-- `convertArithToCGGIQuartType`, ArithToCGGIQuart.cpp:47-59: `ceil(width / 8.f)` chunks, exact for
these widths, and no type above 64 bits. -/
def nbChunks (width : Nat) : Option Nat :=
  if width > 64 then none else some ((width + 7) / 8)

/-- The two casts, ArithToCGGIQuart.cpp:362-364. -/
def lsb (c : Chunk) : Chunk := (c.setWidth 8).setWidth 16

/-- The shift by `maxIntWidth >> 1`, ArithToCGGIQuart.cpp:368-369. -/
def msb (c : Chunk) : Chunk := c >>> 8

/-- The loop of `ConvertQuartAddI::matchAndRewrite`, ArithToCGGIQuart.cpp:360-380, over the pairs of
chunks that are left; `carries[i - 1]` outside the vector is undefined. -/
def addLoop (size : Nat) : Nat → List (Chunk × Chunk) → List Chunk → List Chunk →
    Option (List Chunk)
  | _, [], _, outputs => some outputs
  | i, (x, y) :: rest, carries, outputs =>
    let lowSum := x + y
    let carries := if i ≠ size - 1 then carries ++ [msb lowSum] else carries
    if i = 0 then addLoop size (i + 1) rest carries (outputs ++ [lsb lowSum])
    else (carries[i - 1]?).bind fun carry =>
      addLoop size (i + 1) rest carries (outputs ++ [lsb lowSum + carry])

/-- `ConvertQuartAddI::matchAndRewrite`, ArithToCGGIQuart.cpp:325-386. The assertion at :345 is
`none`. -/
def addI (lhs rhs : List Chunk) : Option (List Chunk) :=
  if lhs.length ≠ rhs.length then none else addLoop lhs.length 0 (lhs.zip rhs) [] []

/-- `ConvertQuartConstantOp::matchAndRewrite`, ArithToCGGIQuart.cpp:201-247. `extractBits` asserts
that the bits are there; `getSExtValue` extends the chunk by its sign. -/
def constant {w : Nat} (x : BitVec w) : Option (List Chunk) :=
  (nbChunks w).bind fun n =>
    if 8 * n ≤ w then some ((List.range n).map fun i => (x.extractLsb' (8 * i) 8).signExtend 16)
    else none

/-- `ConvertQuartExt::matchAndRewrite`, ArithToCGGIQuart.cpp:282-323, the same for `arith.extui`
and `arith.extsi`. -/
def ext (wIn wOut : Nat) (x : List Chunk) : Option (List Chunk) :=
  (nbChunks wOut).bind fun n => (nbChunks wIn).bind fun m =>
    some (x ++ List.replicate (n - m) 0)

/-- `ConvertQuartMulI::matchAndRewrite`, ArithToCGGIQuart.cpp:388-483; `none` when the pattern does
not match. -/
def mulI (lhs rhs : List Chunk) : Option (List Chunk) :=
  match lhs, rhs with
  | [l0, l1, l2, l3], [r0, r1, r2, r3] =>
    let z00 := l0 * r0
    let z02 := l1 * r1
    let z01 := (l0 + l1) * (r0 + r1) - z00 - z02
    let z1a0 := l0 * r2
    let z1a2 := l1 * r3
    let z1a1 := (l0 + l1) * (r2 + r3) - z1a0 - z1a2
    let z1b0 := l2 * r0
    let z1b2 := l3 * r1
    let z1b1 := (l2 + l3) * (r0 + r1) - z1b0 - z1b2
    let out2Carry := z1a0 + z1b0 + z02
    let out3Carry := z1a1 + z1b1
    some [lsb z00, lsb z01 + msb z00, lsb out2Carry + msb z01, lsb out3Carry + msb out2Carry]
  | _, _ => none

end Heir.Quart
