import Verif.NumTheory.Model
import Verif.ModArith.Model
import Mathlib.Algebra.Ring.Basic
import Mathlib.Algebra.Group.Pi.Basic
import Mathlib.Algebra.Group.Equiv.Basic

/-! # RLWE ciphertexts lowered to polynomials, and key switching

Model of `lib/Dialect/LWE/Conversions/LWEToPolynomial/LWEToPolynomial.cpp`,
`lib/Dialect/LWE/Transforms/DecomposeLWEOps.cpp` and
`lib/Dialect/CKKS/Transforms/DecomposeRelinearize.cpp`.

The integer polynomials modulo the monic polynomial modulus of the ring are a commutative ring `A`
whose elements have `n` integer coefficients: `C : A ≃+ (Fin n → ℤ)`. Polynomials modulo `q` are
elements of `A` with coefficients in `[0, q)`, and every op of the `polynomial` dialect reduces its
result (`red`); that the lowered code of these ops does so is C10, C12 and C22. -/

namespace Heir.Lwe

open Heir.NumTheory Heir.ModArith

variable {A : Type} [CommRing A] {n w : Nat}

/-- The representative modulo `q` with coefficients in `[0, q)`. -/
def red (C : A ≃+ (Fin n → ℤ)) (q : Nat) (a : A) : A := C.symm fun i => C a i % (q : ℤ)

/-! ## Encryption and decryption -/

/-- `polynomial.mod_switch` from modulus `q` to modulus `t`: `mod_arith.mod_switch` of every
coefficient. The value of the latter is that of the lowered code, `C16_exact`. -/
def modSwitch (C : A ≃+ (Fin n → ℤ)) (q t : Nat) (a : A) : A :=
  C.symm fun i => (if C a i < ((q / 2 : Nat) : ℤ) then C a i else C a i - q) % (t : ℤ)

/-- `ConvertRLWEDecrypt`, LWEToPolynomial.cpp:102-155: `mod_switch (secretKey * c_0 + c_1)`. -/
def decrypt (C : A ≃+ (Fin n → ℤ)) (q t : Nat) (s : A) (c : A × A) : A :=
  modSwitch C q t (red C q (red C q (s * c.1) + c.2))

/-- `ConvertRLWEEncrypt` with a public key, LWEToPolynomial.cpp:222-267. `u`, `e0` and `e1` are the
samples and `constantT` the scalar the noise is multiplied with. -/
def encryptPk (C : A ≃+ (Fin n → ℤ)) (q t : Nat) (constantT : ℤ) (pk : A × A) (u e0 e1 m : A) : A × A :=
  let castInput := modSwitch C t q m
  (red C q (red C q (red C q (pk.1 * u) + red C q (constantT * e0)) + castInput),
    red C q (red C q (pk.2 * u) + red C q (constantT * e1)))

/-- The scalar `constantT`, LWEToPolynomial.cpp:239-243: the constant `T` of `Z/T`, folded by
`ConstantOp::fold` when `folded`, switched to `Z/q`. -/
def constantT {wt wq : Nat} (T : BitVec wt) (q : BitVec wq) (folded : Bool) : Option (BitVec wq) :=
  lowerModSwitch T q (if folded then foldConstant T T else T)

/-- `ConvertRLWEEncrypt` with a secret key, LWEToPolynomial.cpp:268-303. -/
def encryptSk (C : A ≃+ (Fin n → ℤ)) (q t : Nat) (s u e m : A) : A × A :=
  let castInput := modSwitch C t q m
  (u, red C q (red C q (red C q (u * s) + castInput) + e))

/-! ## Operations -/

/-- A converted value: a plaintext or ring element is a polynomial, a ciphertext a tensor of
polynomials (LWEToPolynomial.cpp:42-101). -/
inductive PVal (A : Type) where
  | poly (a : A)
  | tensor (l : List A)

/-- An element-wise binary op of the `polynomial` dialect. `none`: the operands have different types,
which the verifier (`SameOperandsAndResultType`) rejects. -/
def binop (C : A ≃+ (Fin n → ℤ)) (q : Nat) (f : A → A → A) : PVal A → PVal A → Option (PVal A)
  | .poly a, .poly b => some (.poly (red C q (f a b)))
  | .tensor x, .tensor y =>
    if x.length = y.length then some (.tensor (List.zipWith (fun a b => red C q (f a b)) x y)) else none
  | _, _ => none

/-- `ConvertRAdd` and `ConvertRAddPlain`, LWEToPolynomial.cpp:309-337. -/
def rAdd (C : A ≃+ (Fin n → ℤ)) (q : Nat) (x y : PVal A) : Option (PVal A) := binop C q (· + ·) x y

/-- `ConvertRSub` and `ConvertRSubPlain`, LWEToPolynomial.cpp:339-367. -/
def rSub (C : A ≃+ (Fin n → ℤ)) (q : Nat) (x y : PVal A) : Option (PVal A) := binop C q (· - ·) x y

/-- `polynomial.mul_scalar` (`ConvertMulScalar`, LWEToPolynomial.cpp:410-429). -/
def mulScalar (C : A ≃+ (Fin n → ℤ)) (q : Nat) (k : ℤ) : PVal A → PVal A
  | .poly a => .poly (red C q (k * a))
  | .tensor x => .tensor (x.map fun a => red C q (k * a))

/-- `ConvertRNegate`, LWEToPolynomial.cpp:369-408: multiplication by the constant `-1`, whose storage
word is all ones; the lowered multiplication reduces the product of the words. -/
def rNegate (C : A ≃+ (Fin n → ℤ)) (q : BitVec w) (x : PVal A) : PVal A :=
  mulScalar C q.toNat (foldConstant q (BitVec.allOnes w)).toNat x

/-- `ConvertRMul`, LWEToPolynomial.cpp:431-481. `none`: an operand has not two polynomials. -/
def rMul (C : A ≃+ (Fin n → ℤ)) (q : Nat) : List A → List A → Option (List A)
  | [x0, x1], [y0, y1] =>
    some [red C q (x0 * y0), red C q (red C q (x0 * y1) + red C q (x1 * y0)), red C q (x1 * y1)]
  | _, _ => none

/-- `ConvertRMulPlain`, LWEToPolynomial.cpp:483-516. `none`: `cast<RankedTensorType>` fails, the
operands have the wrong numbers of elements, or the new ops are invalid (`tensor.from_elements` of
tensors). -/
def rMulPlain (_C : A ≃+ (Fin n → ℤ)) (_q : Nat) : PVal A → PVal A → Option (PVal A)
  | .tensor [_, _], .poly _ => none
  | .tensor [_, _], .tensor [_] => none
  | _, _ => none

/-- `ConvertRMulRingElt`, LWEToPolynomial.cpp:518-552. -/
def rMulRingElt (C : A ≃+ (Fin n → ℤ)) (q : Nat) : PVal A → PVal A → Option (PVal A)
  | .poly x, .tensor [y0, y1] => binop C q (· * ·) (.tensor [x, x]) (.tensor [y0, y1])
  | _, _ => none

/-! ## RNS ring elements -/

/-- A ring element in an RNS basis: for every modulus the polynomial modulo it. All moduli are stored
in words of the same width. -/
abbrev Elt (w : Nat) (A : Type) := List (BitVec w × A)

/-- Element-wise ops on RNS polynomials. -/
def eltBin (C : A ≃+ (Fin n → ℤ)) (f : A → A → A) (x y : Elt w A) : Elt w A :=
  List.zipWith (fun a b => (a.1, red C a.1.toNat (f a.2 b.2))) x y

/-- An integer with the given residues, for pairwise coprime moduli. -/
def crt : List (Nat × ℤ) → ℤ
  | [] => 0
  | (q, r) :: rest =>
    let z := crt rest
    let M := (rest.map (·.1)).prod
    z + M * ((r - z) * Nat.gcdA M q)

/-- The centred representative. -/
def center (Q : Nat) (z : ℤ) : ℤ := if 2 * (z % (Q : ℤ)) < Q then z % (Q : ℤ) else z % (Q : ℤ) - Q

/-- The centred integer polynomial with the residues of an RNS polynomial. -/
def lift (C : A ≃+ (Fin n → ℤ)) (x : Elt w A) : A :=
  C.symm fun i => center (x.map (·.1.toNat)).prod (crt (x.map fun l => (l.1.toNat, C l.2 i)))

/-- `lwe.convert_basis` as documented, `lib/Dialect/LWE/IR/LWEOps.td:336-350`: "equivalent to lifting
the ring element to its centered representative over the integers, and reducing by the output
modulus". The code it is lowered to is C21. -/
def convertBasis (C : A ≃+ (Fin n → ℤ)) (target : List (BitVec w)) (x : Elt w A) : Elt w A :=
  target.map fun p => (p, red C p.toNat (lift C x))

/-- How a pattern can fail: an assertion or undefined behaviour, or an emitted error. -/
inductive Fail where
  | ub
  | error
  deriving DecidableEq, Repr

/-- The loop over the key-switch primes of `createPInvModQConstant`, DecomposeLWEOps.cpp:50-58. -/
def pModQ (q : BitVec w) : List (BitVec w) → BitVec w → Except Fail (BitVec w)
  | [], acc => .ok acc
  | p :: ps, acc =>
    if q = 0#w then .error .ub
    else match modMul acc (p.umod q) q with
      | none => .error .ub
      | some acc => pModQ q ps acc

/-- One limb of `createPInvModQConstant`, DecomposeLWEOps.cpp:41-70. -/
def pInv (ps : List (BitVec w)) (q : BitVec w) : Except Fail (BitVec w) :=
  match pModQ q ps 1#w with
  | .error f => .error f
  | .ok pModQi => match multiplicativeInverse pModQi q with
    | none => .error .ub
    | some inv => if inv = 0#w then .error .error else .ok inv

/-- `createPInvModQConstant`, DecomposeLWEOps.cpp:35-74. -/
def pInvs (ps : List (BitVec w)) : List (BitVec w) → Except Fail (List (BitVec w))
  | [] => .ok []
  | q :: qs => match pInv ps q with
    | .error f => .error f
    | .ok inv => match pInvs ps qs with
      | .error f => .error f
      | .ok invs => .ok (inv :: invs)

/-- One ciphertext component in `DecomposeModDownPattern`, DecomposeLWEOps.cpp:108-140. -/
def modDownElt (C : A ≃+ (Fin n → ℤ)) (numTarget : Nat) (invs : List (BitVec w)) (x : Elt w A) :
    Elt w A :=
  let base := x.take numTarget
  let converted := convertBasis C (base.map (·.1)) (x.drop numTarget)
  List.zipWith (fun l k => (l.1, red C l.1.toNat ((k.toNat : ℤ) * l.2))) (eltBin C (· - ·) base converted)
    invs

/-- `DecomposeModDownPattern`, DecomposeLWEOps.cpp:81-147. `basis` is the input basis; the target
basis is its prefix of `numTarget` limbs (`ModDownOp::verify`). -/
def modDown (C : A ≃+ (Fin n → ℤ)) (basis : List (BitVec w)) (numTarget : Nat) (ct : List (Elt w A)) :
    Except Fail (List (Elt w A)) :=
  match pInvs (basis.drop numTarget) (basis.take numTarget) with
  | .error f => .error f
  | .ok invs => .ok (ct.map (modDownElt C numTarget invs))

/-- Step 1 of `DecomposeKeySwitchPattern`, DecomposeLWEOps.cpp:203-235. -/
def partitions (partSize : Nat) (value : Elt w A) : List (Elt w A) :=
  let numFull := value.length / partSize
  let extraStart := partSize * numFull
  let extraSize := value.length - extraStart
  let full := (List.range numFull).map fun i => (value.drop (i * partSize)).take partSize
  if extraSize > 0 then full ++ [(value.drop extraStart).take extraSize] else full

/-- `lwe.mul_ring_elt`. -/
def mulRingElt (C : A ≃+ (Fin n → ℤ)) (x : Elt w A) (k : Elt w A × Elt w A) : Elt w A × Elt w A :=
  (eltBin C (· * ·) x k.1, eltBin C (· * ·) x k.2)

/-- `lwe.radd`. -/
def addCt (C : A ≃+ (Fin n → ℤ)) (x y : Elt w A × Elt w A) : Elt w A × Elt w A :=
  (eltBin C (· + ·) x.1 y.1, eltBin C (· + ·) x.2 y.2)

/-- `DecomposeKeySwitchPattern`, DecomposeLWEOps.cpp:149-300. `keyBasis` is the basis of the
ciphertexts in the key. -/
def keySwitch (C : A ≃+ (Fin n → ℤ)) (keyBasis : List (BitVec w)) (value : Elt w A)
    (ksk : List (Elt w A × Elt w A)) : Except Fail (Elt w A × Elt w A) :=
  let inputBasis := value.map (·.1)
  if keyBasis.length ≤ inputBasis.length then .error .error
  else if keyBasis.take inputBasis.length ≠ inputBasis then .error .error
  else
    let primes := keyBasis.drop inputBasis.length
    let parts := partitions primes.length value
    if ksk.length ≠ parts.length then .error .error
    else
      let extended := parts.map (convertBasis C (inputBasis ++ primes))
      match List.zipWith (mulRingElt C) extended ksk with
      -- `sum` is a null value
      | [] => .error .ub
      | prod :: prods =>
        let sum := prods.foldl (addCt C) prod
        match modDown C keyBasis inputBasis.length [sum.1, sum.2] with
        | .error f => .error f
        | .ok [constTerm, linearTerm] => .ok (constTerm, linearTerm)
        | .ok _ => .error .ub

/-- `DecomposeRelinearizePattern`, DecomposeRelinearize.cpp:25-58. `.error`: the pattern does not
match. -/
def relinearize (C : A ≃+ (Fin n → ℤ)) (keyBasis : List (BitVec w)) (ksk : List (Elt w A × Elt w A)) :
    List (Elt w A) → Except Fail (Elt w A × Elt w A)
  | [c0, c1, c2] => match keySwitch C keyBasis c2 ksk with
    | .error f => .error f
    | .ok ks => .ok (addCt C ks (c0, c1))
  | _ => .error .error

end Heir.Lwe
