import Verif.Noise.Model
import Mathlib.Algebra.Ring.Hom.Defs
import Mathlib.Data.Nat.Cast.Basic
import Mathlib.Data.Int.Cast.Basic

/-! # What noise bounds are for

A BGV ciphertext at the modulus `Q` decrypts by reducing its phase `c₀ + c₁ s + c₂ s² + …` to the representative
modulo `Q` with the smallest coefficients, and that modulo the plaintext modulus.  What an operation of the backend
may do to a ciphertext is given as a relation, with the errors it may add. -/

namespace Heir.Noise

/-- Integer polynomials modulo some polynomial with the size of the largest coefficient; products grow by a factor
of at most `N`. -/
structure Size (R : Type) [CommRing R] (N : Nat) where
  nrm : R → Nat
  add_le : ∀ a b, nrm (a + b) ≤ nrm a + nrm b
  mul_le : ∀ a b, nrm (a * b) ≤ N * nrm a * nrm b
  scale : ∀ (k : Int) (a : R), nrm (k * a) = k.natAbs * nrm a
  pos : ∀ a, nrm a = 0 → a = 0

variable {R : Type} [CommRing R]

/-- Congruence modulo a natural number. -/
def Cong (q : Nat) (a b : R) : Prop := ∃ c, a = b + q * c

/-- The phase of a ciphertext under the key `s`. -/
def phase (s : R) : List R → R
  | [] => 0
  | c :: cs => c + s * phase s cs

/-- The modulus at a level. -/
def modulus (p : Params) (lvl : Nat) : Nat := (p.qi.take (lvl + 1)).prod

/-- The digits of hybrid key switching at a level: `dnum` digits at the top level, each of the same number of
moduli.  `lib/Parameters/RLWEParams.h:58-62`. -/
def digits (p : Params) (lvl : Nat) : Nat :=
  let α := (p.qi.length + p.dnum - 1) / p.dnum
  (min (lvl + 1) p.qi.length + α - 1) / α

/-- The largest coefficient of an error polynomial: six standard deviations. -/
def errLimit (p : Params) : ℚ := 6 * p.std0

variable {N : Nat} (S : Size R N) (p : Params) (s : R)

/-- What public-key encryption adds to the message, divided by the plaintext modulus: `u e + e₁ s + e₀`. -/
def PkError (f : R) : Prop :=
  ∃ u e e₀ e₁, S.nrm u ≤ 1 ∧ (S.nrm e : ℚ) ≤ errLimit p ∧ (S.nrm e₀ : ℚ) ≤ errLimit p ∧
    (S.nrm e₁ : ℚ) ≤ errLimit p ∧ f = u * e + e₁ * s + e₀

/-- What rounding after a division by `P` adds to the phase, times `P`. -/
def Rounding (P : Nat) (r : R) : Prop := ∃ r₀ r₁, 2 * S.nrm r₀ ≤ P ∧ 2 * S.nrm r₁ ≤ P ∧ r = r₀ + r₁ * s

/-- The error of a fresh ciphertext: `lib/Analysis/NoiseAnalysis/BGV/NoiseByBoundCoeffModel.cpp:103-106`,
`116-118`, `128-130`.  With the extended technique an encryption of zero at a larger modulus is divided by the
special modulus, which is at least as large as the modulus of any level. -/
def FreshError (lvl : Nat) (f : R) : Prop :=
  if p.extended then ∃ P r g, PkError S p s g ∧ 0 < P ∧ (∀ q ∈ p.qi[lvl]?, q ≤ P) ∧ Rounding S s P r ∧ P * f = g + r
  else if p.usePublicKey then PkError S p s f
  else (S.nrm f : ℚ) ≤ errLimit p

/-- The error of key switching, divided by the plaintext modulus: products of digits and errors of the key are
divided by the special modulus `P`, which is at least as large as a digit. -/
def SwitchError (lvl : Nat) (k : R) : Prop :=
  ∃ P D, ∃ ds : List (R × R), ∃ r, 0 < P ∧ D ≤ P ∧ ds.length ≤ digits p lvl ∧
    (∀ d ∈ ds, 2 * S.nrm d.1 ≤ D ∧ (S.nrm d.2 : ℚ) ≤ errLimit p) ∧ Rounding S s P r ∧
    P * k = (ds.map fun d => d.1 * d.2).sum + r

/-- The values of a program run on ciphertexts: every secret value is a tensor of ciphertexts, every other one a
tensor of plaintexts, and both stand for messages. -/
structure Values (R : Type) where
  ct : Nat → Nat → List R
  pt : Nat → Nat → R
  msg : Nat → Nat → R

variable (rot : Nat → R → R) (t : Nat → Fact) (V : Values R)

/-- The phase of a secret value, the encoding of another one. -/
def Values.at (V : Values R) (s : R) (t : Nat → Fact) (v i : Nat) : R :=
  if (t v).sec then phase s (V.ct v i) else V.pt v i

/-- What the backend does for an operation with a secret result. -/
def Performs (op : Op) : Prop :=
  let a := op.args.getD 0 0
  let b := op.args.getD 1 0
  let Q := modulus p op.lvl
  let ph := fun v i => phase s (V.ct v i)
  match op.kind with
  | .add => ∀ i, Cong Q (ph op.res i) (V.at s t a i + V.at s t b i) ∧ Cong p.t (V.msg op.res i) (V.msg a i + V.msg b i)
  | .sub => ∀ i, Cong Q (ph op.res i) (V.at s t a i - V.at s t b i) ∧ Cong p.t (V.msg op.res i) (V.msg a i - V.msg b i)
  | .mul => ∀ i, Cong Q (ph op.res i) (V.at s t a i * V.at s t b i) ∧ Cong p.t (V.msg op.res i) (V.msg a i * V.msg b i)
  | .rotate k => ∀ i, ∃ e, SwitchError S p s (t a).lvl e ∧ Cong Q (ph op.res i) (rot k (ph a i) + p.t * e) ∧
      Cong p.t (V.msg op.res i) (rot k (V.msg a i))
  | .adjust => ∀ i, ∃ c : R, 2 * S.nrm c ≤ p.t ∧ Cong Q (ph op.res i) (ph a i * c) ∧
      Cong p.t (V.msg op.res i) (V.msg a i * c)
  | .modReduce => ∀ i, ∀ q ∈ p.qi[(t a).lvl]?, ∃ r, Rounding S s q r ∧
      Cong (modulus p (t a).lvl) (q * ph op.res i) (ph a i + p.t * r) ∧ Cong p.t (q * V.msg op.res i) (V.msg a i)
  | .levelReduce => ∀ i, Cong Q (ph op.res i) (ph a i) ∧ Cong p.t (V.msg op.res i) (V.msg a i)
  | .relinearize => ∀ i, ∃ e, SwitchError S p s (t a).lvl e ∧ Cong Q (ph op.res i) (ph a i + p.t * e) ∧
      Cong p.t (V.msg op.res i) (V.msg a i)
  | .pick => ∀ i, ∃ c ∈ op.args, (t c).sec = true ∧ ∃ j, V.ct op.res i = V.ct c j ∧ V.msg op.res i = V.msg c j

/-- A run of the program: arguments are fresh ciphertexts, plaintexts are encoded with small coefficients, and
every operation is performed. -/
structure Runs (g : Prog) : Prop where
  key : S.nrm s ≤ 1
  fresh : ∀ x, x < g.nargs → (t x).sec = true → ∀ i, ∃ m f, 2 * S.nrm m ≤ p.t ∧ FreshError S p s (t x).lvl f ∧
    Cong p.t m (V.msg x i) ∧ Cong (modulus p (t x).lvl) (phase s (V.ct x i)) (m + p.t * f)
  plain : ∀ x i, (t x).sec = false → 2 * S.nrm (V.pt x i) ≤ p.t ∧ Cong p.t (V.pt x i) (V.msg x i)
  ops : ∀ op ∈ g.ops, (t op.res).sec = true → Performs S p s rot t V op

/-- Rotations are ring homomorphisms that move coefficients around. -/
def Rotations (S : Size R N) (rot : Nat → R → R) : Prop :=
  ∀ k, (∀ a b, rot k (a + b) = rot k a + rot k b) ∧ (∀ (n : Nat) a, rot k (n * a) = n * rot k a) ∧
    ∀ a, S.nrm (rot k a) ≤ S.nrm a

/-- Each value is defined once, before its uses, with the operands its kind needs. -/
def SSA : (Nat → Prop) → List Op → Prop
  | _, [] => True
  | P, op :: ops =>
    (∀ a ∈ op.args, P a) ∧ ¬ P op.res ∧
      (op.kind = .add ∨ op.kind = .sub ∨ op.kind = .mul → op.args.length = 2) ∧
      (op.kind ≠ .add ∧ op.kind ≠ .sub ∧ op.kind ≠ .mul ∧ op.kind ≠ .pick → op.args.length = 1) ∧
      SSA (fun v => P v ∨ v = op.res) ops

/-- The levels are managed: secret operands are at the level of the result, except that a modulus reduction goes
down by one and a level reduction by any number. -/
def Managed (t : Nat → Fact) (g : Prog) : Prop :=
  ∀ op ∈ g.ops, (t op.res).sec = true → ∀ a ∈ op.args, (t a).sec = true →
    match op.kind with
    | .modReduce => (t a).lvl = op.lvl + 1
    | .levelReduce => op.lvl ≤ (t a).lvl
    | _ => (t a).lvl = op.lvl

/-- Parameters that make sense: the ring dimension is even, the moduli are positive and prime to the plaintext
modulus. -/
structure Params.Good (p : Params) : Prop where
  even : 2 ∣ p.ringDim
  t : 0 < p.t
  std0 : 0 ≤ p.std0
  qi : ∀ q ∈ p.qi, 0 < q ∧ Nat.Coprime q p.t

/-- The bound on the errors of public-key encryption leaves room for half a unit, because errors are integers: it does
for a deviation of 3.2, and with the extended technique when the moduli are larger than the errors. -/
def Params.Slack (p : Params) : Prop :=
  if p.extended then ∀ q ∈ p.qi, 2 * (errLimit p * (1 + 2 * p.ringDim)) < q
  else p.usePublicKey = true ∧ ∃ b : Nat, errLimit p < b + 1 ∧ b * (1 + 2 * p.ringDim) + 1 / 2 ≤ errLimit p * (1 + 2 * p.ringDim)

/-- The operations that inherit noise have one secret operand. -/
def PicksOne (t : Nat → Fact) (g : Prog) : Prop :=
  ∀ op ∈ g.ops, op.kind = .pick → ∀ a ∈ op.args, ∀ b ∈ op.args, (t a).sec = true → (t b).sec = true → a = b

/-- A value of the program. -/
def Prog.Value (g : Prog) (v : Nat) : Prop := v < g.nargs ∨ ∃ op ∈ g.ops, op.res = v

/-- The value depends on its arguments through additions, subtractions, multiplications or adjustments only: it is
no fresh ciphertext, nor one that was merely rotated, reduced, switched or picked. -/
def computedStep (t : Nat → Fact) (c : Nat → Bool) (op : Op) : Bool :=
  match op.kind with
  | .add | .sub | .mul | .adjust => true
  | _ => op.args.all fun a => !(t a).sec || c a

/-- The values with an addition, subtraction, multiplication or adjustment on every path from the arguments. -/
def computed (t : Nat → Fact) (g : Prog) : Nat → Bool := run (computedStep t) g.ops fun _ => false

/-- Decryption of the ciphertexts of a value gives its messages: the representative modulo `Q` with the smallest
coefficients is congruent to the message modulo the plaintext modulus. -/
def Decrypts (S : Size R N) (p : Params) (s : R) (t : Nat → Fact) (V : Values R) (v : Nat) : Prop :=
  ∀ i, (∃ x, Cong (modulus p (t v).lvl) (phase s (V.ct v i)) x ∧ 2 * S.nrm x ≤ modulus p (t v).lvl) ∧
    ∀ x, Cong (modulus p (t v).lvl) (phase s (V.ct v i)) x → 2 * S.nrm x ≤ modulus p (t v).lvl →
      Cong p.t x (V.msg v i)

end Heir.Noise
