import Verif.Tfhe.Lower
import Mathlib.Data.BitVec
import Mathlib.Tactic.Ring

/-!
# Properties of the way to tfhe-rs
-/

namespace Heir.Tfhe

/-! ## Examples -/

namespace Ex

def i8 (n : Nat) : Val := ⟨8, BitVec.ofNat 8 n⟩

/-- `z = (((3 * x) ^ y) - 7) >> 2`, extended to 16 bits; and `max(y, 2 + 2)`. -/
def prog : Prog where
  args := 2
  ops := [.const (i8 3), .bin .mul 2 0, .bin .xor 3 1, .const (i8 7), .bin .sub 4 5, .const (i8 2),
    .bin .shru 6 7, .extui 16 8, .bin .add 7 7, .bin .maxu 1 10]
  rets := [9, 11]

theorem served : prog.Served := by
  simp [Prog.Served, prog, ServedOps, ServedOp, kindOf, Kind.isPlain, i8]

theorem call : prog.call [i8 5, i8 250] = some [⟨16, 0x3B⟩, i8 250] := by decide +kernel

/-- The same without the maximum. -/
def prog' : Prog := ⟨2, prog.ops.take 8, [9]⟩

/-- What becomes of it. -/
def rust : RProg where
  args := 2
  lets := [.lit 3 8, .binLit .mul 0 3 8, .bin .xor 3 1, .lit 7 8, .binLit .sub 4 7 8, .lit 2 8,
    .shr 6 2, .castFrom 16 8]
  rets := [9]

end Ex

/-! ## Conversion to CGGI -/

/-- Programs of additions, subtractions, multiplications, exclusive ors, selections, unsigned minima and
maxima, shifts of fewer than 128 places by constants, comparisons with a ciphertext on the left, and
casts are converted, and compute the same on ciphertexts.  Missing: the rest, see below. -/
theorem C137_cggi_partial {p : Prog} {args zs : List Val} (hs : p.Served) (hz : p.call args = some zs) :
    ∃ c, toCGGI p = some c ∧ c.call unsigned args = some zs := toCGGI_ok hs hz

example : ∃ c, toCGGI Ex.prog = some c ∧
    c.call unsigned [Ex.i8 5, Ex.i8 250] = some [⟨16, 0x3B⟩, Ex.i8 250] :=
  C137_cggi_partial Ex.served Ex.call

/-- `a < b` with a constant `a` becomes `b < a`. -/
theorem C137_violated_compare (B : Backend) :
    ∃ c, (⟨1, [.const (Ex.i8 3), .cmp .slt 1 0], [2]⟩ : Prog).call [Ex.i8 5] = some [bit true] ∧
      toCGGI ⟨1, [.const (Ex.i8 3), .cmp .slt 1 0], [2]⟩ = some c ∧
      c.call B [Ex.i8 5] = some [bit false] :=
  ⟨_, rfl, rfl, rfl⟩

theorem two_meanings {B : Backend} {p q : Prog} {c : CProg} {args zs zs' : List Val}
    (hp : toCGGI p = some c) (hq : toCGGI q = some c) (hz : p.call args = some zs)
    (hz' : q.call args = some zs') (hne : zs ≠ zs') :
    ∃ r ∈ [p, q], ∃ c, toCGGI r = some c ∧ c.call B args ≠ r.call args := by
  by_cases h : c.call B args = some zs
  · refine ⟨q, by simp, c, hq, ?_⟩
    rw [h, hz']
    exact fun h => hne (Option.some.inj h)
  · exact ⟨p, by simp, c, hp, by rw [hz]; exact h⟩

/-- Signed and unsigned maxima become the same operation: whatever it does, it is wrong for one. -/
theorem C137_violated_max (B : Backend) :
    ∃ p ∈ [(⟨2, [.bin .maxs 0 1], [2]⟩ : Prog), ⟨2, [.bin .maxu 0 1], [2]⟩],
      ∃ c, toCGGI p = some c ∧ c.call B [Ex.i8 255, Ex.i8 1] ≠ p.call [Ex.i8 255, Ex.i8 1] :=
  two_meanings (zs := [Ex.i8 1]) (zs' := [Ex.i8 255]) rfl rfl (by decide +kernel) (by decide +kernel)
    (by decide)

theorem C137_violated_min (B : Backend) :
    ∃ p ∈ [(⟨2, [.bin .mins 0 1], [2]⟩ : Prog), ⟨2, [.bin .minu 0 1], [2]⟩],
      ∃ c, toCGGI p = some c ∧ c.call B [Ex.i8 255, Ex.i8 1] ≠ p.call [Ex.i8 255, Ex.i8 1] :=
  two_meanings (zs := [Ex.i8 255]) (zs' := [Ex.i8 1]) rfl rfl (by decide +kernel) (by decide +kernel)
    (by decide)

/-- So do the shifts to the right. -/
theorem C137_violated_shift (B : Backend) :
    ∃ p ∈ [(⟨1, [.const (Ex.i8 1), .bin .shrs 0 1], [2]⟩ : Prog),
        ⟨1, [.const (Ex.i8 1), .bin .shru 0 1], [2]⟩],
      ∃ c, toCGGI p = some c ∧ c.call B [Ex.i8 255] ≠ p.call [Ex.i8 255] :=
  two_meanings (zs := [Ex.i8 255]) (zs' := [Ex.i8 127]) rfl rfl (by decide +kernel) (by decide +kernel)
    (by decide)

/-- So do the extensions. -/
theorem C137_violated_extension (B : Backend) :
    ∃ p ∈ [(⟨1, [.extsi 16 0], [1]⟩ : Prog), ⟨1, [.extui 16 0], [1]⟩],
      ∃ c, toCGGI p = some c ∧ c.call B [Ex.i8 255] ≠ p.call [Ex.i8 255] :=
  two_meanings (zs := [⟨16, 65535⟩]) (zs' := [⟨16, 255⟩]) rfl rfl (by decide +kernel) (by decide +kernel)
    (by decide)

/-- A shift of 200 places has a negative amount. -/
theorem C137_violated_amount (B : Backend) :
    (⟨1, [.const ⟨256, 200⟩, .bin .shl 0 1], [2]⟩ : Prog).call [⟨256, 0⟩] = some [⟨256, 0⟩] ∧
      toCGGI ⟨1, [.const ⟨256, 200⟩, .bin .shl 0 1], [2]⟩ =
        some ⟨1, [.const ⟨256, 200⟩, .shl 0 (-56)], [2]⟩ ∧
      (⟨1, [.const ⟨256, 200⟩, .shl 0 (-56)], [2]⟩ : CProg).call B [⟨256, 0⟩] = none := by
  refine ⟨by decide +kernel, by decide +kernel, rfl⟩

/-- A constant that is shifted is shifted by itself. -/
theorem C137_violated_shifted (B : Backend) :
    ∃ c, (⟨1, [.const (Ex.i8 3), .bin .shl 1 0], [2]⟩ : Prog).call [Ex.i8 1] = some [Ex.i8 6] ∧
      toCGGI ⟨1, [.const (Ex.i8 3), .bin .shl 1 0], [2]⟩ = some c ∧
      c.call B [Ex.i8 1] = some [Ex.i8 24] :=
  ⟨_, rfl, rfl, rfl⟩

/-- A shift by a ciphertext crashes the compiler; conjunctions and disjunctions are not converted. -/
theorem C137_violated_fails :
    toCGGI ⟨2, [.bin .shl 0 1], [2]⟩ = none ∧ toCGGI ⟨2, [.bin .and 0 1], [2]⟩ = none ∧
      toCGGI ⟨2, [.bin .or 0 1], [2]⟩ = none :=
  ⟨rfl, rfl, rfl⟩

/-! ## Conversion to tfhe-rs -/

/-- Programs of CGGI whose negations are of one bit, with constants of at most 64 bits, are converted, and
compute the same whatever the sign of messages.  Missing: negations of integers, see below. -/
theorem C138_tfhe_partial {B : Backend} {p : CProg} {args zs : List Val} (hp : p.Lowered)
    (hz : p.call B args = some zs) : ∃ t, toTfhe p = some t ∧ t.call B args = some zs :=
  toTfhe_ok hp hz

example : ∃ t, toTfhe ⟨2, [.not 1 0, .trivial (Ex.i8 5), .const (Ex.i8 9), .bin .max true 1 4,
      .select 2 3 5], [6]⟩ = some t ∧
    t.call unsigned [⟨1, 0⟩, Ex.i8 200] = some [Ex.i8 5] :=
  C138_tfhe_partial (by simp [CProg.Lowered, LoweredOp, Ex.i8]) (by decide +kernel)

/-- The negation of an integer of two bits or more is wrong for every integer. -/
theorem C138_violated_not (B : Backend) {w : Nat} (hw : 2 ≤ w) (x : BitVec w) :
    ∃ t y, toTfhe ⟨1, [.not w 0], [1]⟩ = some t ∧
      (⟨1, [.not w 0], [1]⟩ : CProg).call B [⟨w, x⟩] = some [⟨w, ~~~x⟩] ∧
      t.call B [⟨w, x⟩] = some [⟨w, y⟩] ∧ y ≠ ~~~x := by
  refine ⟨_, 1 - x, rfl, by simp [CProg.call, runWith, evalCOp, ctAt, messages], ?_, ?_⟩
  · simp [TProg.call, TSt.emit, TSt.put, runWith, evalTOp, ctAt, rightAt, zip, cbinSem, messages]
  · intro h
    have h2 : (2 : BitVec w) = 0 := by
      rw [BitVec.not_eq_neg_add] at h
      have h3 : (1 : BitVec w) - x + x + 1 = -x - 1#w + x + 1 := by rw [h]
      have h4 : (1 : BitVec w) - x + x + 1 = 2 := by ring
      have h5 : -x - (1 : BitVec w) + x + 1 = 0 := by ring
      rw [← h4, h3]
      exact h5
    have := congrArg BitVec.toNat h2
    have hlt : 2 < 2 ^ w := by
      calc 2 < 2 ^ 2 := by decide
        _ ≤ 2 ^ w := Nat.pow_le_pow_right (by omega) hw
    have h4 : (2 : BitVec w).toNat = 2 := by
      show 2 % 2 ^ w = 2
      exact Nat.mod_eq_of_lt hlt
    have h5 : (0 : BitVec w).toNat = 0 := Nat.zero_mod _
    omega

/-! ## Rust -/

/-- The text of a program of additions, subtractions, multiplications, bitwise operations, shifts to the
right and casts type-checks and computes what the program does, if constants and their encryptions are
not negative.  Missing: the rest, see below. -/
theorem C139_rust_partial {p : TProg} {args zs : List Val} (hp : p.Printed)
    (hw : ∀ x ∈ args, x.w ∈ fheWidths) (hz : p.call unsigned args = some zs) :
    ∃ r, printHL p = some r ∧ r.call args = some zs := printHL_ok hp hw hz

/-- From integers to Rust. -/
theorem C139_pipeline_partial {p : Prog} {args zs : List Val} (hs : p.Served)
    (hw : ∀ x ∈ args, x.w ∈ fheWidths) (hz : p.call args = some zs)
    (hl : ∀ c, toCGGI p = some c → c.Lowered)
    (hp : ∀ c t, toCGGI p = some c → toTfhe c = some t → t.Printed) :
    ∃ c t r, toCGGI p = some c ∧ toTfhe c = some t ∧ printHL t = some r ∧ r.call args = some zs := by
  obtain ⟨c, h1, h2⟩ := toCGGI_ok hs hz
  obtain ⟨t, h3, h4⟩ := toTfhe_ok (hl c h1) h2
  obtain ⟨r, h5, h6⟩ := printHL_ok (hp c t h1 h3) hw h4
  exact ⟨c, t, r, h1, h3, h5, h6⟩

namespace Ex

def cggi : CProg := ⟨2, [.const (i8 3), .bin .mul true 0 2, .bin .xor false 3 1, .const (i8 7),
  .bin .sub true 4 5, .const (i8 2), .shr 6 2, .cast 16 8], [9]⟩

def tfhe : TProg := ⟨2, [.const (i8 3), .bin .mul true 0 2, .bin .xor false 3 1, .const (i8 7),
  .bin .sub true 4 5, .const (i8 2), .shr 6 2, .cast 16 8], [9]⟩

theorem toCGGI_eq : toCGGI prog' = some cggi := by decide +kernel
theorem toTfhe_eq : toTfhe cggi = some tfhe := by decide +kernel
theorem printHL_eq : printHL tfhe = some rust := by decide +kernel

theorem printed : tfhe.Printed := by
  simp [TProg.Printed, tfhe, PrintedOps, PrintedOp, constOf, i8, uintWidths, fheWidths]
  decide

end Ex

example : ∃ r, printHL Ex.tfhe = some r ∧ r.call [Ex.i8 5, Ex.i8 250] = some [⟨16, 0x3B⟩] :=
  C139_rust_partial Ex.printed (by decide) (by decide +kernel)

example : ∃ c t r, toCGGI Ex.prog' = some c ∧ toTfhe c = some t ∧ printHL t = some r ∧
    r.call [Ex.i8 5, Ex.i8 250] = some [⟨16, 0x3B⟩] := by
  refine C139_pipeline_partial ?_ (by decide) (by decide +kernel) ?_ ?_
  · simp [Prog.Served, Ex.prog', Ex.prog, ServedOps, ServedOp, kindOf, Kind.isPlain, Ex.i8]
  · intro c hc
    rw [Ex.toCGGI_eq, Option.some.injEq] at hc
    subst hc
    simp [CProg.Lowered, Ex.cggi, LoweredOp]
  · intro c t hc ht
    rw [Ex.toCGGI_eq, Option.some.injEq] at hc
    subst hc
    rw [Ex.toTfhe_eq, Option.some.injEq] at ht
    subst ht
    exact Ex.printed

/-- Constants of one bit are printed as truth values. -/
theorem C139_bool (b : BitVec 1) (consts : List (Option Val)) (env : List RVal) :
    ∃ e, printOp consts (.const ⟨1, b⟩) = some e ∧ evalR env e = some (.bool (b.getLsbD 0)) := by
  refine ⟨.bool (b.getLsbD 0), ?_, rfl⟩
  have : ∀ b : BitVec 1, decide (b.toNat ≠ 0) = b.getLsbD 0 := by decide
  simp only [printOp, printConst, if_true]
  rw [this]

/-- The encryption of a negative constant is printed with its sign, which Rust rejects. -/
theorem C139_violated_negative :
    ∃ r, (⟨0, [.trivial (Ex.i8 251)], [0]⟩ : TProg).call unsigned [] = some [Ex.i8 251] ∧
      printHL ⟨0, [.trivial (Ex.i8 251)], [0]⟩ = some r ∧ r.call [] = none :=
  ⟨⟨0, [.trivialLit 8 (-5) 8], [0]⟩, by decide +kernel, by decide +kernel, by decide +kernel⟩

/-- A negative constant is printed without its sign, and encrypted so. -/
theorem C139_violated_sign :
    ∃ r, (⟨0, [.const (Ex.i8 251), .encode 0], [1]⟩ : TProg).call unsigned [] = some [Ex.i8 251] ∧
      printHL ⟨0, [.const (Ex.i8 251), .encode 0], [1]⟩ = some r ∧ r.call [] = some [Ex.i8 5] :=
  ⟨⟨0, [.lit 5 8, .trivialVar 0], [1]⟩, by decide +kernel, by decide +kernel, by decide +kernel⟩

/-- A constant of 10 bits is printed with the suffix `u10`. -/
theorem C139_violated_width :
    ∃ r, (⟨1, [.const ⟨10, 3⟩, .bin .add true 0 1], [2]⟩ : TProg).call unsigned [⟨10, 4⟩] =
        some [⟨10, 7⟩] ∧
      printHL ⟨1, [.const ⟨10, 3⟩, .bin .add true 0 1], [2]⟩ = some r ∧ r.call [⟨10, 4⟩] = none :=
  ⟨⟨1, [.lit 3 16, .binLit .add 0 3 10], [2]⟩, by decide +kernel, by decide +kernel, by decide +kernel⟩

/-- Shifts to the left, minima, maxima, comparisons and selections have no printer. -/
theorem C139_violated_fails (B : Bool) (p : Pred) (n : Int) (l r c : Nat) :
    printHL ⟨3, [.shl l n], [3]⟩ = none ∧ printHL ⟨3, [.bin .max B l r], [3]⟩ = none ∧
      printHL ⟨3, [.bin .min B l r], [3]⟩ = none ∧ printHL ⟨3, [.cmp p B l r], [3]⟩ = none ∧
      printHL ⟨3, [.select c l r], [3]⟩ = none :=
  ⟨rfl, rfl, rfl, rfl, rfl⟩

end Heir.Tfhe
