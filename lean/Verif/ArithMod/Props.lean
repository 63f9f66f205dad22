import Verif.ArithMod.Lemmas

/-!
# C144–C145: `--arith-to-mod-arith`
-/

namespace Heir.ArithMod

open Heir.ModArith

/-! ## C144: the natural modulus -/

/-- C144; missing: the modulus is `2^(w-1)` and not `2^w`, so the top bit of the result is
lost (`C144_violated_top`); extensions are right for the middle half of the range only
(`C144_violated_extui`, `C144_violated_extsi`, `C144_violated_i1`) and not for negative
constants and loads (`C144_violated_load`).

Every program of additions, subtractions and multiplications on integers of 1 to 64 bits is
converted, and what it computes agrees with the source modulo `2^(w-1)`, also for constants
and loads that are not below the modulus. -/
theorem C144_agrees_partial {ρ : Env} {σ : Store} (hs : Hands ρ σ fun w => 2 ^ (w - 1)) {w : Nat}
    (e : E w) (hw : e.Widths fun w => 1 ≤ w ∧ w ≤ 64) (hn : e.NoRem) (hf : e.Fits ρ) :
    ∃ r, exec 0 σ e = some r ∧
      (r.toNat : Int) ≡ (e.eval ρ).toNat [ZMOD 2 ^ (w - 1)] ∧
      (e.raw = false → r.toNat = (e.eval ρ).toNat % 2 ^ (w - 1)) := by
  obtain ⟨p, r, h1, h2, h3, h4, -⟩ := default_inv hs e hw hn hf
  refine ⟨r, by rw [exec, h1, Option.bind_some, h2], h3, fun h => ?_⟩
  have h5 : r.toNat ≡ (e.eval ρ).toNat [MOD 2 ^ (w - 1)] := by
    rw [← Int.natCast_modEq_iff]; push_cast; exact h3
  rw [← h5, Nat.mod_eq_of_lt (h4 h)]

/-- The values used in the examples: every argument is `x` and every load `y`. -/
def env (x y : Int) : Env := ⟨fun w _ => BitVec.ofInt w x, fun w _ => BitVec.ofInt w y⟩

/-- The store handed over for `env x y` when the modulus is `q w`. -/
def store (x y : Int) (q : Nat → Nat) : Store :=
  ⟨fun w _ => (BitVec.ofInt w x).toNat % q w, fun w _ => BitVec.ofInt w y⟩

theorem hands (x y : Int) (q : Nat → Nat) : Hands (env x y) (store x y q) q :=
  ⟨fun _ _ => rfl, fun _ _ => rfl⟩

/-- `extsi ((x - load) * 3) + (-5)` from 8 to 16 bits. -/
def ex1 : E 16 :=
  .bin .add (.ext true 16 (by decide)
    (.bin .mul (.bin .sub (.arg 8 0) (.load 8 0)) (.const false 3#8))) (.const false (-5#16))

example : ex1.Widths (fun w => 1 ≤ w ∧ w ≤ 64) ∧ ex1.NoRem ∧ ex1.Fits (env 7 (-9)) ∧
    (ex1.eval (env 7 (-9))).toNat = 43 ∧
    (exec 0 (store 7 (-9) fun w => 2 ^ (w - 1)) ex1).map BitVec.toNat = some 43 := by
  refine ⟨?_, ?_, ?_, by decide +kernel, by decide +kernel⟩
  · simp [ex1, E.Widths]
  · simp [ex1, E.NoRem]
  · simp only [ex1, E.Fits, E.raw]; decide +kernel

/-- Remainders of integers are not converted: the pass fails whatever the modulus. -/
theorem C144_rejects (m : Int) {w : Nat} (e : E w) (h : ¬ e.NoRem) : conv m e = none := by
  induction e with
  | arg => exact absurd trivial h
  | load => exact absurd trivial h
  | const => exact absurd trivial h
  | @bin w k a b iha ihb =>
    rw [conv]
    cases convType m w with
    | none => rfl
    | some q =>
      rw [Option.bind_some]
      cases ha : conv m a with
      | none => rfl
      | some a' =>
        rw [Option.bind_some]
        cases hb : conv m b with
        | none => rfl
        | some b' =>
          rw [Option.bind_some]
          have na : a.NoRem := by
            by_contra hc; rw [iha hc] at ha; cases ha
          have nb : b.NoRem := by
            by_contra hc; rw [ihb hc] at hb; cases hb
          cases k with
          | remu => rfl
          | add => exact absurd ⟨by decide, na, nb⟩ h
          | sub => exact absurd ⟨by decide, na, nb⟩ h
          | mul => exact absurd ⟨by decide, na, nb⟩ h
  | @ext v s w hvw a ih =>
    rw [conv, ih h]
    cases convType m v with
    | none => rfl
    | some q => cases convType m w <;> rfl

example : ¬ (E.bin .remu (.arg 8 0) (.const false 3#8)).NoRem := by simp [E.NoRem]

/-- C144 violated: whatever is computed loses its top bit, since the modulus is half of the
natural one. -/
theorem C144_violated_top {ρ : Env} {σ : Store} (hs : Hands ρ σ fun w => 2 ^ (w - 1)) {w : Nat}
    (e : E w) (hw : e.Widths fun w => 1 ≤ w ∧ w ≤ 64) (hn : e.NoRem) (hf : e.Fits ρ)
    (hr : e.raw = false) (ht : 2 ^ (w - 1) ≤ (e.eval ρ).toNat) :
    ∃ r, exec 0 σ e = some r ∧ r.toNat + 2 ^ (w - 1) = (e.eval ρ).toNat := by
  obtain ⟨r, h1, -, h2⟩ := C144_agrees_partial hs e hw hn hf
  refine ⟨r, h1, ?_⟩
  rw [h2 hr]
  have hlt := (e.eval ρ).isLt
  have h1w : 1 ≤ w := (widths_self e hw).1
  have : 2 ^ w = 2 * 2 ^ (w - 1) := by
    rw [← pow_succ']; congr 1; omega
  rw [Nat.mod_eq_sub_mod ht, Nat.mod_eq_of_lt (by omega)]
  omega

/-- `100 + 100 : i8` is 200 and becomes 72. -/
example : ((E.bin .add (.arg 8 0) (.arg 8 1)).eval (env 100 0)).toNat = 200 ∧
    (exec 0 (store 100 0 fun w => 2 ^ (w - 1)) (.bin .add (.arg 8 0) (.arg 8 1))).map BitVec.toNat
      = some 72 := by decide +kernel

/-- C144 violated: `extui` of 100 from 8 to 16 bits becomes `100 - 128` modulo `2^15`. -/
theorem C144_violated_extui :
    ((E.ext false 16 (by decide) (.arg 8 0)).eval (env 100 0)).toNat = 100 ∧
    (exec 0 (store 100 0 fun w => 2 ^ (w - 1)) (.ext false 16 (by decide) (.arg 8 0))).map
      BitVec.toNat = some 32740 := by decide +kernel

/-- C144 violated: so does `extsi`. -/
theorem C144_violated_extsi :
    ((E.ext true 16 (by decide) (.arg 8 0)).eval (env 100 0)).toNat = 100 ∧
    (exec 0 (store 100 0 fun w => 2 ^ (w - 1)) (.ext true 16 (by decide) (.arg 8 0))).map
      BitVec.toNat = some 32740 := by decide +kernel

/-- C144 violated: the modulus for `i1` is 1, so a truth value is always 0; and its extension
is then not 0 but -1. -/
theorem C144_violated_i1 :
    (∀ x, (exec 0 (store x 0 fun w => 2 ^ (w - 1)) (.arg 1 0)).map BitVec.toNat = some 0) ∧
    ∀ x, (exec 0 (store x 0 fun w => 2 ^ (w - 1)) (.ext false 8 (by decide) (.arg 1 0))).map
      BitVec.toNat = some 127 := by
  have key : ∀ x, store x 0 (fun w => 2 ^ (w - 1)) |>.arg 1 0 |> (· = 0) := by
    intro x; simp [store, Nat.mod_one]
  constructor
  · intro x
    have : exec 0 (store x 0 fun w => 2 ^ (w - 1)) (.arg 1 0)
        = some (BitVec.ofNat _ ((store x 0 fun w => 2 ^ (w - 1)).arg 1 0)) := rfl
    rw [this, key x]; rfl
  · intro x
    have : exec 0 (store x 0 fun w => 2 ^ (w - 1)) (.ext false 8 (by decide) (.arg 1 0))
        = lowerModSwitch (1#2) (128#9)
          (BitVec.ofNat _ ((store x 0 fun w => 2 ^ (w - 1)).arg 1 0)) := rfl
    rw [this, key x]; decide +kernel

/-- C144 violated: a negative load is not reduced before it is extended: -1 becomes 127. -/
theorem C144_violated_load :
    ((E.ext true 16 (by decide) (.load 8 0)).eval (env 0 (-1))).toInt = -1 ∧
    (exec 0 (store 0 (-1) fun w => 2 ^ (w - 1)) (.ext true 16 (by decide) (.load 8 0))).map
      BitVec.toNat = some 127 := by decide +kernel

/-! ## C145: a given modulus -/

/-- C145; missing: constants and loads that are not below the modulus
(`C145_violated_unreduced`), negative constants (`C145_violated_negative`), loads of 64 bits
(`C145_violated_load64`).

With a given modulus below `2^63` the program computes the value of the source over the
integers, reduced. -/
theorem C145_exact_partial {ρ : Env} {σ : Store} {m : Nat} (hm0 : 0 < m) (hm : m < 2 ^ 63)
    (hs : Hands ρ σ fun _ => m) {w : Nat} (e : E w) (hn : e.NoRem) (hb : e.Below ρ m) :
    ∃ r, exec (m : Int) σ e = some r ∧ (r.toNat : Int) = e.exact ρ % m := by
  obtain ⟨p, r, h1, h2, h3⟩ := user_inv hm0 hm hs e hn hb
  exact ⟨r, by rw [exec, h1, Option.bind_some, h2], h3⟩

/-- What a program computes is its value over the integers when nothing wraps. -/
theorem exact_eq_eval {ρ : Env} {w : Nat} (e : E w) (hn : e.NoRem) (hx : e.NoWrap ρ) :
    e.exact ρ = (e.eval ρ).toNat := by
  induction e with
  | arg => rfl
  | load => rfl
  | const => rfl
  | @bin w k a b iha ihb =>
    have h := eval_bin_modEq k hn.1 ρ a b
    have ha := iha hn.2.1 hx.1
    have hb := ihb hn.2.2 hx.2.1
    have e1 : (E.bin k a b).exact ρ % 2 ^ w = (((E.bin k a b).eval ρ).toNat : Int) % 2 ^ w := by
      rw [h.eq]
      cases k with
      | add => simp only [E.exact, ha, hb]
      | sub => simp only [E.exact, ha, hb]
      | mul => simp only [E.exact, ha, hb]
      | remu => exact absurd rfl hn.1
    rw [Int.emod_eq_of_lt hx.2.2.1 hx.2.2.2, Int.emod_eq_of_lt (by omega)
      (by exact_mod_cast ((E.bin k a b).eval ρ).isLt)] at e1
    exact e1
  | @ext v s w hvw a ih =>
    have ha := ih hn hx.1
    have hlt : (a.eval ρ).toNat < 2 ^ w := (a.eval ρ).isLt.trans_le
      (Nat.pow_le_pow_right (by norm_num) hvw.le)
    cases s with
    | false =>
      simp only [E.exact, E.eval, BitVec.toNat_setWidth]
      rw [ha, Nat.mod_eq_of_lt hlt]
    | true =>
      simp only [E.exact, E.eval]
      have h2 := hx.2 rfl
      have hm : (a.eval ρ).msb = false := by
        rw [BitVec.msb_eq_false_iff_two_mul_lt]
        rw [ha] at h2; exact_mod_cast h2
      rw [BitVec.signExtend_eq_setWidth_of_msb_false hm, BitVec.toNat_setWidth, ha,
        Nat.mod_eq_of_lt hlt]

/-- C145; missing as in `C145_exact_partial`: when no operation of the source leaves the range
of its type, the program computes the source's value, reduced. -/
theorem C145_agrees_partial {ρ : Env} {σ : Store} {m : Nat} (hm0 : 0 < m) (hm : m < 2 ^ 63)
    (hs : Hands ρ σ fun _ => m) {w : Nat} (e : E w) (hn : e.NoRem) (hb : e.Below ρ m)
    (hx : e.NoWrap ρ) :
    ∃ r, exec (m : Int) σ e = some r ∧ r.toNat = (e.eval ρ).toNat % m := by
  obtain ⟨r, h1, h2⟩ := C145_exact_partial hm0 hm hs e hn hb
  rw [exact_eq_eval e hn hx] at h2
  exact ⟨r, h1, by exact_mod_cast h2⟩

/-- `extui ((x - load) * 3) + 500` from 8 to 16 bits. -/
def ex2 : E 16 :=
  .bin .add (.ext false 16 (by decide)
    (.bin .mul (.bin .sub (.arg 8 0) (.load 8 0)) (.const false 3#8))) (.const true (500#16))

example : ex2.NoRem ∧ ex2.Below (env 90 10) 7681 ∧ ex2.NoWrap (env 90 10) ∧
    (ex2.eval (env 90 10)).toNat = 740 ∧ ex2.exact (env 90 10) = 740 ∧
    (exec 7681 (store 90 10 fun _ => 7681) ex2).map BitVec.toNat = some 740 := by
  refine ⟨?_, ?_, ?_, by decide +kernel, by decide +kernel, by decide +kernel⟩
  · simp [ex2, E.NoRem]
  · simp only [ex2, E.Below]; decide +kernel
  · simp only [ex2, E.NoWrap]; decide +kernel

/-- Negative moduli are not accepted. -/
theorem C145_rejects {m : Int} (h0 : -(2 ^ 63) ≤ m) (h : m < 0) {w : Nat} (e : E w) :
    conv m e = none := by
  have hm : m ≠ 0 := by omega
  have key : ∀ w, convType m w = none := by
    intro w
    have hs : storageWidth m w = 64 := by rw [storageWidth, if_neg hm]
    have e3 : typeVerify ((BitVec.ofInt 64 m).setWidth (storageWidth m w)) = false := by
      rw [typeVerify, decide_eq_false_iff_not, Nat.size_le, BitVec.toNat_setWidth, hs,
        BitVec.toNat_ofInt]
      omega
    simp only [convType, modulusWord, hm, if_false, Option.bind_some, e3, Bool.false_eq_true]
  cases e with
  | arg => rw [conv, key]; rfl
  | load => rw [conv, key]; rfl
  | const => rw [conv, key]; rfl
  | bin => rw [conv, key]; rfl
  | ext => rw [conv, key]; rfl

example : conv (-7) (.arg 8 0) = none := C145_rejects (by decide) (by decide) _

/-- C145 violated: a load that is not below the modulus is subtracted wrongly: `0 - 200`
modulo 17 is 4 and the program computes 5. -/
theorem C145_violated_unreduced :
    (E.bin .sub (.arg 8 0) (.load 8 0)).exact (env 0 200) % 17 = 4 ∧
    (exec 17 (store 0 200 fun _ => 17) (.bin .sub (.arg 8 0) (.load 8 0))).map BitVec.toNat
      = some 5 := by decide +kernel

/-- C145 violated: `5 * (-1) + 6` is 1 in the source, and something else in either form: a
scalar -1 of 8 bits becomes 255, an element of a dense constant becomes `2^64 - 1`. -/
theorem C145_violated_negative :
    let e := fun dense => E.bin .add (.bin .mul (.arg 8 0) (.const dense (-1#8))) (.const false 6#8)
    (∀ dense, ((e dense).eval (env 5 0)).toNat = 1) ∧
    (exec 7681 (store 5 0 fun _ => 7681) (e false)).map BitVec.toNat = some 1281 ∧
    (exec 7681 (store 5 0 fun _ => 7681) (e true)).map BitVec.toNat = some 4778 := by
  decide +kernel

/-- C145 violated: no program that loads integers of 64 bits is converted, since
`arith.extui` cannot extend them to 64 bits. -/
theorem C145_violated_load64 {m : Int} (hm : m ≠ 0) (i : Nat) : conv m (.load 64 i) = none := by
  have hs : ¬ 64 < storageWidth m 64 := by rw [storageWidth, if_neg hm]; decide
  rw [conv]
  cases convType m 64 with
  | none => rfl
  | some q => rw [Option.bind_some, if_neg hs]

end Heir.ArithMod
