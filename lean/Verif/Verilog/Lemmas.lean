import Verif.Verilog.Spec
import Mathlib.Tactic.Ring
import Mathlib.Tactic.Linarith

/-!
# The meaning of what is emitted, operation by operation
-/

namespace Heir.Verilog

/-- An expression that carries `b` on `w` bits, whatever the sign of the context. -/
def Opnd (d : Decls) (env : Env) (e : Expr) (w : Nat) (b : BitVec w) : Prop :=
  size d e = w ∧ sgn d e = (w != 1) ∧ (∀ S, eval d env e w S = some b) ∧ 0 < w

theorem extend_self (S : Bool) {w : Nat} (v : BitVec w) : extend S v w = v := by
  unfold extend
  split
  · exact BitVec.signExtend_eq v
  · exact BitVec.setWidth_eq v

theorem driven_of {d : Decls} {env : Env} {e : Expr} {w : Nat} {v : BitVec w}
    (hs : size d e = w) (h : eval d env e w (sgn d e) = some v) :
    driven d env w e = some v.toNat := by
  unfold driven
  rw [hs, Nat.max_self, h]
  simp

/-! ## Binary operations -/

theorem size_emitBin {d : Decls} {env : Env} {a b : Expr} {w : Nat} {x y : BitVec w} (o : IOp)
    (ha : Opnd d env a w x) (hb : Opnd d env b w y) :
    size d (emitBin o a b) = w ∧ sgn d (emitBin o a b) = (w != 1) := by
  cases o <;> simp [emitBin, size, sgn, ha.1, hb.1, ha.2.1, hb.2.1]

theorem sdiv_one (x y : BitVec 1) (h : ¬(y = 0 ∨ (x = BitVec.intMin 1 ∧ y = -1))) :
    x.udiv y = x.sdiv y := by
  revert x y; decide

theorem srem_one (x y : BitVec 1) (h : ¬y = 0) : x.umod y = x.srem y := by
  revert x y; decide

theorem arith_div {w : Nat} {x y c : BitVec w} (h : iopSem .divsi x y = some c) :
    arith .div (w != 1) x y = some c := by
  simp only [iopSem] at h
  split at h
  · simp at h
  · rename_i hn
    have hy : ¬ y = 0 := fun hy => hn (Or.inl hy)
    simp only [arith, hy, if_false]
    by_cases hw : w = 1
    · subst hw
      rw [← h]
      simp [← sdiv_one x y hn]
    · rw [← h]; simp [hw]

theorem arith_rem {w : Nat} {x y c : BitVec w} (h : iopSem .remsi x y = some c) :
    arith .rem (w != 1) x y = some c := by
  simp only [iopSem] at h
  split at h
  · simp at h
  · rename_i hy
    simp only [arith, hy, if_false]
    by_cases hw : w = 1
    · subst hw
      rw [← h]
      simp [← srem_one x y hy]
    · rw [← h]; simp [hw]

theorem toInt_lt_one (x y : BitVec 1) (h : x.toNat = y.toNat) : x = y := BitVec.eq_of_toNat_eq h

/-- The comparison of the operands as the context sees them. -/
theorem eval_cmp {d : Decls} {env : Env} {a b : Expr} {w : Nat} {x y : BitVec w} (o : Cmp)
    (ha : Opnd d env a w x) (hb : Opnd d env b w y) (W : Nat) (S : Bool) :
    eval d env (.cmp o a b) W S = some (extend S (BitVec.ofBool (compare o (w != 1) x y)) W) := by
  simp only [eval]
  rw [ha.1, hb.1, ha.2.1, hb.2.1, Nat.max_self, Bool.and_self, ha.2.2.1, hb.2.2.1]
  rfl

theorem ofBool_ne_zero (r : Bool) : (BitVec.ofBool r ≠ 0) ↔ r = true := by
  cases r <;> decide

theorem eval_tern_cmp {d : Decls} {env : Env} {a b : Expr} {w : Nat} {x y : BitVec w} (o : Cmp)
    (ha : Opnd d env a w x) (hb : Opnd d env b w y) (S : Bool) :
    eval d env (.tern (.cmp o a b) a b) w S =
      some (if compare o (w != 1) x y then x else y) := by
  simp only [eval.eq_8, size, sgn, eval_cmp o ha hb, Option.bind_some, extend_self,
    ha.2.2.1, hb.2.2.1]
  cases compare o (w != 1) x y <;> rfl

theorem emitBin_correct {d : Decls} {env : Env} {a b : Expr} {w : Nat} {x y c : BitVec w} (o : IOp)
    (ha : Opnd d env a w x) (hb : Opnd d env b w y) (h : iopSem o x y = some c)
    (hg : (o = .maxsi ∨ o = .minsi) → w = 1 → x.toNat = y.toNat) :
    eval d env (emitBin o a b) w (w != 1) = some c := by
  have hsh : ∀ (so : ShiftOp), eval d env (.shift so a b) w (w != 1) =
      some (shiftBy so (w != 1) x y.toNat) := by
    intro so
    simp only [eval]
    rw [hb.1, hb.2.1, ha.2.2.1, hb.2.2.1]
    rfl
  have hbin : ∀ (ao : Arith), eval d env (.bin ao a b) w (w != 1) = arith ao (w != 1) x y := by
    intro ao
    simp only [eval]
    rw [ha.2.2.1, hb.2.2.1]
    rfl
  cases o
  case addi => simpa [emitBin, hbin, arith, iopSem] using h
  case subi => simpa [emitBin, hbin, arith, iopSem] using h
  case muli => simpa [emitBin, hbin, arith, iopSem] using h
  case divsi => rw [emitBin, hbin]; exact arith_div h
  case remsi => rw [emitBin, hbin]; exact arith_rem h
  case andi => simpa [emitBin, hbin, arith, iopSem] using h
  case xori => simpa [emitBin, hbin, arith, iopSem] using h
  case shli =>
    simp only [iopSem] at h
    split at h
    · rw [emitBin, hsh]; exact h
    · simp at h
  case shrsi =>
    simp only [iopSem] at h
    split at h
    · rename_i hlt
      rw [emitBin, hsh, ← h]
      by_cases hw : w = 1
      · subst hw
        have h0 : y.toNat = 0 := by omega
        rw [h0]
        simp [shiftBy]
      · simp [shiftBy, hw]
    · simp at h
  case shrui =>
    simp only [iopSem] at h
    split at h
    · rw [emitBin, hsh]; exact h
    · simp at h
  case maxsi =>
    rw [emitBin, eval_tern_cmp .gt ha hb]
    simp only [iopSem] at h
    rw [← h]
    by_cases hw : w = 1
    · have hxy := BitVec.eq_of_toNat_eq (hg (Or.inl rfl) hw)
      subst hxy; simp
    · simp only [compare, bne_iff_ne, ne_eq, hw, not_false_eq_true, if_true, BitVec.slt_iff_toInt_lt]
      split
      · rename_i h1; rw [if_neg (by omega)]
      · rename_i h1
        split
        · rfl
        · rename_i h2
          rw [BitVec.eq_of_toInt_eq (x := x) (y := y) (by omega)]
  case minsi =>
    rw [emitBin, eval_tern_cmp .lt ha hb]
    simp only [iopSem] at h
    rw [← h]
    by_cases hw : w = 1
    · have hxy := BitVec.eq_of_toNat_eq (hg (Or.inr rfl) hw)
      subst hxy; simp
    · simp only [compare, bne_iff_ne, ne_eq, hw, not_false_eq_true, if_true, BitVec.slt_iff_toInt_lt]

/-! ## Comparisons -/

theorem ule_iff {w : Nat} (x y : BitVec w) : x.ule y = decide (x.toNat ≤ y.toNat) := rfl

theorem cmp_signed {w : Nat} (p : Pred) (x y : BitVec w) (hk : kindOf p ≠ .unsigned)
    (hw : kindOf p = .signed → w = 1 → x.toNat = y.toNat) :
    compare (emitPred p) (w != 1) x y = predSem p x y := by
  have heq : (x == y) = decide (x.toNat = y.toNat) := by
    by_cases h : x = y
    · simp [h]
    · have : x.toNat ≠ y.toNat := fun hh => h (BitVec.eq_of_toNat_eq hh)
      simp [h, this]
  have hne : (x != y) = decide (x.toNat ≠ y.toNat) := by
    rw [bne, heq]; simp
  by_cases h1 : w = 1
  · cases p
    case eq => exact heq
    case ne => exact hne
    case ult => exact absurd rfl hk
    case ule => exact absurd rfl hk
    case ugt => exact absurd rfl hk
    case uge => exact absurd rfl hk
    all_goals
      have hxy := BitVec.eq_of_toNat_eq (hw rfl h1)
      subst hxy
      simp [emitPred, compare, predSem, BitVec.ult, BitVec.ule, h1]
  · have hb : (w != 1) = true := by simpa using h1
    rw [hb]
    cases p
    case eq => exact heq
    case ne => exact hne
    case ult => exact absurd rfl hk
    case ule => exact absurd rfl hk
    case ugt => exact absurd rfl hk
    case uge => exact absurd rfl hk
    all_goals rfl

theorem toInt_lt_iff {w : Nat} (x y : BitVec w) (h : x.msb = y.msb) :
    (x.toInt < y.toInt ↔ x.toNat < y.toNat) := by
  rw [BitVec.toInt_eq_msb_cond, BitVec.toInt_eq_msb_cond, h]
  split <;> omega

theorem toInt_le_iff {w : Nat} (x y : BitVec w) (h : x.msb = y.msb) :
    (x.toInt ≤ y.toInt ↔ x.toNat ≤ y.toNat) := by
  rw [BitVec.toInt_eq_msb_cond, BitVec.toInt_eq_msb_cond, h]
  split <;> omega

theorem cmp_unsigned {w : Nat} (p : Pred) (x y : BitVec w) (hk : kindOf p = .unsigned)
    (hm : w ≠ 1 → x.msb = y.msb) :
    compare (emitPred p) (w != 1) x y = predSem p x y := by
  by_cases h1 : w = 1
  · have hb : (w != 1) = false := by simpa using h1
    rw [hb]
    cases p <;> first | (exact absurd hk (by decide)) | rfl
  · have hb : (w != 1) = true := by simpa using h1
    have hm := hm h1
    rw [hb]
    cases p
    case ult =>
      show decide (x.toInt < y.toInt) = decide (x.toNat < y.toNat)
      exact decide_eq_decide.mpr (toInt_lt_iff x y hm)
    case ule =>
      show decide (x.toInt ≤ y.toInt) = decide (x.toNat ≤ y.toNat)
      exact decide_eq_decide.mpr (toInt_le_iff x y hm)
    case ugt =>
      show decide (y.toInt < x.toInt) = decide (y.toNat < x.toNat)
      exact decide_eq_decide.mpr (toInt_lt_iff y x hm.symm)
    case uge =>
      show decide (y.toInt ≤ x.toInt) = decide (y.toNat ≤ x.toNat)
      exact decide_eq_decide.mpr (toInt_le_iff y x hm.symm)
    all_goals exact absurd hk (by decide)

/-! ## Constants -/

theorem decimal_eval {d : Decls} {env : Env} (v : Int) (W : Nat) (h32 : 32 ≤ W)
    (hv : W = 32 ∨ (-(2 ^ 31) < v ∧ v < 2 ^ 31)) :
    size d (decimal v) = 32 ∧ sgn d (decimal v) = true ∧
      eval d env (decimal v) W true = some (BitVec.ofInt W v) := by
  have hext : ∀ n : Nat, (W = 32 ∨ n < 2 ^ 31) →
      extend true (BitVec.ofNat litWidth n) W = BitVec.ofNat W n := by
    intro n hn
    rcases hn with rfl | hn
    · exact extend_self _ _
    · unfold extend litWidth
      rw [if_pos rfl]
      apply BitVec.eq_of_toInt_eq
      have h1 : (BitVec.ofNat 32 n).toInt = n := by
        rw [BitVec.toInt_ofNat']
        exact Int.bmod_eq_of_le (by omega) (by omega)
      rw [BitVec.toInt_signExtend_of_le h32, h1, BitVec.toInt_ofNat']
      symm
      have hp : (2 : Nat) ^ 32 ≤ 2 ^ W := Nat.pow_le_pow_right (by omega) h32
      exact Int.bmod_eq_of_le (by omega) (by omega)
  unfold decimal
  split
  · rename_i h0
    refine ⟨rfl, rfl, ?_⟩
    simp only [eval]
    rw [hext _ (hv.imp id (by omega))]
    congr 1
    rw [← BitVec.ofInt_natCast, Int.toNat_of_nonneg h0]
  · rename_i h0
    refine ⟨rfl, rfl, ?_⟩
    simp only [eval]
    rw [hext _ (hv.imp id (by omega))]
    simp only [Option.map_some]
    congr 1
    rw [← BitVec.ofInt_natCast, Int.toNat_of_nonneg (by omega), BitVec.ofInt_neg, BitVec.neg_neg]

theorem driven_const {d : Decls} {env : Env} {w : Nat} (v : BitVec w)
    (h : w ≤ 32 ∨ (-(2 ^ 31) < v.toInt ∧ v.toInt < 2 ^ 31)) :
    driven d env w (decimal v.toInt) = some v.toNat := by
  have hs : size d (decimal v.toInt) = 32 := by unfold decimal; split <;> rfl
  have hsg : sgn d (decimal v.toInt) = true := by unfold decimal; split <;> rfl
  have he := (decimal_eval (d := d) (env := env) v.toInt (max w 32) (by omega)
    (by rcases h with h | h
        · exact Or.inl (by omega)
        · exact Or.inr h)).2.2
  unfold driven
  rw [hs, hsg, he]
  simp only [Option.map_some]
  congr 2
  apply BitVec.eq_of_toNat_eq
  apply Int.ofNat.inj
  show ((BitVec.setWidth w (BitVec.ofInt (max w 32) v.toInt)).toNat : Int) = (v.toNat : Int)
  rw [BitVec.toNat_setWidth, BitVec.toNat_ofInt]
  push_cast
  rw [Int.toNat_of_nonneg (Int.emod_nonneg _ (by positivity)),
    Int.emod_emod_of_dvd _ (pow_dvd_pow _ (by omega))]
  have := BitVec.toNat_ofInt (n := w) v.toInt
  rw [BitVec.ofInt_toInt] at this
  rw [this]
  push_cast
  rw [Int.toNat_of_nonneg (Int.emod_nonneg _ (by positivity))]

/-! ## Extensions and truncations -/

theorem setWidth_toNat_eq {m w : Nat} {a : BitVec m} {b : BitVec w}
    (h : ∀ i, i < w → a.getLsbD i = b.getLsbD i) : (a.setWidth w).toNat = b.toNat := by
  congr 1
  apply BitVec.eq_of_getLsbD_eq
  intro i hi
  rw [BitVec.getLsbD_setWidth, h i hi]
  simp [hi]

end Heir.Verilog
