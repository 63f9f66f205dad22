import Verif.Verilog.MoreModel
import Verif.Verilog.Refine
import Mathlib.Tactic.IntervalCases

/-!
# Insertion, leading zeros, index arguments
-/

namespace Heir.Verilog

/-! ## Bits of packed elements -/

theorem packed_testBit {w : Nat} (hw : 0 < w) (l : List (BitVec w)) (j : Nat) (b : BitVec w)
    (h : l[j / w]? = some b) : (packed l).testBit j = b.getLsbD (j % w) := by
  have h1 := packed_get l (j / w) b h
  have h2 : b.toNat.testBit (j % w) = (packed l).testBit j := by
    rw [← h1, Nat.testBit_mod_two_pow, Nat.testBit_div_two_pow]
    simp only [Nat.mod_lt _ hw, decide_true, Bool.true_and]
    rw [Nat.mod_add_div]
  rw [← h2]
  rfl

theorem bound_idx {d : Decls} {env : Env} {e : Expr} {x : Int} (h : IdxExpr d env e x)
    (h0 : -(2 ^ 31) ≤ x) (h1 : x < 2 ^ 31) : bound d env e = some x := by
  unfold bound
  rw [h.1, h.2.1, h.2.2, Option.map_some, toBound, if_pos rfl, BitVec.toInt_ofInt]
  congr 1
  exact Int.bmod_eq_of_le (by omega) (by omega)

theorem idx_sub {d : Decls} {env : Env} {a b : Expr} {x y : Int} (ha : IdxExpr d env a x)
    (hb : IdxExpr d env b y) : IdxExpr d env (.bin .sub a b) (x - y) := by
  refine ⟨by simp [size, ha.1, hb.1], by simp [sgn, ha.2.1, hb.2.1], ?_⟩
  simp only [eval]
  rw [ha.2.2, hb.2.2, Int.sub_eq_add_neg, BitVec.ofInt_add, BitVec.ofInt_neg,
    ← BitVec.sub_eq_add_neg]
  rfl

theorem eval_cmp_idx {d : Decls} {env : Env} {a b : Expr} {x y : Int} (o : Cmp)
    (ha : IdxExpr d env a x) (hb : IdxExpr d env b y) (W : Nat) (S : Bool) :
    eval d env (.cmp o a b) W S =
      some (extend S (BitVec.ofBool (compare o true (BitVec.ofInt 32 x) (BitVec.ofInt 32 y))) W) := by
  simp only [eval]
  rw [ha.1, hb.1, ha.2.1, hb.2.1, Nat.max_self, Bool.and_self, ha.2.2, hb.2.2]
  rfl

theorem toInt_ofInt_small {x : Int} (h0 : -(2 ^ 31) ≤ x) (h1 : x < 2 ^ 31) :
    (BitVec.ofInt 32 x).toInt = x := by
  rw [BitVec.toInt_ofInt]
  exact Int.bmod_eq_of_le (by omega) (by omega)

theorem eval_tern_of {d : Decls} {env : Env} {o : Cmp} {a b x y : Expr} {r : Bool}
    (h : ∀ W S, eval d env (.cmp o a b) W S = some (extend S (BitVec.ofBool r) W)) (W : Nat) (S : Bool) :
    eval d env (.tern (.cmp o a b) x y) W S = if r then eval d env x W S else eval d env y W S := by
  simp only [eval.eq_8, size, sgn, h, Option.bind_some, extend_self]
  cases r <;> rfl

/-- The low range always ends at bit 0. -/
theorem bottomHi_bound {d : Decls} {env : Env} {i : Expr} {k w : Nat} (h : IdxExpr d env i k)
    (hw : 0 < w) (hk : (k : Int) * w < 2 ^ 31) : bound d env (bottomHi w i) = some 0 := by
  have hk0 : (k : Int) < 2 ^ 31 := by
    have : (k : Int) * 1 ≤ k * w := by
      apply mul_le_mul_of_nonneg_left _ (by omega)
      omega
    omega
  have hc := eval_cmp_idx .eq h (idx_lit (d := d) (env := env) 0)
  have hl := eval_cmp_idx .lt (idx_sub (idx_mul h (idx_lit (d := d) (env := env) w))
    (idx_lit (d := d) (env := env) 1)) (idx_lit (d := d) (env := env) 0)
  have hsz : size d (bottomHi w i) = 32 := rfl
  have hsg : sgn d (bottomHi w i) = false := rfl
  have he : eval d env (bottomHi w i) 32 false = some 0 := by
    unfold bottomHi
    rw [eval_tern_of hc, hl]
    by_cases h0 : k = 0
    · subst h0
      simp [compare, eval, extend]
    · have h1 : compare .eq true (BitVec.ofInt 32 (k : Int)) (BitVec.ofInt 32 ((0 : Nat) : Int)) = false := by
        simp only [compare, beq_eq_false_iff_ne, ne_eq]
        intro hh
        have := congrArg BitVec.toInt hh
        rw [toInt_ofInt_small (by omega) hk0] at this
        simp at this
        omega
      have h2 : compare .lt true (BitVec.ofInt 32 ((k : Int) * (w : Int) - ((1 : Nat) : Int)))
          (BitVec.ofInt 32 ((0 : Nat) : Int)) = false := by
        have hpos : (1 : Int) ≤ (k : Int) * w := by
          have : 1 ≤ k * w := Nat.mul_pos (by omega) hw
          exact_mod_cast this
        simp only [compare, if_true]
        rw [Bool.eq_false_iff]
        intro hh
        rw [BitVec.slt_iff_toInt_lt, toInt_ofInt_small (by push_cast; omega) (by push_cast; omega)] at hh
        simp at hh
        omega
      rw [h1, h2]
      simp [extend]
  unfold bound
  rw [hsz, hsg, he]
  rfl

/-- The bits of the result. -/
theorem insertBit_eq {d : Decls} {env : Env} {i : Expr} {k w n : Nat} (h : IdxExpr d env i k)
    (hw : 0 < w) (hk : k < n) (hn : n * w < 2 ^ 31) (dest value j : Nat) :
    insertBit d env n w i dest value j =
      resolve ((if j = 0 then [some (dest.testBit j)] else []) ++
        ((if k * w ≤ j ∧ j < (k + 1) * w then [some (value.testBit (j - k * w))] else []) ++
          (if (k + 1) * w ≤ j ∧ j ≤ n * w then [some (dest.testBit j)] else []))) := by
  have hkw : (k + 1) * w ≤ n * w := Nat.mul_le_mul_right _ hk
  have hkw' : (k + 1) * w = k * w + w := by ring
  have hlit := fun m => idx_lit (d := d) (env := env) m
  have b0 := bottomHi_bound h hw (by have : ((k * w : Nat) : Int) < 2 ^ 31 := by omega
                                     push_cast at this; exact this)
  have bz : bound d env (.lit 0) = some 0 := by simpa using bound_idx (hlit 0) (by simp) (by simp)
  have c1 : (w : Int) * (k : Int) = ((k * w : Nat) : Int) := by push_cast; ring
  have c2 : (k : Int) * (w : Int) = ((k * w : Nat) : Int) := by push_cast; ring
  have b1 : bound d env (.bin .mul (.lit w) i) = some ((k * w : Nat) : Int) := by
    rw [bound_idx (idx_mul (hlit w) h) (by rw [c1]; omega) (by rw [c1]; omega), c1]
  have b2 : bound d env (.bin .add (.lit (w - 1)) (.bin .mul (.lit w) i)) =
      some ((k * w + (w - 1) : Nat) : Int) := by
    rw [bound_idx (idx_add (hlit (w - 1)) (idx_mul (hlit w) h)) (by rw [c1]; omega)
      (by rw [c1]; omega), c1]
    congr 1
    push_cast
    ring
  have b3 : bound d env (.lit (n * w)) = some ((n * w : Nat) : Int) :=
    bound_idx (hlit (n * w)) (by omega) (by omega)
  have b4 : bound d env (.bin .add (.lit w) (.bin .mul i (.lit w))) =
      some (((k + 1) * w : Nat) : Int) := by
    rw [bound_idx (idx_add (hlit w) (idx_mul h (hlit w))) (by rw [c2]; omega) (by rw [c2]; omega), c2]
    congr 1
    push_cast
    ring
  unfold insertBit insertAssigns
  simp only [List.flatMap_cons, List.flatMap_nil, List.append_nil, drives, b0, bz, b1, b2, b3, b4]
  have e1 : ((0 : Int) ≤ (j : Int) ∧ (j : Int) ≤ 0) ↔ j = 0 := by omega
  have e2 : (((k * w : Nat) : Int) ≤ (j : Int) ∧ (j : Int) ≤ ((k * w + (w - 1) : Nat) : Int)) ↔
      k * w ≤ j ∧ j < (k + 1) * w := by omega
  have e3 : ((((k + 1) * w : Nat) : Int) ≤ (j : Int) ∧ (j : Int) ≤ ((n * w : Nat) : Int)) ↔
      (k + 1) * w ≤ j ∧ j ≤ n * w := by omega
  have e4 : ((j : Int) - ((k * w : Nat) : Int)).toNat = j - k * w := by omega
  simp only [e1, e2, e3, e4]

/-! ## Leading zeros -/

theorem emittedCtlz_high (x : BitVec 32) (k : Nat) (h : x.toNat = k * 2 ^ 16) (hk : 0 < k) :
    (emittedCtlz x).toNat = 15 := by
  have hx := x.isLt
  have hz : ∀ hi lo, lo ≤ hi → zeroBits x hi lo = decide (x.toNat / 2 ^ lo % 2 ^ (hi - lo + 1) = 0) := by
    intro hi lo _
    unfold zeroBits
    rw [Bool.eq_iff_iff, beq_iff_eq, decide_eq_true_iff, ← BitVec.toNat_inj,
      BitVec.extractLsb'_toNat, Nat.shiftRight_eq_div_pow]
    simp
  have h0 : x ≠ 0 := by
    intro h'; rw [h'] at h; simp at h; omega
  have hb : ∀ i, i < 16 → x.getLsbD i = false := by
    intro i hi
    rw [BitVec.getLsbD, h, Nat.testBit_mul_two_pow]
    simp [hi]
  have z4 : zeroBits x 31 16 = false := by
    rw [hz 31 16 (by omega), decide_eq_false_iff_not]; omega
  have z3 : zeroBits x 15 8 = true := by
    rw [hz 15 8 (by omega), decide_eq_true_iff]; omega
  have z2 : zeroBits x 7 4 = true := by
    rw [hz 7 4 (by omega), decide_eq_true_iff]; omega
  have z1 : zeroBits x 3 2 = true := by
    rw [hz 3 2 (by omega), decide_eq_true_iff]; omega
  unfold emittedCtlz
  simp only [z4, z3, z2, z1, hb 1 (by omega), if_neg h0, if_true]
  decide

/-! ## Index arguments -/

theorem indexWidth_le {n i : Nat} (h : i < n) : i < 2 ^ indexWidth n := by
  unfold indexWidth
  have hn : n ≠ 0 := by omega
  rw [if_neg hn]
  split
  · rename_i hp
    simp only [isPowerOf2, Bool.and_eq_true, beq_iff_eq] at hp
    omega
  · have := @Nat.lt_log2_self n
    omega

theorem indexWidth_gt {n : Nat} (h : 2 ≤ n) : 0 < indexWidth n ∧ 2 ^ (indexWidth n - 1) < n := by
  have hn : n ≠ 0 := by omega
  have hle := Nat.log2_self_le hn
  unfold indexWidth
  rw [if_neg hn]
  split
  · rename_i hp
    simp only [isPowerOf2, Bool.and_eq_true, beq_iff_eq] at hp
    have hl : n.log2 ≠ 0 := by
      intro h0; rw [h0] at hp; omega
    refine ⟨by omega, ?_⟩
    rw [← hp.2]
    rw [Nat.log2_two_pow]
    exact Nat.pow_lt_pow_right (by omega) (by omega)
  · rename_i hp
    refine ⟨by omega, ?_⟩
    simp only [isPowerOf2, Bool.and_eq_true, beq_iff_eq, bne_iff_ne, ne_eq, hn, not_false_eq_true,
      true_and] at hp
    rw [Nat.add_sub_cancel]
    omega

end Heir.Verilog
