import Verif.Rotate.Lemmas
import Mathlib.Logic.Relation

/-! # C42: rotation canonicalizations, C53: lowering of rotations to slices -/

namespace Heir.Rotate

variable {α : Type}

/-- What every rewrite keeps. -/
structure Inv (sh : Shape) (e : TExpr α) : Prop where
  wf : e.WF sh
  fits : e.Fits sh.last
  const : sh.lead.prod = 1 ∨ e.Uniform

theorem Inv.mk_rotate {sh : Shape} {t : TExpr α} {s : Sh} (h : Inv sh t)
    (hs : sh.last ∣ 2 ^ s.w ∧ sh.last < 2 ^ s.w) : Inv sh (.rotate t s) :=
  ⟨h.wf, ⟨h.fits, hs⟩, h.const⟩

theorem Inv.of_rotate {sh : Shape} {t : TExpr α} {s : Sh} (h : Inv sh (.rotate t s)) :
    Inv sh t ∧ sh.last ∣ 2 ^ s.w ∧ sh.last < 2 ^ s.w :=
  ⟨⟨h.wf, h.fits.1, h.const⟩, h.fits.2⟩

theorem Inv.mk_bin {sh : Shape} {op : α → α → α} {a b : TExpr α} (h : Inv sh a) (h' : Inv sh b) :
    Inv sh (.bin op a b) := by
  refine ⟨⟨h.wf, h'.wf⟩, ⟨h.fits, h'.fits⟩, ?_⟩
  rcases h.const with h1 | h1
  · exact .inl h1
  · exact h'.const.imp_right fun h2 => ⟨h1, h2⟩

theorem Inv.of_bin {sh : Shape} {op : α → α → α} {a b : TExpr α} (h : Inv sh (.bin op a b)) :
    Inv sh a ∧ Inv sh b :=
  ⟨⟨h.wf.1, h.fits.1, h.const.imp_right fun h => h.1⟩,
    ⟨h.wf.2, h.fits.2, h.const.imp_right fun h => h.2⟩⟩

section
variable {sh : Shape} {e e' : TExpr α} (hs : 0 < sh.size)
include hs

theorem last_pos : 0 < sh.last := by
  rcases Nat.eq_zero_or_pos sh.last with h | h
  · unfold Shape.size at hs; rw [h] at hs; simp at hs
  · exact h

theorem dropZero_ok (hi : Inv sh e) (h : dropZeroRotation e = .ok e') :
    Agree sh (e.value sh) (e'.value sh) ∧ Inv sh e' := by
  unfold dropZeroRotation at h
  split at h
  · rename_i t s
    split at h
    · rename_i hc
      injection h with h; subst h
      simp only [Bool.and_eq_true, beq_iff_eq] at hc
      refine ⟨?_, hi.of_rotate.1⟩
      obtain ⟨u, hu⟩ := Option.isSome_iff_exists.1 (value_isSome hs hi.of_rotate.1.wf)
      refine ⟨rotated sh.last s.v.toInt u, u, by simp only [TExpr.value, hu, Option.map_some], hu, fun f _ => ?_⟩
      rw [hc.2, show (0 : BitVec s.w).toInt = 0 from BitVec.toInt_zero, rotated_zero (last_pos hs)]
    · cases h
  · cases h

omit hs in
theorem rotateDense_ok (hi : Inv sh e) (h : rotateDenseConstant e = .ok e') :
    Agree sh (e.value sh) (e'.value sh) ∧ Inv sh e' := by
  unfold rotateDenseConstant at h
  split at h
  · injection h with h; subst h
    exact ⟨⟨_, _, rfl, rfl, fun _ _ => rfl⟩, hi.of_rotate.1⟩
  · cases h

theorem agree_rotate_congr {t : TExpr α} {a b : Int} (ht : t.WF sh) (h : a ≡ b [ZMOD sh.last]) :
    Agree sh ((t.value sh).map (rotated sh.last a)) ((t.value sh).map (rotated sh.last b)) := by
  obtain ⟨u, hu⟩ := Option.isSome_iff_exists.1 (value_isSome hs ht)
  rw [hu]
  exact ⟨_, _, rfl, rfl, fun f _ => by rw [rotated_congr h]⟩

theorem normalize_ok (hi : Inv sh e) (h : normalizeRotationIndex sh e = .ok e') :
    Agree sh (e.value sh) (e'.value sh) ∧ Inv sh e' := by
  unfold normalizeRotationIndex at h
  split at h
  · rename_i t s
    split at h
    · obtain ⟨x, -, h⟩ := bind_ok h
      split at h
      · rename_i hc
        obtain ⟨s', hs', h⟩ := bind_ok h
        injection h with h; subst h
        obtain ⟨hi', hd, hlt⟩ := hi.of_rotate
        simp only [Bool.and_eq_true, beq_iff_eq, Shape.rank, Nat.add_eq_right,
          List.length_eq_zero_iff] at hc
        have h0 : sh.dim0 = sh.last := by unfold Shape.dim0; rw [hc.2]; rfl
        unfold remDim at hs'
        split at hs'
        · cases hs'
        · injection hs' with hs'; subst hs'
          refine ⟨agree_rotate_congr hs hi'.wf ?_, hi'.mk_rotate ⟨hd, hlt⟩⟩
          refine (toInt_modEq hd _).trans (Int.ModEq.symm ((toInt_modEq hd _).trans ?_))
          rw [BitVec.toNat_umod, BitVec.toNat_ofNat, h0, Nat.mod_eq_of_lt hlt]
          push_cast
          exact Int.mod_modEq _ _
      · cases h
    · cases h
  · cases h

theorem agree_merge {t : TExpr α} {a b : Int} {c : Int} (ht : t.WF sh) (h : c ≡ a + b [ZMOD sh.last]) :
    Agree sh (((t.value sh).map (rotated sh.last b)).map (rotated sh.last a))
      ((t.value sh).map (rotated sh.last c)) := by
  obtain ⟨u, hu⟩ := Option.isSome_iff_exists.1 (value_isSome hs ht)
  rw [hu]
  exact ⟨_, _, rfl, rfl, fun f _ => by rw [rotated_rotated (last_pos hs), rotated_congr h]⟩

theorem combine_ok (hi : Inv sh e) (h : combineSequentialRotates e = .ok e') :
    Agree sh (e.value sh) (e'.value sh) ∧ Inv sh e' := by
  unfold combineSequentialRotates at h
  split at h
  · rename_i t x y
    split at h
    · obtain ⟨c, hc, h⟩ := bind_ok h
      injection h with h; subst h
      obtain ⟨hi', -⟩ := hi.of_rotate
      obtain ⟨hi'', hd⟩ := hi'.of_rotate
      obtain ⟨hw, hm⟩ := addi_modEq hc hd.1
      exact ⟨agree_merge hs hi''.wf (by rwa [add_comm] at hm), hi''.mk_rotate (by rw [hw]; exact hd)⟩
    · cases h
  · cases h

omit hs in
theorem value_bin_rotate (sh : Shape) (op : α → α → α) (a b : TExpr α) (k : Int) :
    ((TExpr.bin op a b).value sh).map (rotated sh.last k) =
      ((a.value sh).map (rotated sh.last k)).bind fun x =>
        ((b.value sh).map (rotated sh.last k)).map fun y f => op (x f) (y f) := by
  simp only [TExpr.value]
  cases a.value sh <;> cases b.value sh <;> simp [rotated_bin]

theorem factor_ok (hi : Inv sh e) (h : factorParallelRotations e = .ok e') :
    Agree sh (e.value sh) (e'.value sh) ∧ Inv sh e' := by
  unfold factorParallelRotations at h
  split at h
  · rename_i op a i b j
    split at h
    · rename_i hij
      subst hij
      injection h with h; subst h
      obtain ⟨ha, hb⟩ := hi.of_bin
      have hr : Inv sh (.rotate (.bin op a b) i) :=
        (ha.of_rotate.1.mk_bin hb.of_rotate.1).mk_rotate ha.of_rotate.2
      refine ⟨?_, hr⟩
      have e : TExpr.value sh (.rotate (.bin op a b) i) =
          TExpr.value sh (.bin op (.rotate a i) (.rotate b i)) :=
        value_bin_rotate sh op a b i.v.toInt
      rw [← e]
      exact Agree.refl (value_isSome hs hr.wf)
    · cases h
  · cases h

theorem sandwich_ok (hi : Inv sh e) (h : mergeSandwich e = .ok e') :
    Agree sh (e.value sh) (e'.value sh) ∧ Inv sh e' := by
  unfold mergeSandwich at h
  split at h
  · rename_i op a s1 b s2 s3
    obtain ⟨x, hx, h⟩ := bind_ok h
    obtain ⟨y, hy, h⟩ := bind_ok h
    injection h with h; subst h
    obtain ⟨hab, hd⟩ := hi.of_rotate
    obtain ⟨ha, hb⟩ := hab.of_bin
    obtain ⟨hw, hm⟩ := addi_modEq hx hd.1
    obtain ⟨hw', hm'⟩ := addi_modEq hy hd.1
    refine ⟨?_, (ha.of_rotate.1.mk_rotate (by rw [hw]; exact hd)).mk_bin
      (hb.of_rotate.1.mk_rotate (by rw [hw']; exact hd))⟩
    rw [show TExpr.value sh (.rotate (.bin op (.rotate a s1) (.rotate b s2)) s3) = _ from
      value_bin_rotate sh op _ _ _]
    exact Agree.bin op (agree_merge hs ha.of_rotate.1.wf hm) (agree_merge hs hb.of_rotate.1.wf hm')
  · cases h

theorem lhs_ok (hi : Inv sh e) (h : mergeEarlierLHS e = .ok e') :
    Agree sh (e.value sh) (e'.value sh) ∧ Inv sh e' := by
  unfold mergeEarlierLHS at h
  split at h
  · rename_i op a s1 b s2
    obtain ⟨x, hx, h⟩ := bind_ok h
    injection h with h; subst h
    obtain ⟨hab, hd⟩ := hi.of_rotate
    obtain ⟨ha, hb⟩ := hab.of_bin
    obtain ⟨hw, hm⟩ := addi_modEq hx hd.1
    refine ⟨?_, (ha.of_rotate.1.mk_rotate (by rw [hw]; exact hd)).mk_bin (hb.mk_rotate hd)⟩
    rw [show TExpr.value sh (.rotate (.bin op (.rotate a s1) b) s2) = _ from
      value_bin_rotate sh op _ _ _]
    exact Agree.bin op (agree_merge hs ha.of_rotate.1.wf hm)
      (agree_rotate_congr hs hb.wf rfl)
  · cases h

theorem rhs_ok (hi : Inv sh e) (h : mergeEarlierRHS e = .ok e') :
    Agree sh (e.value sh) (e'.value sh) ∧ Inv sh e' := by
  unfold mergeEarlierRHS at h
  split at h
  · rename_i op a b s1 s2
    obtain ⟨x, hx, h⟩ := bind_ok h
    injection h with h; subst h
    obtain ⟨hab, hd⟩ := hi.of_rotate
    obtain ⟨ha, hb⟩ := hab.of_bin
    obtain ⟨hw, hm⟩ := addi_modEq hx hd.1
    refine ⟨?_, (ha.mk_rotate hd).mk_bin (hb.of_rotate.1.mk_rotate (by rw [hw]; exact hd))⟩
    rw [show TExpr.value sh (.rotate (.bin op a (.rotate b s1)) s2) = _ from
      value_bin_rotate sh op _ _ _]
    exact Agree.bin op (agree_rotate_congr hs ha.wf rfl) (agree_merge hs hb.of_rotate.1.wf hm)
  · cases h

omit hs in
theorem dvd_64 {n w : Nat} (h : n ∣ 2 ^ w) (hn : n < 2 ^ 63) : n ∣ 2 ^ 64 := by
  obtain ⟨k, -, rfl⟩ := (Nat.dvd_prime_pow Nat.prime_two).1 h
  have : k < 63 := (Nat.pow_lt_pow_iff_right (by omega)).1 hn
  exact pow_dvd_pow 2 (by omega)

theorem fold_ok (hn : sh.size < 2 ^ 63) (hi : Inv sh e) (h : foldRotateOfConst sh e = .ok e') :
    Agree sh (e.value sh) (e'.value sh) ∧ Inv sh e' := by
  unfold foldRotateOfConst at h
  split at h
  · rename_i x s
    split at h
    · obtain ⟨k, hk, h⟩ := bind_ok h
      split at h
      · rename_i r hr
        injection h with h; subst h
        obtain ⟨h1, h2⟩ := fold_uniform (x := x) hs (by simp)
          (fun y hy => List.eq_of_mem_replicate hy) hr
        refine ⟨Agree.trans ?_ h1, ?_, trivial, .inr ⟨x, h2⟩⟩
        · rw [dense_value hs (by simp)]
          exact ⟨_, _, rfl, rfl, fun f _ => by simp [rotated]⟩
        · obtain ⟨hl, -⟩ := rotateAttr_ok hr
          exact hl.trans (by simp)
      · cases h
    · cases h
  · rename_i l s
    split at h
    · obtain ⟨k, hk, h⟩ := bind_ok h
      have hk' : s.v.toInt = k := by
        unfold getInt at hk
        split at hk
        · injection hk
        · cases hk
      split at h
      · rename_i r hr
        injection h with h; subst h
        obtain ⟨hi', hd⟩ := hi.of_rotate
        obtain ⟨hl, -⟩ := rotateAttr_ok hr
        have hwf : (TExpr.dense r).WF sh := hl.trans hi'.wf
        rcases hi'.const with hp | ⟨x, hx⟩
        · refine ⟨?_, hwf, trivial, .inl hp⟩
          have hsz : sh.size = sh.last := by unfold Shape.size; rw [hp, one_mul]
          have := fold_row hs hn hi'.wf hp hr (.inl (dvd_64 hd.1 (by omega)))
          rwa [← hk'] at this
        · obtain ⟨h1, h2⟩ := fold_uniform (x := x) hs hi'.wf hx hr
          rw [← hk'] at h1
          exact ⟨h1, hwf, trivial, .inr ⟨x, h2⟩⟩
      · cases h
    · cases h
  · cases h

theorem step_ok (hn : sh.size < 2 ^ 63) (hst : Step sh e e') (hi : Inv sh e) :
    Agree sh (e.value sh) (e'.value sh) ∧ Inv sh e' := by
  induction hst with
  | root hp h =>
    simp only [patterns, List.mem_cons, List.not_mem_nil, or_false] at hp
    rcases hp with rfl | rfl | rfl | rfl | rfl | rfl | rfl | rfl | rfl
    · exact fold_ok hs hn hi h
    · exact rotateDense_ok hi h
    · exact dropZero_ok hs hi h
    · exact normalize_ok hs hi h
    · exact combine_ok hs hi h
    · exact factor_ok hs hi h
    · exact sandwich_ok hs hi h
    · exact lhs_ok hs hi h
    · exact rhs_ok hs hi h
  | rotate _ ih =>
    obtain ⟨h1, h2⟩ := ih hi.of_rotate.1
    exact ⟨h1.rotate _, h2.mk_rotate hi.of_rotate.2⟩
  | left _ ih =>
    obtain ⟨h1, h2⟩ := ih hi.of_bin.1
    exact ⟨Agree.bin _ h1 (Agree.refl (value_isSome hs hi.of_bin.2.wf)), h2.mk_bin hi.of_bin.2⟩
  | right _ ih =>
    obtain ⟨h1, h2⟩ := ih hi.of_bin.2
    exact ⟨Agree.bin _ (Agree.refl (value_isSome hs hi.of_bin.1.wf)) h1, hi.of_bin.1.mk_bin h2⟩

end

/-- C42: any number of rewrites, anywhere, keeps every element of the tensor.

Partial: the last dimension must divide `2^w` (and be below it) for every shift type `iw`, so be a
power of two, and constants that are rotated must fill one row or repeat one element. -/
theorem C42_rewrites_partial {sh : Shape} (hs : 0 < sh.size) (hn : sh.size < 2 ^ 63)
    {e e' : TExpr α} (hwf : e.WF sh) (hfit : e.Fits sh.last)
    (hc : sh.lead.prod = 1 ∨ e.Uniform) (h : Relation.ReflTransGen (Step sh) e e') :
    Agree sh (e.value sh) (e'.value sh) := by
  have key : Agree sh (e.value sh) (e'.value sh) ∧ Inv sh e' := by
    induction h with
    | refl => exact ⟨Agree.refl (value_isSome hs hwf), hwf, hfit, hc⟩
    | tail _ hst ih =>
      obtain ⟨h1, h2⟩ := step_ok hs hn hst ih.2
      exact ⟨ih.1.trans h1, h2⟩
  exact key.1

/-- A 32-bit shift of eight elements, rotated twice; the sum of the shifts wraps. -/
example : let e : TExpr Int := .rotate (.rotate (.leaf fun f => f) ⟨32, 2147483647, true⟩) ⟨32, 3, true⟩
    e.WF ⟨[], 8⟩ ∧ e.Fits 8 ∧
      Step ⟨[], 8⟩ e (.rotate (.leaf fun f => f) ⟨32, 2147483650, true⟩) := by
  refine ⟨trivial, ⟨⟨trivial, ?_⟩, ?_⟩, ?_⟩
  · decide
  · decide
  · exact .root (p := combineSequentialRotates) (by simp [patterns]) rfl

/-- Every shift of the expression satisfies `P`. -/
def TExpr.Shifts (P : Sh → Prop) : TExpr α → Prop
  | .leaf _ => True
  | .splat _ => True
  | .dense _ => True
  | .rotate t s => t.Shifts P ∧ P s
  | .bin _ a b => a.Shifts P ∧ b.Shifts P

theorem addi_defined {a b : Sh} (h : b.w = a.w) : ∃ c, addi a b = .ok c := by
  unfold addi; rw [dif_pos h]; exact ⟨_, rfl⟩

theorem getInt_defined {s : Sh} (h : -2 ^ 62 < s.v.toInt ∧ s.v.toInt < 2 ^ 62) :
    getInt s = .ok s.v.toInt := by
  unfold getInt; rw [if_pos (by omega)]

theorem mapM_isSome {β γ : Type} {f : β → Option γ} {l : List β} (h : ∀ x ∈ l, (f x).isSome) :
    (l.mapM f).isSome := by
  induction l with
  | nil => rfl
  | cons a l ih =>
    obtain ⟨b, hb⟩ := Option.isSome_iff_exists.1 (h a (by simp))
    obtain ⟨r, hr⟩ := Option.isSome_iff_exists.1 (ih fun x hx => h x (by simp [hx]))
    rw [List.mapM_cons]
    simp [hb, hr]

theorem rotateAttr_defined {l : List α} {k : Int} (hl : l.length < 2 ^ 62)
    (h : -2 ^ 62 < k ∧ k < 2 ^ 62) : ∃ r, rotateAttrValues l k = some r := by
  apply Option.isSome_iff_exists.1
  unfold rotateAttrValues
  refine mapM_isSome fun i hi => ?_
  rw [List.mem_range] at hi
  cases hs : sourceIndex l.length i k with
  | none =>
    unfold sourceIndex at hs
    rw [if_pos (by omega)] at hs
    cases hs
  | some q =>
    have := sourceIndex_lt hs (by omega) (by omega)
    simp [this]

/-- C42: the rewrites have no undefined behaviour and make no ill-typed IR, if all shifts have one
type that can hold the last dimension and have absolute value below 2^62. -/
theorem C42_defined_partial {sh : Shape} {w : Nat} (hs : 0 < sh.size) (hn : sh.size < 2 ^ 62)
    (hw : sh.last < 2 ^ w) {e : TExpr α} (hwf : e.WF sh)
    (h : e.Shifts fun s => s.w = w ∧ -2 ^ 62 < s.v.toInt ∧ s.v.toInt < 2 ^ 62)
    {p : TExpr α → Res (TExpr α)} (hp : p ∈ patterns sh) : p e = .noMatch ∨ ∃ e', p e = .ok e' := by
  simp only [patterns, List.mem_cons, List.not_mem_nil, or_false] at hp
  rcases hp with rfl | rfl | rfl | rfl | rfl | rfl | rfl | rfl | rfl
  · unfold foldRotateOfConst
    split
    · rename_i x s
      split
      · rw [getInt_defined h.2.2]
        obtain ⟨r, hr⟩ := rotateAttr_defined (l := List.replicate sh.size x) (by simpa using hn) h.2.2
        simp only [Res.bind, hr]
        exact .inr ⟨_, rfl⟩
      · exact .inl rfl
    · split
      · rw [getInt_defined h.2.2]
        obtain ⟨r, hr⟩ := rotateAttr_defined (lt_of_eq_of_lt hwf hn) h.2.2
        simp only [Res.bind, hr]
        exact .inr ⟨_, rfl⟩
      · exact .inl rfl
    · exact .inl rfl
  · unfold rotateDenseConstant
    split
    · exact .inr ⟨_, rfl⟩
    · exact .inl rfl
  · unfold dropZeroRotation
    split
    · split
      · exact .inr ⟨_, rfl⟩
      · exact .inl rfl
    · exact .inl rfl
  · unfold normalizeRotationIndex
    split
    · rename_i t s
      split
      · rw [getInt_defined h.2.2]
        simp only [Res.bind]
        split
        · rename_i hc
          simp only [Bool.and_eq_true, beq_iff_eq, Shape.rank, Nat.add_eq_right,
            List.length_eq_zero_iff] at hc
          have hd : sh.dim0 = sh.last := by unfold Shape.dim0; rw [hc.2]; rfl
          unfold remDim
          rw [if_neg]
          · exact .inr ⟨_, rfl⟩
          · intro h0
            have := congrArg BitVec.toNat h0
            rw [BitVec.toNat_ofNat, hd, h.2.1, Nat.mod_eq_of_lt hw] at this
            have := last_pos hs
            simp at *
            omega
        · exact .inl rfl
      · exact .inl rfl
    · exact .inl rfl
  · unfold combineSequentialRotates
    split
    · split
      · obtain ⟨c, hc⟩ := addi_defined (h.2.1.trans h.1.2.1.symm)
        rw [hc]
        exact .inr ⟨_, rfl⟩
      · exact .inl rfl
    · exact .inl rfl
  · unfold factorParallelRotations
    split
    · split
      · exact .inr ⟨_, rfl⟩
      · exact .inl rfl
    · exact .inl rfl
  · unfold mergeSandwich
    split
    · obtain ⟨c, hc⟩ := addi_defined (h.1.1.2.1.trans h.2.1.symm)
      obtain ⟨d, hd⟩ := addi_defined (h.1.2.2.1.trans h.2.1.symm)
      rw [hc, hd]
      exact .inr ⟨_, rfl⟩
    · exact .inl rfl
  · unfold mergeEarlierLHS
    split
    · obtain ⟨c, hc⟩ := addi_defined (h.1.1.2.1.trans h.2.1.symm)
      rw [hc]
      exact .inr ⟨_, rfl⟩
    · exact .inl rfl
  · unfold mergeEarlierRHS
    split
    · obtain ⟨c, hc⟩ := addi_defined (h.1.2.2.1.trans h.2.1.symm)
      rw [hc]
      exact .inr ⟨_, rfl⟩
    · exact .inl rfl

/-- C42 fails when shifts of two types meet: the sum is rejected by the verifier. -/
theorem C42_combine_violated_type :
    combineSequentialRotates (.rotate (.rotate (.leaf fun f => f) ⟨64, 1, true⟩) ⟨32, 1, true⟩) =
      .invalid := rfl

/-! ### Sizes that are not powers of two -/

/-- C42: merging two rotations of any length, if the sum of the shifts does not overflow. -/
theorem C42_combine_partial {sh : Shape} (hs : 0 < sh.size) {t : TExpr α} (ht : t.WF sh)
    {x y : Sh} {e' : TExpr α} (h : combineSequentialRotates (.rotate (.rotate t x) y) = .ok e')
    (h1 : -2 ^ x.w ≤ 2 * (x.v.toInt + y.v.toInt)) (h2 : 2 * (x.v.toInt + y.v.toInt) < 2 ^ x.w) :
    Agree sh ((TExpr.rotate (.rotate t x) y).value sh) (e'.value sh) := by
  unfold combineSequentialRotates at h
  split at h
  · rename_i e
    injection e with e e2; injection e with e e3; subst e e2 e3
    split at h
    · obtain ⟨c, hc, h⟩ := bind_ok h
      injection h with h; subst h
      exact agree_merge hs ht (by rw [addi_exact hc h1 h2, add_comm])
    · cases h
  · rename_i hne; exact (hne _ _ _ rfl).elim

example : combineSequentialRotates (.rotate (.rotate (.leaf fun f => f) ⟨8, 100, true⟩) ⟨8, -7, true⟩) =
    .ok (.rotate (.leaf fun f => f) ⟨8, 93, true⟩) := rfl

/-- C42 fails for merging when the sum wraps: ten elements, 8-bit shifts. -/
theorem C42_combine_violated :
    let sh : Shape := ⟨[], 10⟩
    let e : TExpr Nat := .rotate (.rotate (.leaf fun f => f) ⟨8, 100, true⟩) ⟨8, 100, true⟩
    ∃ e', Step sh e e' ∧ ¬ Agree sh (e.value sh) (e'.value sh) := by
  refine ⟨.rotate (.leaf fun f => f) ⟨8, 200, true⟩,
    .root (p := combineSequentialRotates) (by simp [patterns]) rfl, ?_⟩
  rintro ⟨u, v, hu, hv, h⟩
  have := h 0 (by decide)
  cases hu; cases hv
  revert this
  decide

/-- C42: normalizing a nonnegative shift, any length that fits in the type of the shift. -/
theorem C42_normalize_partial {sh : Shape} (hs : 0 < sh.size) {t : TExpr α} (ht : t.WF sh)
    {s : Sh} {e' : TExpr α} (h : normalizeRotationIndex sh (.rotate t s) = .ok e')
    (h0 : 0 ≤ s.v.toInt) (hlt : sh.last < 2 ^ s.w) :
    Agree sh ((TExpr.rotate t s).value sh) (e'.value sh) := by
  unfold normalizeRotationIndex at h
  split at h
  · rename_i e
    injection e with e e2; subst e e2
    split at h
    · obtain ⟨x, -, h⟩ := bind_ok h
      split at h
      · rename_i hc
        obtain ⟨s', hs', h⟩ := bind_ok h
        injection h with h; subst h
        simp only [Bool.and_eq_true, beq_iff_eq, Shape.rank, Nat.add_eq_right,
          List.length_eq_zero_iff] at hc
        have hd : sh.dim0 = sh.last := by unfold Shape.dim0; rw [hc.2]; rfl
        unfold remDim at hs'
        split at hs'
        · cases hs'
        · injection hs' with hs'; subst hs'
          refine agree_rotate_congr hs ht ?_
          have hb : 2 * s.v.toNat < 2 ^ s.w := by
            by_contra hb
            rw [BitVec.toInt_eq_toNat_cond, if_neg hb] at h0
            have := s.v.isLt
            have : ((2 ^ s.w : Nat) : Int) = 2 ^ s.w := by norm_cast
            omega
          have e1 : s.v.toInt = s.v.toNat := by
            rw [BitVec.toInt_eq_toNat_cond, if_pos hb]
          have e2 : (s.v % BitVec.ofNat s.w sh.dim0).toNat = s.v.toNat % sh.last := by
            rw [BitVec.toNat_umod, BitVec.toNat_ofNat, hd, Nat.mod_eq_of_lt hlt]
          have e3 : (s.v % BitVec.ofNat s.w sh.dim0).toInt = (s.v.toNat % sh.last : Nat) := by
            rw [BitVec.toInt_eq_toNat_cond, e2, if_pos]
            have := Nat.mod_le s.v.toNat sh.last
            omega
          rw [e1, e3]
          push_cast
          exact (Int.mod_modEq _ _).symm
      · cases h
    · cases h
  · rename_i hne; exact (hne _ _ rfl).elim

example : normalizeRotationIndex ⟨[], 10⟩ (.rotate (.leaf fun f => f) ⟨32, 23, true⟩) =
    .ok (.rotate (.leaf fun f => f) ⟨32, 3, true⟩) := rfl

/-- C42 fails for normalizing: the unsigned remainder of a negative shift, ten elements. -/
theorem C42_normalize_violated :
    let sh : Shape := ⟨[], 10⟩
    let e : TExpr Nat := .rotate (.leaf fun f => f) ⟨32, -1, true⟩
    ∃ e', Step sh e e' ∧ ¬ Agree sh (e.value sh) (e'.value sh) := by
  refine ⟨.rotate (.leaf fun f => f) ⟨32, 5, true⟩,
    .root (p := normalizeRotationIndex ⟨[], 10⟩) (by simp [patterns]) rfl, ?_⟩
  rintro ⟨u, v, hu, hv, h⟩
  have := h 0 (by decide)
  cases hu; cases hv
  revert this
  decide

/-- C42 fails for normalizing: the dimension cast to the type of the shift may be zero, and the
remainder is undefined. -/
theorem C42_normalize_violated_ub :
    normalizeRotationIndex ⟨[], 256⟩ (.rotate (.leaf fun f => f) ⟨8, -1, true⟩) = .ub := rfl

/-- C42: folding the rotation of a constant row of any length, for shifts not below minus the
length. -/
theorem C42_fold_partial {sh : Shape} (hs : 0 < sh.size) (hn : sh.size < 2 ^ 63) {l : List α}
    (hl : l.length = sh.size) (hp : sh.lead.prod = 1) {s : Sh} {e' : TExpr α}
    (h : foldRotateOfConst sh (.rotate (.dense l) s) = .ok e') (h0 : -sh.last ≤ s.v.toInt) :
    Agree sh ((TExpr.rotate (.dense l) s).value sh) (e'.value sh) := by
  unfold foldRotateOfConst at h
  split at h
  · rename_i e; injection e with e; cases e
  · rename_i e
    injection e with e e2; injection e with e; subst e e2
    split at h
    · obtain ⟨k, hk, h⟩ := bind_ok h
      have hk' : s.v.toInt = k := by
        unfold getInt at hk
        split at hk
        · injection hk
        · cases hk
      split at h
      · rename_i r hr
        injection h with h; subst h
        have := fold_row hs hn hl hp hr (.inr (by omega))
        rwa [← hk'] at this
      · cases h
    · cases h
  · rename_i hne; exact (hne _ _ rfl).elim

example : foldRotateOfConst ⟨[], 3⟩ (.rotate (.dense [10, 20, 30]) ⟨32, -1, true⟩) =
    .ok (.dense [30, 10, 20]) := by rfl

/-- C42 fails for folding a constant: three elements rotated by -4. -/
theorem C42_fold_violated :
    let sh : Shape := ⟨[], 3⟩
    let e : TExpr Nat := .rotate (.dense [10, 20, 30]) ⟨32, -4, true⟩
    ∃ e', Step sh e e' ∧ ¬ Agree sh (e.value sh) (e'.value sh) := by
  refine ⟨.dense [10, 10, 20],
    .root (p := foldRotateOfConst ⟨[], 3⟩) (by simp [patterns]) rfl, ?_⟩
  rintro ⟨u, v, hu, hv, h⟩
  have := h 0 (by decide)
  cases hu; cases hv
  revert this
  decide

/-- C42 fails for folding a constant of two rows: the rows are mixed. -/
theorem C42_fold_violated_rank :
    let sh : Shape := ⟨[2], 2⟩
    let e : TExpr Nat := .rotate (.dense [1, 2, 3, 4]) ⟨32, 1, true⟩
    ∃ e', Step sh e e' ∧ ¬ Agree sh (e.value sh) (e'.value sh) := by
  refine ⟨.dense [2, 3, 4, 1],
    .root (p := foldRotateOfConst ⟨[2], 2⟩) (by simp [patterns]) rfl, ?_⟩
  rintro ⟨u, v, hu, hv, h⟩
  have := h 1 (by decide)
  cases hu; cases hv
  revert this
  decide

/-! ### Rotation and extraction -/

/-- C42: reading an element of a rotated tensor, if the sum of shift and index stays inside. -/
theorem C42_extract_partial {sh : Shape} (hs : 0 < sh.size) {t : TExpr α} (ht : t.WF sh)
    {s : Sh} {i : BitVec 64} {e' : Extract α} (h : rotatePlusExtract sh ⟨.rotate t s, i⟩ = .ok e')
    (hi : 0 ≤ i.toInt ∧ i.toInt < sh.size)
    (h0 : 0 ≤ s.v.toInt + i.toInt) (h1 : s.v.toInt + i.toInt < sh.size) (hn : sh.size < 2 ^ 63) :
    ∃ x, (Extract.value sh ⟨.rotate t s, i⟩) = some x ∧ e'.value sh = some x := by
  unfold rotatePlusExtract at h
  split at h
  · rename_i e
    injection e with e e2; injection e with e e3; subst e e2 e3
    split at h
    · rename_i hr
      obtain ⟨k, hk, h⟩ := bind_ok h
      injection h with h; subst h
      have hlead : sh.lead = [] := by
        simpa [Shape.rank] using hr
      have hsz : sh.size = sh.last := by unfold Shape.size; rw [hlead]; simp
      obtain ⟨hw, hk'⟩ := addi_ok hk
      have hw' : s.w = 64 := hw.symm
      have hsum := addi_exact hk (by simp only [hw']; omega) (by simp only [hw']; omega)
      have hkw : k.w = 64 := by rw [hk']; exact hw'
      have hset : (k.v.setWidth 64).toInt = k.v.toInt := by
        obtain ⟨w, v, c⟩ := k
        simp only at hkw
        subst hkw
        simp
      obtain ⟨u, hu⟩ := Option.isSome_iff_exists.1 (value_isSome hs ht)
      refine ⟨u (s.v.toInt + i.toInt).toNat, ?_, ?_⟩
      · simp only [Extract.value, TExpr.value, hu, Option.map_some, Option.bind_some]
        rw [if_pos hi]
        congr 1
        unfold rotated
        have hlt : i.toInt.toNat < sh.last := by omega
        rw [Nat.div_eq_of_lt hlt, Nat.mod_eq_of_lt hlt, zero_mul, zero_add,
          Int.toNat_of_nonneg hi.1, add_comm, Int.emod_eq_of_lt h0 (by omega)]
      · simp only [Extract.value, hu, Option.bind_some, hset, hsum]
        rw [if_pos ⟨h0, h1⟩]
    · cases h
  · rename_i hne; exact (hne _ _ _ rfl).elim

example : rotatePlusExtract ⟨[], 10⟩ ⟨.rotate (.leaf fun f => f) ⟨64, 3, true⟩, 2⟩ =
    .ok ⟨.leaf fun f => f, 5⟩ := rfl

/-- C42 fails for rotation and extraction: the index is not reduced, so a read that wraps around
becomes a read outside the tensor. -/
theorem C42_extract_violated :
    let sh : Shape := ⟨[], 8⟩
    let e : Extract Nat := ⟨.rotate (.leaf fun f => f) ⟨64, 3, true⟩, 6⟩
    e.value sh = some 1 ∧
      ∃ e', rotatePlusExtract sh e = .ok e' ∧ e'.value sh = none := by
  refine ⟨by decide, ⟨.leaf fun f => f, 9⟩, rfl, by decide⟩

/-- C42 fails for rotation and extraction with a shift that is not of index type: the sum has
operands of two types. -/
theorem C42_extract_violated_type :
    rotatePlusExtract ⟨[], 8⟩ ⟨.rotate (.leaf fun f => f) ⟨32, 1, false⟩, 0⟩ = .invalid := rfl

/-! ## C53: lowering to slices -/

theorem slices_ok {n : Nat} (hn : 0 < n) (v : Nat → α) {k : Int} (h0 : 0 ≤ k) (hk : k < n) :
    copyCols n v (copyCols n v v 0 (n - k) k) k 0 (n - k) = rotated n k v := by
  funext f
  have hc : f % n < n := Nat.mod_lt f hn
  unfold rotated copyCols
  simp only
  by_cases h : (f % n : Nat) + k < n
  · rw [if_pos (by omega), Int.emod_eq_of_lt (by omega) h, sub_zero]
  · rw [if_neg (by omega), if_pos (by omega)]
    congr 2
    have : (((f % n : Nat) : Int) + k) % n = (f % n : Nat) + k - n := by
      rw [← Int.sub_emod_right, Int.emod_eq_of_lt (by omega) (by omega)]
    omega

theorem toInt_ofInt_of_lt {w : Nat} {x : Int} (h0 : 0 ≤ x) (h : 2 * x < 2 ^ w) :
    (BitVec.ofInt w x).toInt = x := by
  rw [BitVec.toInt_ofInt]
  have : ((2 ^ w : Nat) : Int) = 2 ^ w := by norm_cast
  apply Int.bmod_eq_of_le_mul_two <;> omega

/-- C53: the slices put together are the rotated tensor.

Partial: the type `iw` of the shift must be wide enough: half of `2^w` for a constant shift, a quarter
for a run-time shift. -/
theorem C53_slices_partial {sh : Shape} (hn : 0 < sh.last) (v : Nat → α) (s : Sh) (hw : s.w ≤ 64)
    (h : s.const = true ∧ 2 * sh.last ≤ 2 ^ s.w ∨ 4 * sh.last ≤ 2 ^ s.w) :
    convertRotate sh v s = some (rotated sh.last s.v.toInt v) := by
  have hcast : ((2 ^ s.w : Nat) : Int) = 2 ^ s.w := by norm_cast
  have h2 : 2 * sh.last ≤ 2 ^ s.w := by omega
  suffices H : ∃ k : Int, normalizedShift sh s = some (k, sh.last - k) ∧ 0 ≤ k ∧ k < sh.last ∧
      k ≡ s.v.toInt [ZMOD sh.last] by
    obtain ⟨k, e, h0, h1, hm⟩ := H
    unfold convertRotate
    rw [e]
    simp only [Option.bind_some]
    rw [if_pos (by omega), slices_ok hn v h0 h1, rotated_congr hm]
  unfold normalizedShift
  rw [if_neg (by omega)]
  have tm : ∀ x : Int, x.tmod sh.last ≡ x [ZMOD sh.last] := fun x => by
    have := Int.mul_tdiv_add_tmod x sh.last
    exact (Int.modEq_iff_dvd.2 ⟨x.tdiv sh.last, by omega⟩)
  have tlt : ∀ x : Int, -(sh.last : Int) < x.tmod sh.last ∧ x.tmod sh.last < sh.last := fun x => by
    exact ⟨Int.lt_tmod_of_pos x (by omega), Int.tmod_lt_of_pos x (by omega)⟩
  split
  · have hg : getInt s = .ok s.v.toInt := by
      unfold getInt
      rw [if_pos]
      have hpow : (2 : Int) ^ s.w ≤ 2 ^ 64 := by
        have := Nat.pow_le_pow_right (n := 2) (by omega) hw
        exact_mod_cast this
      have hlt := s.v.isLt
      rw [BitVec.toInt_eq_toNat_cond]
      split <;> omega
    rw [hg]
    simp only
    set r := s.v.toInt.tmod sh.last with hr
    have h3 := tlt s.v.toInt
    rw [← hr] at h3
    have h4 : r ≡ s.v.toInt [ZMOD sh.last] := tm _
    split
    · rw [toInt_ofInt_of_lt (by omega) (by omega)]
      refine ⟨_, rfl, by omega, by omega, ?_⟩
      exact (Int.add_modulus_modEq_iff.2 rfl : r + sh.last ≡ r [ZMOD sh.last]).trans h4
    · rw [toInt_ofInt_of_lt (by omega) (by omega)]
      exact ⟨_, rfl, by omega, by omega, h4⟩
  · rename_i hc
    have h4 : 4 * sh.last ≤ 2 ^ s.w := by
      rcases h with h | h
      · exact absurd h.1 hc
      · exact h
    have hd : (BitVec.ofNat s.w sh.last).toInt = sh.last := by
      rw [BitVec.toInt_eq_toNat_cond, BitVec.toNat_ofNat, Nat.mod_eq_of_lt (by omega),
        if_pos (by omega)]
    simp only
    rw [if_neg]
    · refine ⟨_, by rw [hd], ?_⟩
      rw [BitVec.toInt_srem, hd, toInt_add_of_fits]
      · rw [BitVec.toInt_srem, hd]
        have h5 := tlt s.v.toInt
        have h6 := tlt (s.v.toInt.tmod sh.last + sh.last)
        have h7 := Int.tmod_nonneg (a := s.v.toInt.tmod sh.last + sh.last) sh.last (by omega)
        refine ⟨h7, h6.2, (tm _).trans ?_⟩
        exact (Int.add_modulus_modEq_iff.2 rfl :
          s.v.toInt.tmod sh.last + sh.last ≡ s.v.toInt.tmod sh.last [ZMOD sh.last]).trans (tm _)
      · rw [BitVec.toInt_srem, hd]
        have h5 := tlt s.v.toInt
        omega
      · rw [BitVec.toInt_srem, hd]
        have h5 := tlt s.v.toInt
        omega
    · rintro (h | h)
      · rw [h] at hd
        rw [show (0 : BitVec s.w).toInt = 0 from BitVec.toInt_zero] at hd
        omega
      · have := congrArg BitVec.toNat h
        rw [show (-1 : BitVec s.w) = BitVec.allOnes s.w from BitVec.neg_one_eq_allOnes,
          BitVec.toNat_allOnes, BitVec.toNat_ofNat, Nat.mod_eq_of_lt (by omega)] at this
        omega

example : convertRotate ⟨[3], 10⟩ (fun f => f) ⟨8, -3, false⟩ =
    some (rotated 10 (-3) fun f => f) :=
  C53_slices_partial (by decide) _ _ (by decide) (.inr (by decide))

/-- C53 fails for a run-time shift whose type holds the dimension but not its double: a hundred
elements and an 8-bit shift. -/
theorem C53_violated_dynamic :
    convertRotate ⟨[], 100⟩ (fun f => f) ⟨8, 50, false⟩ = none := by rfl

/-- C53 fails for a constant shift whose type does not hold the dimension: the remainder no longer
fits. -/
theorem C53_violated_const :
    convertRotate ⟨[], 200⟩ (fun f => f) ⟨8, -50, true⟩ = none := by rfl

end Heir.Rotate
