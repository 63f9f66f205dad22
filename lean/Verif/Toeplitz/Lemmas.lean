import Verif.Toeplitz.Model
import Verif.Toeplitz.Spec
import Verif.Layout.Spec
import Mathlib.Algebra.BigOperators.Ring.Finset
import Mathlib.Algebra.BigOperators.Group.Finset.Sigma
import Mathlib.Tactic.Ring
import Mathlib.Tactic.LinearCombination
import Mathlib.Tactic.Linarith

/-! # Lemmas on the expansion of the filter -/

namespace Heir.Toeplitz

open Heir.Layout Finset

variable {R : Type} [CommRing R] {ι : Type}

/-! ## A matrix with at most one element of the filter in each position -/

/-- A row of a matrix described by positions, times a vector. -/
theorem row_dot {rel : ι → Nat → Nat → Prop} {F : ι → R} {rows cols : Nat} {A : Nat → Nat → R}
    (hA : Packs rel F rows cols A) (hu : Unambiguous rel) {r : Nat} (hr : r < rows)
    (S : Finset ι) (P : ι → Prop) [DecidablePred P] (pos : ι → Nat)
    (hrel : ∀ idx j, rel idx r j ↔ idx ∈ S ∧ P idx ∧ j = pos idx)
    (hpos : ∀ idx ∈ S, P idx → pos idx < cols) (x : Nat → R) :
    ∑ j ∈ range cols, A r j * x j = ∑ idx ∈ S, F idx * (if P idx then x (pos idx) else 0) := by
  have h1 : ∀ j ∈ range cols, A r j * x j =
      ∑ idx ∈ S, if P idx ∧ j = pos idx then F idx * x j else 0 := by
    intro j hj
    obtain ⟨ha, hb⟩ := hA r hr j (mem_range.1 hj)
    by_cases h : ∃ idx, rel idx r j
    · obtain ⟨idx, hi⟩ := h
      obtain ⟨hS, hP, hp⟩ := (hrel idx j).1 hi
      rw [ha idx hi, sum_eq_single_of_mem idx hS, if_pos ⟨hP, hp⟩]
      intro idx' hS' hne
      rw [if_neg]
      rintro ⟨hP', hp'⟩
      exact hne (hu idx' idx r j ((hrel idx' j).2 ⟨hS', hP', hp'⟩) hi)
    · rw [hb fun idx hi => h ⟨idx, hi⟩, zero_mul, sum_eq_zero]
      intro idx hS
      rw [if_neg]
      rintro ⟨hP, hp⟩
      exact h ⟨idx, (hrel idx j).2 ⟨hS, hP, hp⟩⟩
  rw [sum_congr rfl h1, sum_comm]
  refine sum_congr rfl fun idx hS => ?_
  by_cases hP : P idx
  · rw [if_pos hP, sum_eq_single_of_mem (pos idx) (mem_range.2 (hpos idx hS hP)),
      if_pos ⟨hP, rfl⟩]
    intro j _ hne
    rw [if_neg fun h => hne h.2]
  · rw [if_neg hP, mul_zero]
    exact sum_eq_zero fun j _ => if_neg fun h => hP h.1

/-- There is a matrix that holds the filter. -/
theorem exists_matrix {rel : ι → Nat → Nat → Prop} (hu : Unambiguous rel) (F : ι → R)
    (rows cols : Nat) : ∃ A : Nat → Nat → R, Packs rel F rows cols A := by
  classical
  refine ⟨fun r c => if h : ∃ idx, rel idx r c then F h.choose else 0, fun r _ c _ => ⟨?_, ?_⟩⟩
  · intro idx hi
    have h : ∃ idx, rel idx r c := ⟨idx, hi⟩
    dsimp only
    rw [dif_pos h, hu _ _ _ _ h.choose_spec hi]
  · intro h
    exact dif_neg fun hh => h hh.choose hh.choose_spec

/-! ## Sizes -/

theorem outSize_pos (w k s p : Nat) : 1 ≤ outSize w k s p := Nat.succ_le_succ (Nat.zero_le _)

/-- A window starts inside exactly when its number is below the output size. -/
theorem lt_outSize {w k s p o : Nat} (hs : 1 ≤ s) : o < outSize w k s p ↔ o * s ≤ w + 2 * p - k := by
  unfold outSize
  rw [Nat.lt_succ_iff, Nat.le_div_iff_mul_le (by omega)]

/-- Two-digit numbers. -/
theorem digits_lt {q n r m : Nat} (hq : q < n) (hr : r < m) : q * m + r < n * m := by
  have : (q + 1) * m ≤ n * m := Nat.mul_le_mul_right m hq
  rw [Nat.add_mul] at this
  omega

theorem digits_inj {q q' r r' m : Nat} (hr : r < m) (hr' : r' < m) (h : q * m + r = q' * m + r') :
    q = q' ∧ r = r' := by
  have hm : 0 < m := by omega
  have e : ∀ q r, r < m → (q * m + r) / m = q ∧ (q * m + r) % m = r := fun q r hr => by
    rw [Nat.mul_comm q m]
    exact ⟨by rw [Nat.mul_add_div hm, Nat.div_eq_of_lt hr, Nat.add_zero],
      by rw [Nat.mul_add_mod, Nat.mod_eq_of_lt hr]⟩
  have h1 := e q r hr
  have h2 := e q' r' hr'
  rw [h] at h1
  exact ⟨h1.1.symm.trans h2.1, h1.2.symm.trans h2.2⟩

theorem digits_split {n m r : Nat} (h : r < n * m) : r / m < n ∧ r % m < m ∧ r = r / m * m + r % m := by
  have hm : 0 < m := by
    rcases Nat.eq_zero_or_pos m with rfl | h'
    · simp at h
    · exact h'
  exact ⟨(Nat.div_lt_iff_lt_mul hm).2 h, Nat.mod_lt _ hm, (Nat.div_add_mod' r m).symm⟩

/-! ## One dimension -/

theorem filter1_iff (d : Conv1) (hs : 1 ≤ d.s) (hk : d.k ≤ d.w + 2 * d.p) (idx row col : Nat) :
    d.filter idx row col ↔ row < d.out ∧ idx < d.k ∧
      (d.p ≤ row * d.s + idx ∧ row * d.s + idx < d.p + d.w) ∧ col = row * d.s + idx - d.p := by
  unfold Conv1.filter Conv1.out
  rw [lt_outSize hs]
  split
  · constructor
    · rintro ⟨r, c, ⟨i, h1, h2, h3, h4, h5, h6, h7⟩, h8, h9, h10, rfl⟩
      rw [Nat.mul_comm] at h10
      generalize row * d.s = z at *
      omega
    · rintro ⟨h1, h2, ⟨h3, h4⟩, h5⟩
      refine ⟨row * d.s, col, ⟨((row * d.s : Nat) : Int) - d.p, ?_⟩, ?_⟩
      · generalize row * d.s = z at *
        omega
      · unfold rowStriding
        rw [Nat.mul_comm d.s row]
        generalize row * d.s = z at *
        omega
  · have : d.s = 1 := by omega
    rw [this, Nat.mul_one]
    constructor
    · rintro ⟨i, h1, h2, h3, h4, h5, h6, h7⟩
      omega
    · rintro ⟨h1, h2, ⟨h3, h4⟩, h5⟩
      exact ⟨(row : Int) - d.p, by omega⟩

theorem filter1_bound (d : Conv1) (hs : 1 ≤ d.s) (hk : d.k ≤ d.w + 2 * d.p) :
    IsBound d.filter d.out d.w := by
  intro idx row col h
  obtain ⟨h1, h2, h3, h4⟩ := (filter1_iff d hs hk idx row col).1 h
  exact ⟨h1, by omega⟩

theorem filter1_unambiguous (d : Conv1) (hs : 1 ≤ d.s) (hk : d.k ≤ d.w + 2 * d.p) :
    Unambiguous d.filter := by
  intro i i' row col h h'
  obtain ⟨h1, h2, h3, h4⟩ := (filter1_iff d hs hk i row col).1 h
  obtain ⟨h1', h2', h3', h4'⟩ := (filter1_iff d hs hk i' row col).1 h'
  omega

/-! ## Two dimensions -/

theorem filter2_iff (d : Conv2) (idx : Nat × Nat) (o q col : Nat) (ho : o < d.oh) (hq : q < d.ow) :
    d.filter idx (o * d.ow + q) col ↔ idx.1 < d.kh ∧ idx.2 < d.kw ∧
      ((d.p ≤ o * d.sh + idx.1 ∧ o * d.sh + idx.1 < d.p + d.h) ∧
        d.p ≤ q * d.sw + idx.2 ∧ q * d.sw + idx.2 < d.p + d.w) ∧
      col = (o * d.sh + idx.1 - d.p) * d.w + (q * d.sw + idx.2 - d.p) := by
  have key : ∀ (a b : Nat), d.p ≤ o * d.sh + a → d.p ≤ q * d.sw + b →
      (((o * d.sh + a - d.p) * d.w + (q * d.sw + b - d.p) : Nat) : Int) =
        o * (d.sh * d.w) + q * d.sw + a * d.w + b + (-(d.p : Int) * d.w - d.p) := by
    intro a b ha hb
    push_cast [Nat.cast_sub ha, Nat.cast_sub hb]
    ring
  unfold Conv2.filter
  constructor
  · rintro ⟨sr, sc, h1, h2, h3, h4, h5, h6, h7, h8, h9, h10⟩
    obtain ⟨rfl, rfl⟩ := digits_inj hq h4 h9
    have g1 : d.p ≤ o * d.sh + idx.1 := by
      have : ((o * d.sh : Nat) : Int) = (o : Int) * d.sh := by push_cast; ring
      omega
    have g2 : d.p ≤ q * d.sw + idx.2 := by
      have : ((q * d.sw : Nat) : Int) = (q : Int) * d.sw := by push_cast; ring
      omega
    refine ⟨h1, h2, ⟨⟨g1, ?_⟩, g2, ?_⟩, ?_⟩
    · have : ((o * d.sh : Nat) : Int) = (o : Int) * d.sh := by push_cast; ring
      omega
    · have : ((q * d.sw : Nat) : Int) = (q : Int) * d.sw := by push_cast; ring
      omega
    · have := key idx.1 idx.2 g1 g2
      rw [← h10] at this
      exact_mod_cast this.symm
  · rintro ⟨h1, h2, ⟨⟨h3, h4⟩, h5, h6⟩, h7⟩
    have e1 : ((o * d.sh : Nat) : Int) = (o : Int) * d.sh := by push_cast; ring
    have e2 : ((q * d.sw : Nat) : Int) = (q : Int) * d.sw := by push_cast; ring
    refine ⟨o, q, h1, h2, ho, hq, by omega, by omega, by omega, by omega, rfl, ?_⟩
    rw [h7]
    exact key idx.1 idx.2 h3 h5

theorem filter2_row (d : Conv2) {idx : Nat × Nat} {row col : Nat} (h : d.filter idx row col) :
    ∃ o q, o < d.oh ∧ q < d.ow ∧ row = o * d.ow + q := by
  obtain ⟨sr, sc, _, _, h3, h4, _, _, _, _, h9, _⟩ := h
  exact ⟨sr, sc, h3, h4, h9⟩

theorem filter2_bound (d : Conv2) : IsBound d.filter d.rows d.cols := by
  intro idx row col h
  obtain ⟨o, q, ho, hq, rfl⟩ := filter2_row d h
  obtain ⟨_, _, ⟨h3, h4⟩, rfl⟩ := (filter2_iff d idx o q col ho hq).1 h
  exact ⟨digits_lt ho hq, digits_lt (by omega) (by omega)⟩

theorem filter2_unambiguous (d : Conv2) : Unambiguous d.filter := by
  intro i i' row col h h'
  obtain ⟨o, q, ho, hq, rfl⟩ := filter2_row d h
  obtain ⟨h1, h2, ⟨h3, h4⟩, h5⟩ := (filter2_iff d i o q col ho hq).1 h
  obtain ⟨h1', h2', ⟨h3', h4'⟩, h5'⟩ := (filter2_iff d i' o q col ho hq).1 h'
  obtain ⟨e1, e2⟩ := digits_inj (by omega) (by omega) (h5.symm.trans h5')
  exact Prod.ext (by omega) (by omega)

/-! ## Channels -/

theorem channels_iff {f c rows cols : Nat} {single : ι → Nat → Nat → Prop}
    (hb : IsBound single rows cols) (idx : Nat × Nat × ι) (g r col : Nat) (hr : r < rows) :
    channels f c rows cols single idx (g * rows + r) col ↔ g < f ∧ idx.1 = g ∧ idx.2.1 < c ∧
      ∃ sc, single idx.2.2 r sc ∧ col = idx.2.1 * cols + sc := by
  constructor
  · rintro ⟨sr, sc, h1, h2, h3, h4, h5, -, -⟩
    obtain ⟨rfl, rfl⟩ := digits_inj hr (hb _ _ _ h1).1 h4
    exact ⟨h2, rfl, h3, sc, h1, h5⟩
  · rintro ⟨h1, h2, h3, sc, h4, h5⟩
    refine ⟨r, sc, h4, by omega, h3, by rw [h2], h5, ?_, ?_⟩
    · have := digits_lt h1 hr
      have e : ((f * rows : Nat) : Int) = (f : Int) * rows := by push_cast; ring
      omega
    · have := digits_lt h3 (hb _ _ _ h4).2
      have e : ((c * cols : Nat) : Int) = (c : Int) * cols := by push_cast; ring
      omega

theorem channels_bound {f c rows cols : Nat} {single : ι → Nat → Nat → Prop}
    (hb : IsBound single rows cols) : IsBound (channels f c rows cols single) (f * rows) (c * cols) := by
  rintro idx row col ⟨sr, sc, h1, h2, h3, rfl, rfl, -, -⟩
  exact ⟨digits_lt h2 (hb _ _ _ h1).1, digits_lt h3 (hb _ _ _ h1).2⟩

theorem channels_unambiguous {f c rows cols : Nat} {single : ι → Nat → Nat → Prop}
    (hb : IsBound single rows cols) (hu : Unambiguous single) :
    Unambiguous (channels f c rows cols single) := by
  rintro ⟨a, b, i⟩ ⟨a', b', i'⟩ row col ⟨sr, sc, h1, _, _, h4, h5, _, _⟩
    ⟨sr', sc', h1', _, _, h4', h5', _, _⟩
  dsimp only at *
  obtain ⟨e1, rfl⟩ := digits_inj (hb _ _ _ h1).1 (hb _ _ _ h1').1 (h4.symm.trans h4')
  obtain ⟨e2, rfl⟩ := digits_inj (hb _ _ _ h1).2 (hb _ _ _ h1').2 (h5.symm.trans h5')
  rw [e1, e2, hu _ _ _ _ h1 h1']

end Heir.Toeplitz
