import Verif.Toeplitz.Lemmas

/-! # Lemmas on the row interchange and the sequence of relations -/

namespace Heir.Toeplitz

open Heir.Layout

/-- A relation that permutes the numbers below `n`. -/
structure IsPerm (n : Nat) (π : Nat → Nat → Prop) : Prop where
  bound : ∀ {i o}, π i o → i < n ∧ o < n
  total : ∀ i, i < n → ∃ o, π i o
  onto : ∀ o, o < n → ∃ i, π i o
  functional : ∀ {i o o'}, π i o → π i o' → o = o'
  injective : ∀ {i i' o}, π i o → π i' o → i = i'

/-! ## One dimension -/

theorem interchange1_iff {c w g : Nat} (hg : 1 ≤ g) (hc : g ∣ c) (i o : Nat) :
    interchange1 c w g i o ↔ ∃ wi a b, wi < w ∧ a < g ∧ b < c / g ∧ i = (b * g + a) * w + wi ∧
      o = b * (w * g) + (wi * g + a) := by
  constructor
  · rintro ⟨wi, ci, wo, co, h1, h2, h3, h4, rfl, rfl, rfl, rfl, h5, h6⟩
    refine ⟨wi, ci % g, ci / g, h1, Nat.mod_lt _ hg, h4, ?_, by omega⟩
    rw [Nat.div_add_mod' ci g]; omega
  · rintro ⟨wi, a, b, h1, h2, h3, rfl, rfl⟩
    have hci : b * g + a < c := by
      have := digits_lt h3 h2
      rwa [Nat.div_mul_cancel hc] at this
    have e1 : (b * g + a) / g = b := by
      rw [Nat.mul_comm b g, Nat.mul_add_div (by omega), Nat.div_eq_of_lt h2, Nat.add_zero]
    have e2 : (b * g + a) % g = a := by
      rw [Nat.mul_comm b g, Nat.mul_add_mod, Nat.mod_eq_of_lt h2]
    refine ⟨wi, b * g + a, wi * g + a, b, h1, hci, digits_lt h1 h2, h3, e1.symm, by rw [e2],
      by omega, by omega, digits_lt hci h1, ?_⟩
    have := digits_lt h3 (digits_lt h1 h2)
    have e : c / g * (w * g) = c * w := by
      rw [Nat.mul_comm w g, ← Nat.mul_assoc, Nat.div_mul_cancel hc]
    omega

theorem interchange1_perm {c w g : Nat} (hg : 1 ≤ g) (hc : g ∣ c) :
    IsPerm (c * w) (interchange1 c w g) where
  bound := by
    rintro i o ⟨wi, ci, wo, co, -, -, -, -, -, -, -, -, h5, h6⟩
    exact ⟨h5, h6⟩
  total := by
    intro i hi
    obtain ⟨h1, h2, h3⟩ := digits_split hi
    rw [← Nat.div_mul_cancel hc] at h1
    obtain ⟨h4, h5, h6⟩ := digits_split h1
    refine ⟨_, (interchange1_iff hg hc _ _).2 ⟨i % w, i / w % g, i / w / g, h2, h5, h4, ?_, rfl⟩⟩
    rw [← h6]; exact h3
  onto := by
    intro o ho
    have e : c * w = c / g * (w * g) := by
      rw [Nat.mul_comm w g, ← Nat.mul_assoc, Nat.div_mul_cancel hc]
    rw [e] at ho
    obtain ⟨h1, h2, h3⟩ := digits_split ho
    obtain ⟨h4, h5, h6⟩ := digits_split h2
    refine ⟨_, (interchange1_iff hg hc _ _).2 ⟨o % (w * g) / g, o % (w * g) % g, o / (w * g), h4,
      h5, h1, rfl, ?_⟩⟩
    rw [← h6]; exact h3
  functional := by
    intro i o o' h h'
    obtain ⟨wi, a, b, h1, h2, h3, h4, rfl⟩ := (interchange1_iff hg hc _ _).1 h
    obtain ⟨wi', a', b', h1', h2', h3', h4', rfl⟩ := (interchange1_iff hg hc _ _).1 h'
    obtain ⟨e1, rfl⟩ := digits_inj h1 h1' (h4.symm.trans h4')
    obtain ⟨rfl, rfl⟩ := digits_inj h2 h2' e1
    rfl
  injective := by
    intro i i' o h h'
    obtain ⟨wi, a, b, h1, h2, h3, rfl, h4⟩ := (interchange1_iff hg hc _ _).1 h
    obtain ⟨wi', a', b', h1', h2', h3', rfl, h4'⟩ := (interchange1_iff hg hc _ _).1 h'
    obtain ⟨rfl, e1⟩ := digits_inj (digits_lt h1 h2) (digits_lt h1' h2') (h4.symm.trans h4')
    obtain ⟨rfl, rfl⟩ := digits_inj h2 h2' e1
    rfl

/-! ## Two dimensions -/

/-- The digits of a channel number in bases `g`, `g`. -/
theorem channel_digits {g a a' b : Nat} (hg : 1 ≤ g) (ha : a < g) (ha' : a' < g) :
    ((b * g + a') * g + a) % g = a ∧ ((b * g + a') * g + a) % (g * g) / g = a' ∧
      ((b * g + a') * g + a) / (g * g) = b := by
  have e0 : (b * g + a') * g + a = g * (g * b + a') + a := by ring
  have e1 : ((b * g + a') * g + a) % g = a := by rw [e0, Nat.mul_add_mod, Nat.mod_eq_of_lt ha]
  have e2 : ((b * g + a') * g + a) / g = g * b + a' := by
    rw [e0, Nat.mul_add_div (by omega), Nat.div_eq_of_lt ha, Nat.add_zero]
  refine ⟨e1, ?_, ?_⟩
  · rw [Nat.mod_mul_right_div_self, e2, Nat.mul_add_mod, Nat.mod_eq_of_lt ha']
  · rw [← Nat.div_div_eq_div_mul, e2, Nat.mul_add_div (by omega), Nat.div_eq_of_lt ha', Nat.add_zero]

/-- Every channel number has digits. -/
theorem channel_split {c g ci : Nat} (hc : g * g ∣ c) (h : ci < c) :
    ∃ a a' b, a < g ∧ a' < g ∧ b < c / (g * g) ∧ ci = (b * g + a') * g + a := by
  obtain ⟨q, rfl⟩ := hc
  have hgg : 0 < g * g := by
    rcases Nat.eq_zero_or_pos (g * g) with h0 | h0
    · rw [h0, Nat.zero_mul] at h; omega
    · exact h0
  rw [Nat.mul_div_cancel_left _ hgg]
  have h' : ci < q * g * g := by
    have : g * g * q = q * g * g := by ring
    omega
  obtain ⟨h1, h2, h3⟩ := digits_split h'
  obtain ⟨h4, h5, h6⟩ := digits_split h1
  exact ⟨ci % g, ci / g % g, ci / g / g, h2, h5, h4, by rw [← h6]; exact h3⟩

theorem interchange2_iff {c h w g : Nat} (hg : 1 ≤ g) (hc : g * g ∣ c) (i o : Nat) :
    interchange2 c h w g i o ↔ ∃ hi wi a a' b, hi < h ∧ wi < w ∧ a < g ∧ a' < g ∧
      b < c / (g * g) ∧ i = (((b * g + a') * g + a) * h + hi) * w + wi ∧
      o = (b * (h * g) + (hi * g + a')) * (w * g) + (wi * g + a) := by
  have hpow : g ^ 2 = g * g := Nat.pow_two g
  unfold interchange2
  rw [hpow]
  constructor
  · rintro ⟨hi, wi, ci, ho, wo, co, h1, h2, h3, h4, h5, h6, rfl, rfl, rfl, rfl, rfl, -, -⟩
    obtain ⟨a, a', b, ha, ha', hb, rfl⟩ := channel_split hc h3
    obtain ⟨e1, e2, e3⟩ := channel_digits (b := b) hg ha ha'
    refine ⟨hi, wi, a, a', b, h1, h2, ha, ha', hb, by ring, ?_⟩
    rw [e1, e2, e3]; ring
  · rintro ⟨hi, wi, a, a', b, h1, h2, ha, ha', hb, rfl, rfl⟩
    obtain ⟨e1, e2, e3⟩ := channel_digits (b := b) hg ha ha'
    have hci : (b * g + a') * g + a < c := by
      have := digits_lt (digits_lt hb ha') ha
      rwa [Nat.mul_assoc, Nat.div_mul_cancel hc] at this
    refine ⟨hi, wi, (b * g + a') * g + a, hi * g + a', wi * g + a, b, h1, h2, hci, digits_lt h1 ha',
      digits_lt h2 ha, hb, e3.symm, by rw [e1], by rw [e2], by ring, by ring,
      digits_lt (digits_lt hci h1) h2, ?_⟩
    have := digits_lt (digits_lt hb (digits_lt h1 ha')) (digits_lt h2 ha)
    have e : c / (g * g) * (h * g) * (w * g) = c * h * w := by
      have : c / (g * g) * (h * g) * (w * g) = c / (g * g) * (g * g) * h * w := by ring
      rw [this, Nat.div_mul_cancel hc]
    omega

theorem interchange2_perm {c h w g : Nat} (hg : 1 ≤ g) (hc : g * g ∣ c) :
    IsPerm (c * h * w) (interchange2 c h w g) where
  bound := by
    rintro i o ⟨hi, wi, ci, ho, wo, co, -, -, -, -, -, -, -, -, -, -, -, h5, h6⟩
    exact ⟨h5, h6⟩
  total := by
    intro i hi
    obtain ⟨h1, h2, h3⟩ := digits_split hi
    obtain ⟨h4, h5, h6⟩ := digits_split h1
    obtain ⟨a, a', b, ha, ha', hb, e⟩ := channel_split hc h4
    refine ⟨_, (interchange2_iff hg hc _ _).2
      ⟨i / w % h, i % w, a, a', b, h5, h2, ha, ha', hb, ?_, rfl⟩⟩
    rw [← e, ← h6]; exact h3
  onto := by
    intro o ho
    have e : c * h * w = c / (g * g) * (h * g) * (w * g) := by
      have : c / (g * g) * (h * g) * (w * g) = c / (g * g) * (g * g) * h * w := by ring
      rw [this, Nat.div_mul_cancel hc]
    rw [e] at ho
    obtain ⟨h1, h2, h3⟩ := digits_split ho
    obtain ⟨h4, h5, h6⟩ := digits_split h1
    obtain ⟨h7, h8, h9⟩ := digits_split h2
    obtain ⟨h10, h11, h12⟩ := digits_split h5
    refine ⟨_, (interchange2_iff hg hc _ _).2
      ⟨_, _, _, _, _, h10, h7, h8, h11, h4, rfl, ?_⟩⟩
    rw [← h9, ← h12, ← h6]; exact h3
  functional := by
    intro i o o' h h'
    obtain ⟨hi, wi, a, a', b, h1, h2, h3, h4, h5, h6, rfl⟩ := (interchange2_iff hg hc _ _).1 h
    obtain ⟨hi', wi', x, x', b', g1, g2, g3, g4, g5, g6, rfl⟩ := (interchange2_iff hg hc _ _).1 h'
    obtain ⟨e1, rfl⟩ := digits_inj h2 g2 (h6.symm.trans g6)
    obtain ⟨e2, rfl⟩ := digits_inj h1 g1 e1
    obtain ⟨e3, rfl⟩ := digits_inj h3 g3 e2
    obtain ⟨rfl, rfl⟩ := digits_inj h4 g4 e3
    rfl
  injective := by
    intro i i' o h h'
    obtain ⟨hi, wi, a, a', b, h1, h2, h3, h4, h5, rfl, h6⟩ := (interchange2_iff hg hc _ _).1 h
    obtain ⟨hi', wi', x, x', b', g1, g2, g3, g4, g5, rfl, g6⟩ := (interchange2_iff hg hc _ _).1 h'
    obtain ⟨e1, e2⟩ := digits_inj (digits_lt h2 h3) (digits_lt g2 g3) (h6.symm.trans g6)
    obtain ⟨rfl, rfl⟩ := digits_inj h3 g3 e2
    obtain ⟨rfl, e4⟩ := digits_inj (digits_lt h1 h4) (digits_lt g1 g4) e1
    obtain ⟨rfl, rfl⟩ := digits_inj h4 g4 e4
    rfl

/-! ## The matrix with permuted rows -/

section
variable {ι : Type}

theorem interchangeRows_iff {rel : ι → Nat → Nat → Prop} {π : Nat → Nat → Prop} {n : Nat}
    (hπ : IsPerm n π) {r r' : Nat} (h : π r r') (idx : ι) (col : Nat) :
    interchangeRows rel π idx r' col ↔ rel idx r col := by
  constructor
  · rintro ⟨s, c, h1, h2, rfl⟩
    rwa [hπ.injective h h2]
  · intro h1
    exact ⟨r, col, h1, h, rfl⟩

theorem interchangeRows_bound {rel : ι → Nat → Nat → Prop} {π : Nat → Nat → Prop} {n cols : Nat}
    (hπ : IsPerm n π) (hb : IsBound rel n cols) : IsBound (interchangeRows rel π) n cols := by
  rintro idx row col ⟨r, c, h1, h2, rfl⟩
  exact ⟨(hπ.bound h2).2, (hb _ _ _ h1).2⟩

theorem interchangeRows_unambiguous {rel : ι → Nat → Nat → Prop} {π : Nat → Nat → Prop} {n : Nat}
    (hπ : IsPerm n π) (hu : Unambiguous rel) : Unambiguous (interchangeRows rel π) := by
  rintro i i' row col ⟨r, c, h1, h2, rfl⟩ ⟨r', c', h1', h2', rfl⟩
  have := hπ.injective h2 h2'
  subst this
  exact hu _ _ _ _ h1 h1'

end

/-! ## The sequence -/

theorem step1_iff (d : Conv2) (nf nc : Nat) (idx : Nat × Nat × Nat × Nat) (f c oh ow col : Nat) :
    d.step1 nf nc idx.1 idx.2.1 idx.2.2.1 idx.2.2.2 f c oh ow col ↔
      idx.1 = f ∧ idx.2.1 = c ∧ f < nf ∧ c < nc ∧ oh < d.oh ∧ ow < d.ow ∧
        d.filter idx.2.2 (oh * d.ow + ow) col := by
  have e1 : ((oh * d.sh : Nat) : Int) = (oh : Int) * d.sh := by push_cast; ring
  have e2 : ((ow * d.sw : Nat) : Int) = (ow : Int) * d.sw := by push_cast; ring
  have key : d.p ≤ oh * d.sh + idx.2.2.1 → d.p ≤ ow * d.sw + idx.2.2.2 →
      (((oh * d.sh + idx.2.2.1 - d.p) * d.w + (ow * d.sw + idx.2.2.2 - d.p) : Nat) : Int) =
        ((oh : Int) * d.sh - d.p + idx.2.2.1) * d.w + ow * d.sw - d.p + idx.2.2.2 := by
    intro ha hb
    push_cast [Nat.cast_sub ha, Nat.cast_sub hb]
    ring
  constructor
  · rintro ⟨rfl, rfl, h1, h2, h3, h4, h5, h6, h7, h8, h9, h10, h11⟩
    refine ⟨rfl, rfl, h1, h2, h5, h6, (filter2_iff d _ _ _ _ h5 h6).2
      ⟨h3, h4, ⟨⟨by omega, by omega⟩, by omega, by omega⟩, ?_⟩⟩
    have := key (by omega) (by omega)
    rw [← h7] at this
    exact_mod_cast this.symm
  · rintro ⟨rfl, rfl, h1, h2, h5, h6, h7⟩
    obtain ⟨h8, h9, ⟨⟨h10, h11⟩, h12, h13⟩, h14⟩ := (filter2_iff d _ _ _ _ h5 h6).1 h7
    refine ⟨rfl, rfl, h1, h2, h8, h9, h5, h6, ?_, by omega, by omega, by omega, by omega⟩
    rw [h14]
    exact key h10 h12

/-- Without the interchange the sequence expands the filter as the direct relation does. -/
theorem matrix_false_iff (d : Conv2) (nf nc : Nat) (idx : Nat × Nat × Nat × Nat) (row col : Nat) :
    d.matrix nf nc false idx row col ↔ d.filterMulti nf nc idx row col := by
  unfold Conv2.matrix Conv2.filterMulti
  constructor
  · rintro ⟨f, c, oh, ow, cl, h1, f', c', oh', ow', cl', h2, r, c'', cl'', h3, h4⟩
    rw [if_neg (by decide)] at h2
    obtain ⟨rfl, rfl, rfl, rfl, rfl⟩ : f' = f ∧ c' = c ∧ oh' = oh ∧ ow' = ow ∧ cl' = cl := by
      simpa using h2
    obtain ⟨e1, e2, g1, g2, g3, g4, g5⟩ := (step1_iff d nf nc idx _ _ _ _ _).1 h1
    obtain ⟨-, -, -, -, -, rfl, rfl, rfl⟩ := h3
    obtain ⟨-, -, -, rfl, rfl⟩ := h4
    have hb := filter2_bound d _ _ _ g5
    have e : f' * d.oh * d.ow + oh' * d.ow + ow' = f' * d.rows + (oh' * d.ow + ow') := by
      unfold Conv2.rows; ring
    simp only [Bool.false_eq_true, if_false]
    rw [e]
    exact (channels_iff (filter2_bound d) idx f' _ _ hb.1).2
      ⟨g1, e1, by omega, cl'', g5, by rw [e2]⟩
  · rintro ⟨sr, sc, h1, h2, h3, rfl, rfl, -, -⟩
    obtain ⟨o, q, ho, hq, rfl⟩ := filter2_row d h1
    have hb := filter2_bound d _ _ _ h1
    refine ⟨idx.1, idx.2.1, o, q, sc, (step1_iff d nf nc idx _ _ _ _ _).2
      ⟨rfl, rfl, h2, h3, ho, hq, h1⟩, idx.1, idx.2.1, o, q, sc, rfl, _, _, _,
      ⟨h2, h3, ho, hq, ?_, rfl, rfl, rfl⟩, ?_, h3, hb.2, ?_, rfl⟩
    · have := digits_lt h3 hb.2
      omega
    · have := digits_lt h2 hb.1
      have e : idx.1 * d.oh * d.ow + o * d.ow + q = idx.1 * d.rows + (o * d.ow + q) := by
        unfold Conv2.rows; ring
      simp only [Bool.false_eq_true, if_false]
      omega
    · simp only [Bool.false_eq_true, if_false]
      unfold Conv2.rows; ring

/-- With the interchange the sequence permutes the rows of the expanded filter. -/
theorem matrix_true_iff (d : Conv2) (nf nc : Nat) (hg : 1 ≤ d.sh) (hc : d.sh * d.sh ∣ nf)
    (idx : Nat × Nat × Nat × Nat) (row col : Nat) :
    d.matrix nf nc true idx row col ↔
      interchangeRows (d.filterMulti nf nc) (interchange2 nf d.oh d.ow d.sh) idx row col := by
  unfold Conv2.matrix interchangeRows Conv2.filterMulti
  constructor
  · rintro ⟨f, c, oh, ow, cl, h1, f', c', oh', ow', cl', h2, r, c'', cl'', h3, h4⟩
    rw [if_pos rfl] at h2
    obtain ⟨e1, e2, g1, g2, g3, g4, g5⟩ := (step1_iff d nf nc idx _ _ _ _ _).1 h1
    obtain ⟨-, -, -, -, -, rfl, rfl, rfl, rfl, rfl⟩ := h2
    obtain ⟨-, -, -, -, -, rfl, rfl, rfl⟩ := h3
    obtain ⟨-, -, -, rfl, rfl⟩ := h4
    have hb := filter2_bound d _ _ _ g5
    refine ⟨f * d.rows + (oh * d.ow + ow), _, (channels_iff (filter2_bound d) idx f _ _ hb.1).2
      ⟨g1, e1, by omega, cl'', g5, by rw [e2]⟩, ?_, rfl⟩
    obtain ⟨a, a', b, ha, ha', hb', rfl⟩ := channel_split hc g1
    obtain ⟨q1, q2, q3⟩ := channel_digits (b := b) hg ha ha'
    refine (interchange2_iff hg hc _ _).2 ⟨oh, ow, a, a', b, g3, g4, ha, ha', hb', ?_, ?_⟩
    · unfold Conv2.rows; ring
    · simp only [if_true]
      rw [q1, q2, q3]; ring
  · rintro ⟨r, c, ⟨sr, sc, h1, h2, h3, rfl, rfl, -, -⟩, hp, rfl⟩
    obtain ⟨o, q, ho, hq, rfl⟩ := filter2_row d h1
    have hb := filter2_bound d _ _ _ h1
    have hcol := digits_lt h3 hb.2
    have hrow := ((interchange2_perm hg hc).bound hp).2
    obtain ⟨a, a', b, ha, ha', hb', e⟩ := channel_split hc h2
    obtain ⟨q1, q2, q3⟩ := channel_digits (b := b) hg ha ha'
    have hp' := (interchange2_iff hg hc _ _).2 ⟨o, q, a, a', b, ho, hq, ha, ha', hb', rfl, rfl⟩
    have er : idx.1 * d.rows + (o * d.ow + q) = (((b * d.sh + a') * d.sh + a) * d.oh + o) * d.ow + q := by
      rw [e]; unfold Conv2.rows; ring
    rw [er] at hp
    have := (interchange2_perm hg hc).functional hp hp'
    subst this
    refine ⟨idx.1, idx.2.1, o, q, sc, (step1_iff d nf nc idx _ _ _ _ _).2
      ⟨rfl, rfl, h2, h3, ho, hq, h1⟩, b, idx.2.1, o * d.sh + a', q * d.sh + a, sc, ?_, _, _, _,
      ⟨hb', h3, digits_lt ho ha', digits_lt hq ha, ?_, rfl, rfl, rfl⟩, ?_, h3, hb.2, ?_, rfl⟩
    · rw [if_pos rfl]
      refine ⟨h2, h3, ho, hq, ?_, rfl, rfl, ?_, ?_, ?_⟩
      · have := Nat.zero_le (idx.2.1 * d.cols); omega
      · rw [e, q1]
      · rw [e, q2]
      · rw [e, q3]
    · have := Nat.zero_le (idx.2.1 * d.cols); omega
    · simp only [if_true]
      have e2 : nf * d.rows = nf * d.oh * d.ow := by unfold Conv2.rows; ring
      have e3 : b * (d.oh * d.sh) * (d.ow * d.sh) + (o * d.sh + a') * (d.ow * d.sh) + (q * d.sh + a) =
        (b * (d.oh * d.sh) + (o * d.sh + a')) * (d.ow * d.sh) + (q * d.sh + a) := by ring
      omega
    · simp only [if_true]
      ring

/-- A remainder written as a divisibility. -/
theorem sub_emod_eq_zero {a m b : Nat} (hb : b < m) : ((a : Int) - b) % m = 0 ↔ b = a % m := by
  rw [← Int.emod_eq_emod_iff_emod_sub_eq_zero]
  constructor
  · intro h
    have h4 : a % m = b % m := by exact_mod_cast h
    rw [h4, Nat.mod_eq_of_lt hb]
  · intro h
    have : a % m = b % m := by rw [Nat.mod_eq_of_lt hb, h]
    exact_mod_cast this

end Heir.Toeplitz
