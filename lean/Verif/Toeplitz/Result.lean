import Verif.Toeplitz.Kernel

/-! # Lemmas on the layouts of the results -/

namespace Heir.Toeplitz

open Heir.Layout Heir.Kernel

/-- The flattening reaches every position. -/
theorem flat_surj : ∀ {dims : List Nat}, (∀ x ∈ dims, 1 ≤ x) → dims.prod < 2 ^ 32 → ∀ i, i < dims.prod →
    ∃ idx, InBounds dims idx ∧ flat dims idx = i
  | [], _, _, i, hi => ⟨[], by simp [InBounds], by simp [flat, strides] at *; omega⟩
  | d :: ds, hp, h, i, hi => by
    have hp' : ∀ x ∈ ds, 1 ≤ x := fun x hx => hp x (List.mem_cons_of_mem _ hx)
    have h' := prod_tail_lt (hp d List.mem_cons_self) h
    rw [List.prod_cons] at hi
    obtain ⟨h1, h2, h3⟩ := digits_split hi
    obtain ⟨idx, hb, e⟩ := flat_surj hp' h' _ h2
    refine ⟨i / ds.prod :: idx, List.Forall₂.cons h1 hb, ?_⟩
    rw [flat_cons hp' h', e, Nat.mul_comm]
    exact h3.symm

theorem flat3 {c w : Nat} (hc : 1 ≤ c) (hw : 1 ≤ w) (h : c * w < 2 ^ 32) (i f o : Nat) (hi : i < 1) :
    flat [1, c, w] [i, f, o] = f * w + o := by
  obtain rfl : i = 0 := by omega
  have hw' : w < 2 ^ 32 := lt_of_le_of_lt (Nat.le_mul_of_pos_left w (by omega)) h
  rw [flat_cons (by simp; omega) (by simpa using h), flat_cons (by simpa using hw) (by simpa using hw'),
    flat_cons (by simp) (by simp)]
  simp [flat, strides, Nat.mul_comm]

theorem flat4 {c h w : Nat} (hc : 1 ≤ c) (hh : 1 ≤ h) (hw : 1 ≤ w) (hl : c * h * w < 2 ^ 32)
    (i f o q : Nat) (hi : i < 1) : flat [1, c, h, w] [i, f, o, q] = (f * h + o) * w + q := by
  obtain rfl : i = 0 := by omega
  have h1 : h * w < 2 ^ 32 := by
    rw [Nat.mul_assoc] at hl
    exact lt_of_le_of_lt (Nat.le_mul_of_pos_left (h * w) (by omega)) hl
  have hw' : w < 2 ^ 32 := lt_of_le_of_lt (Nat.le_mul_of_pos_left w (by omega)) h1
  rw [flat_cons (by simp; omega) (by simpa [Nat.mul_assoc] using hl),
    flat_cons (by simp; omega) (by simpa using h1), flat_cons (by simpa using hw) (by simpa using hw'),
    flat_cons (by simp) (by simp)]
  simp [flat, strides]
  ring

theorem flat2 {h w : Nat} (hw : 1 ≤ w) (hl : w < 2 ^ 32) (o q : Nat) :
    flat [h, w] [o, q] = o * w + q := by
  rw [flat_cons (by simpa using hw) (by simpa using hl), flat_cons (by simp) (by simp)]
  simp [flat, strides, Nat.mul_comm]

theorem inBounds3 {c w : Nat} {idx : List Nat} (h : InBounds [1, c, w] idx) :
    ∃ i f o, idx = [i, f, o] ∧ i < 1 ∧ f < c ∧ o < w := by
  cases h with
  | cons h1 t => cases t with
    | cons h2 t => cases t with
      | cons h3 t => cases t; exact ⟨_, _, _, rfl, h1, h2, h3⟩

theorem inBounds4 {c h w : Nat} {idx : List Nat} (hb : InBounds [1, c, h, w] idx) :
    ∃ i f o q, idx = [i, f, o, q] ∧ i < 1 ∧ f < c ∧ o < h ∧ q < w := by
  cases hb with
  | cons h1 t => cases t with
    | cons h2 t => cases t with
      | cons h3 t => cases t with
        | cons h4 t => cases t; exact ⟨_, _, _, _, rfl, h1, h2, h3, h4⟩

theorem inBounds2 {h w : Nat} {idx : List Nat} (hb : InBounds [h, w] idx) :
    ∃ o q, idx = [o, q] ∧ o < h ∧ q < w := by
  cases hb with
  | cons h1 t => cases t with
    | cons h2 t => cases t; exact ⟨_, _, rfl, h1, h2⟩

theorem numCts_eq {n N : Nat} (hn : 1 ≤ n) (hn' : n ≤ 2 ^ 24) (hN : 1 ≤ N) (hN' : N ≤ 2 ^ 24) :
    numCts n N = (((n - 1) / N : Nat) : Int) + 1 := by
  unfold numCts
  rw [f32_nat hn', f32_nat hN', ceil_f32 hn hn' hN hN']

theorem lt_numCts {n N i : Nat} (hi : i < n) (hn' : n ≤ 2 ^ 24) (hN : 1 ≤ N) (hN' : N ≤ 2 ^ 24) :
    ((i / N : Nat) : Int) < numCts n N := by
  rw [numCts_eq (by omega) hn' hN hN']
  have : i / N ≤ (n - 1) / N := Nat.div_le_div_right (by omega)
  omega

/-- The first step of the result layouts flattens the index. -/
theorem flatten_iff {dims : List Nat} (h1 : 1 ≤ dims.prod) (h2 : dims.prod ≤ 2 ^ 24) (idx : List Nat)
    (ct s : Nat) : (rowMajor dims (numElements dims) idx ct s ∧ ct = 0) ↔
      InBounds dims idx ∧ ct = 0 ∧ s = flat dims idx := by
  have hp := pos_of_prod h1
  have hpad := padded_ge h1 (by omega)
  unfold rowMajor
  rw [numElements_eq, lastCt_eq h1 h2 h1 h2]
  constructor
  · rintro ⟨⟨hb, _, h4, _, h6⟩, rfl⟩
    have hf := flat_lt hb hp (by omega)
    rw [Nat.mod_eq_of_lt (by omega), Nat.mod_eq_of_lt hf] at h6
    exact ⟨hb, rfl, h6⟩
  · rintro ⟨hb, rfl, rfl⟩
    have hf := flat_lt hb hp (by omega)
    refine ⟨⟨hb, Int.ofNat_le.2 (Nat.zero_le _), hf, Nat.div_eq_of_lt hf, ?_⟩, rfl⟩
    rw [Nat.mod_eq_of_lt (by omega), Nat.mod_eq_of_lt hf]

theorem result2_iff {dims : List Nat} (h1 : 1 ≤ dims.prod) (h2 : dims.prod ≤ 2 ^ 24) (N : Nat)
    (idx : List Nat) (ct slot : Nat) : result2 dims N idx ct slot ↔
      InBounds dims idx ∧ toCtSlot dims.prod N (flat dims idx) ct slot := by
  unfold result2
  simp only [← and_assoc]
  simp only [numElements_eq]
  constructor
  · rintro ⟨ct0, s0, h, h'⟩
    rw [← numElements_eq, flatten_iff h1 h2] at h
    obtain ⟨hb, -, rfl⟩ := h
    exact ⟨hb, h'⟩
  · rintro ⟨hb, h'⟩
    refine ⟨0, _, ?_, h'⟩
    rw [← numElements_eq, flatten_iff h1 h2]
    exact ⟨hb, rfl, rfl⟩

theorem result1_iff {c w g N : Nat} (h1 : 1 ≤ c * w) (h2 : c * w ≤ 2 ^ 24) (b : Bool)
    (idx : List Nat) (ct slot : Nat) : result1 c w g N b idx ct slot ↔
      InBounds [1, c, w] idx ∧ ∃ s, (if b then interchange1 c w g (flat [1, c, w] idx) s
        else s = flat [1, c, w] idx) ∧ toCtSlot (c * w) N s ct slot := by
  have e : [1, c, w].prod = c * w := by simp
  have e' : numElements [1, c, w] = c * w := by rw [numElements_eq, e]
  have key := fun ct s => flatten_iff (dims := [1, c, w]) (by omega) (by omega) idx ct s
  rw [e'] at key
  unfold result1
  simp only [e']
  constructor
  · rintro ⟨ct0, s0, h, h', h''⟩
    obtain ⟨hb, -, rfl⟩ := (key ct0 s0).1 ⟨h, h'⟩
    cases b with
    | true => exact ⟨hb, h''⟩
    | false => exact ⟨hb, _, rfl, h''⟩
  · rintro ⟨hb, s, h, h'⟩
    obtain ⟨g1, g2⟩ := (key 0 _).2 ⟨hb, rfl, rfl⟩
    refine ⟨0, _, g1, g2, ?_⟩
    cases b with
    | true => exact ⟨s, h, h'⟩
    | false =>
      simp only [Bool.false_eq_true, if_false] at h ⊢
      exact h ▸ h'

theorem interchangeLayout_iff {c h w g N : Nat} (h1 : 1 ≤ c * h * w) (h2 : c * h * w ≤ 2 ^ 24)
    (ct slot ct' slot' : Nat) : interchangeLayout c h w g N ct slot ct' slot' ↔
      ∃ i o k, ct * N + slot = k * padded (c * h * w) + i ∧
        ct' * N + slot' = k * padded (c * h * w) + o ∧ slot < N ∧ slot' < N ∧
        (ct : Int) < numCts (c * h * w) N ∧ (ct' : Int) < numCts (c * h * w) N ∧
        interchange2 c h w g i o := by
  have e' : numElements [1, c, h, w] = c * h * w := by
    rw [numElements_eq]; simp [Nat.mul_assoc]
  have hpad := padded_ge h1 (by omega)
  unfold interchangeLayout interchange2
  simp only [e']
  constructor
  · rintro ⟨i, o, k, hi, wi, ci, ho, wo, co, a1, a2, a3, a4, a5, a6, a7, a8, a9, a10, b1, b2, b3, b4,
      b5, b6, b7, b8, b9, b10, b11⟩
    exact ⟨i, o, k, a1, a2, a3, a4, a5, a6, hi, wi, ci, ho, wo, co, b1, b2, b3, b4, b5, b6, b7, b8, b9,
      b10, b11, a8, a10⟩
  · rintro ⟨i, o, k, a1, a2, a3, a4, a5, a6, hi, wi, ci, ho, wo, co, b1, b2, b3, b4, b5, b6, b7, b8, b9,
      b10, b11, a8, a10⟩
    exact ⟨i, o, k, hi, wi, ci, ho, wo, co, a1, a2, a3, a4, a5, a6, by omega, a8, by omega, a10, b1, b2,
      b3, b4, b5, b6, b7, b8, b9, b10, b11⟩

/-- The result layouts store every element. -/
theorem toCtSlot_exists {n N i : Nat} (hi : i < n) (h2 : n ≤ 2 ^ 24) (hN : 1 ≤ N) (hN' : N ≤ 2 ^ 24) :
    toCtSlot n N i (i / N) (i % N) := by
  have hpad := padded_ge (show 1 ≤ n by omega) (by omega)
  refine ⟨lt_numCts hi h2 hN hN', Nat.mod_lt _ (by omega), ?_, rfl⟩
  rw [Nat.mod_eq_of_lt]
  have := Nat.mod_le i N
  omega

/-- A slot stores one position. -/
theorem toCtSlot_inj {n N i i' ct slot : Nat} (h : toCtSlot n N i ct slot) (h' : toCtSlot n N i' ct slot) :
    i = i' := by
  obtain ⟨_, _, h3, h4⟩ := h
  obtain ⟨_, _, h3', h4'⟩ := h'
  rw [← Nat.div_add_mod i N, ← Nat.div_add_mod i' N, ← h4, ← h4', ← h3, ← h3']

/-- On one ciphertext. -/
theorem toCtSlot_zero {n N i slot : Nat} (hi : i < n) (h2 : n ≤ N) (hN' : N ≤ 2 ^ 24) (hs : slot < N) :
    toCtSlot n N i 0 slot ↔ slot % padded n = i := by
  unfold toCtSlot
  rw [numCts_eq (by omega) (by omega) (by omega) hN', Nat.mod_eq_of_lt (show i < N by omega),
    Nat.div_eq_of_lt (show i < N by omega), Nat.div_eq_of_lt (show n - 1 < N by omega)]
  constructor
  · rintro ⟨_, _, h3, _⟩; exact h3
  · intro h; exact ⟨by simp, hs, h, rfl⟩

theorem result2Multi_zero {c h w g N : Nat} (h1 : 1 ≤ c * h * w) (h2 : c * h * w ≤ N)
    (hN : ∃ k, N = 2 ^ k) (hN' : N ≤ 2 ^ 24) (hg : 1 ≤ g) (hc : g * g ∣ c) (idx : List Nat) (slot : Nat)
    (hs : slot < N) : result2Multi c h w g N true idx 0 slot ↔ InBounds [1, c, h, w] idx ∧
      interchange2 c h w g (flat [1, c, h, w] idx) (slot % padded (c * h * w)) := by
  have e : [1, c, h, w].prod = c * h * w := by simp [Nat.mul_assoc]
  have hpad := padded_ge h1 (show _ ≤ 2 ^ 63 by omega)
  have hdvd : padded (c * h * w) ∣ N := by
    obtain ⟨k, rfl⟩ := hN
    rw [padded_eq h1 (by omega)]
    exact pow_dvd_of_le ((Nat.clog_le_iff_le_pow (by omega)).2 h2 |> Nat.pow_le_pow_right (by omega))
  have hcts := numCts_eq h1 (show _ ≤ 2 ^ 24 by omega) (show 1 ≤ N by omega) hN'
  rw [Nat.div_eq_of_lt (show c * h * w - 1 < N by omega)] at hcts
  have hfl : InBounds [1, c, h, w] idx → flat [1, c, h, w] idx < c * h * w := fun hb => by
    have := flat_lt hb (pos_of_prod (by omega)) (by omega)
    omega
  unfold result2Multi
  rw [if_pos rfl]
  constructor
  · rintro ⟨ct1, s1, hr, hi⟩
    obtain ⟨hb, hr⟩ := (result2_iff (by omega) (by omega) _ _ _ _).1 hr
    rw [e] at hr
    obtain ⟨i, o, k, g1, g2, g3, g4, g5, g6, g7⟩ := (interchangeLayout_iff h1 (by omega) _ _ _ _).1 hi
    have hct : ct1 = 0 := by rw [hcts] at g5; omega
    subst hct
    have hr := (toCtSlot_zero (hfl hb) h2 hN' g3).1 hr
    have hbd := (interchange2_perm (w := w) (h := h) hg hc).bound g7
    have m1 : s1 % padded (c * h * w) = i := by
      have : s1 = padded (c * h * w) * k + i := by rw [Nat.mul_comm]; omega
      rw [this, Nat.mul_add_mod, Nat.mod_eq_of_lt (by omega)]
    have m2 : slot % padded (c * h * w) = o := by
      have : slot = padded (c * h * w) * k + o := by rw [Nat.mul_comm]; omega
      rw [this, Nat.mul_add_mod, Nat.mod_eq_of_lt (by omega)]
    rw [m2, ← hr, m1]
    exact ⟨hb, g7⟩
  · rintro ⟨hb, hp⟩
    have hf := hfl hb
    obtain ⟨m, hm⟩ := hdvd
    have hk : slot / padded (c * h * w) < m := by
      rw [hm, Nat.mul_comm] at hs
      exact (digits_split hs).1
    have hlt : slot / padded (c * h * w) * padded (c * h * w) + flat [1, c, h, w] idx < N := by
      have := digits_lt hk (show flat [1, c, h, w] idx < padded (c * h * w) by omega)
      rw [Nat.mul_comm m] at this
      omega
    refine ⟨0, slot / padded (c * h * w) * padded (c * h * w) + flat [1, c, h, w] idx,
      (result2_iff (by omega) (by omega) _ _ _ _).2 ⟨hb, ?_⟩,
      (interchangeLayout_iff h1 (by omega) _ _ _ _).2 ⟨_, _, slot / padded (c * h * w), by omega, ?_, hlt, hs,
        by rw [hcts]; simp, by rw [hcts]; simp, hp⟩⟩
    · rw [e]
      refine (toCtSlot_zero hf h2 hN' hlt).2 ?_
      rw [Nat.mul_comm, Nat.mul_add_mod, Nat.mod_eq_of_lt (by omega)]
    · rw [Nat.zero_mul, Nat.zero_add, Nat.div_add_mod']

section
variable {R : Type} [CommRing R]

/-- A ciphertext with the rows of a product holds the result in a layout that permutes the rows. -/
theorem packs_result {N rows : Nat} {π : Nat → Nat → Prop} (hπ : IsPerm rows π)
    {layout : List Nat → Nat → Nat → Prop} {dims : List Nat} (hrows : dims.prod = rows)
    (hr1 : 1 ≤ rows) (hr2 : rows < 2 ^ 32) {G : List Nat → R} {w val : Nat → R}
    (hl : ∀ idx s, s < N → (layout idx 0 s ↔ InBounds dims idx ∧ π (flat dims idx) (s % padded rows)))
    (hw : ∀ s, s < N → w s = if s % padded rows < rows then val (s % padded rows) else 0)
    (hval : ∀ idx o, InBounds dims idx → π (flat dims idx) o → val o = G idx) :
    Packs layout G 1 N (fun _ s => w s) := by
  intro ct hct s hs
  obtain rfl : ct = 0 := by omega
  dsimp only
  rw [hw s hs]
  constructor
  · intro idx hi
    obtain ⟨hb, hp⟩ := (hl idx s hs).1 hi
    rw [if_pos (hπ.bound hp).2, hval idx _ hb hp]
  · intro hno
    rw [if_neg]
    intro hlt
    obtain ⟨i, hi⟩ := hπ.onto _ hlt
    obtain ⟨idx, hb, e⟩ := flat_surj (dims := dims) (pos_of_prod (by omega)) (by omega) i (by rw [hrows]; exact (hπ.bound hi).1)
    exact hno idx ((hl idx s hs).2 ⟨hb, by rw [e]; exact hi⟩)

theorem isPerm_id (n : Nat) : IsPerm n (fun i o => i < n ∧ o = i) where
  bound := by rintro i o ⟨h, rfl⟩; exact ⟨h, h⟩
  total := fun i h => ⟨i, h, rfl⟩
  onto := fun o h => ⟨o, h, rfl⟩
  functional := by rintro i o o' ⟨_, rfl⟩ ⟨_, rfl⟩; rfl
  injective := by rintro i i' o ⟨_, rfl⟩ ⟨_, h⟩; exact h

end

end Heir.Toeplitz
