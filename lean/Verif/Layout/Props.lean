import Verif.Layout.Lemmas

/-!
# Properties of the layouts (C50)

Tensors have at least one element.  The ciphertext bound is computed in binary32, so the layouts
that use it are complete up to `2 ^ 24` elements only: `C50_rowMajor_float_violated` is a tensor
with `2 ^ 24 + 1` elements whose last element is not stored.
-/

namespace Heir.Layout

open Heir.NumTheory Heir.Kernel

/-- The bound on the number of elements is the only thing missing. -/
theorem C50_rowMajor_partial (dims : List Nat) (numSlots : Nat) (h1 : 1 ≤ dims.prod)
    (h2 : dims.prod ≤ 2 ^ 24) (hs : 1 ≤ numSlots) (hs' : numSlots ≤ 2 ^ 24) :
    Complete (InBounds dims) (rowMajor dims numSlots) ∧ Unambiguous (rowMajor dims numSlots) := by
  have hpos := pos_of_prod h1
  constructor
  · intro idx hb
    have hlt := flat_lt hb hpos (by omega)
    refine ⟨flat dims idx / numSlots, flat dims idx % numSlots, hb, ?_, Nat.mod_lt _ hs, rfl, ?_⟩
    · rw [numElements_eq]
      exact ct_le_lastCt h2 hs hs' hlt
    · rw [numElements_eq]
      apply Nat.mod_eq_of_lt
      have := padded_ge h1 (by omega)
      have := Nat.mod_le (flat dims idx) numSlots
      omega
  · rintro idx idx' ct slot ⟨hb, _, _, hc, hsl⟩ ⟨hb', _, _, hc', hsl'⟩
    apply flat_inj hb hb' hpos (by omega)
    rw [← Nat.div_add_mod (flat dims idx) numSlots, ← Nat.div_add_mod (flat dims idx') numSlots,
      hc, hc', ← hsl, hsl']

example : rowMajor [3, 5] 8 [2, 4] 1 6 ∧ rowMajor [3, 5] 8 [1, 0] 0 5 := by
  have e : lastCt (numElements [3, 5]) 8 = 1 :=
    lastCt_eq (n := 15) (by omega) (by omega) (by omega) (by omega)
  exact ⟨⟨by simp [InBounds], by rw [e]; rfl, by omega, by decide, by decide⟩,
    ⟨by simp [InBounds], by rw [e]; decide, by omega, by decide, by decide⟩⟩

theorem f32_witness : f32 16777217 = 16777216 := by
  have hl : Int.log 2 (16777217 : ℚ) = 24 := by
    have : (16777217 : ℚ) = ((16777217 : Nat) : ℚ) := by norm_num
    rw [this, Int.log_natCast]
    have : Nat.log 2 16777217 = 24 := by
      rw [Nat.log_eq_iff (Or.inl (by omega))]; omega
    rw [this]; rfl
  unfold f32
  rw [if_pos (by norm_num), hl]
  have e : (16777217 : ℚ) / 2 ^ ((24 : Int) - 23) = 16777217 / 2 := by norm_num
  have hf : ⌊(16777217 : ℚ) / 2⌋ = 8388608 := by rw [Int.floor_eq_iff]; norm_num
  have : roundHalfEven ((16777217 : ℚ) / 2) = 8388608 := by
    unfold roundHalfEven
    rw [hf]
    norm_num
  rw [e, this]
  norm_num

theorem lastCt_witness : lastCt 16777217 4096 = 4095 := by
  unfold lastCt
  have h1 : f32 ((16777217 : Nat) : ℚ) = 16777216 := by
    rw [show ((16777217 : Nat) : ℚ) = 16777217 by norm_num]; exact f32_witness
  rw [h1, f32_nat (by omega)]
  have h2 : (16777216 : ℚ) / ((4096 : Nat) : ℚ) = ((4096 : Nat) : ℚ) := by norm_num
  rw [h2, f32_nat (by omega), Int.ceil_natCast]
  have h3 : (((4096 : Nat) : Int) : ℚ) - 1 = ((4095 : Nat) : ℚ) := by norm_num
  rw [h3, f32_nat (by omega), Int.floor_natCast]; rfl

/-- A 97 x 172961 tensor in ciphertexts of 4096 slots loses its last element. -/
theorem C50_rowMajor_float_violated :
    InBounds [97, 172961] [96, 172960] ∧
      ¬ ∃ ct slot, rowMajor [97, 172961] 4096 [96, 172960] ct slot := by
  refine ⟨by simp [InBounds], ?_⟩
  rintro ⟨ct, slot, _, hc, _, hf, _⟩
  have e : numElements [97, 172961] = 16777217 := rfl
  rw [e, lastCt_witness] at hc
  have : flat [97, 172961] [96, 172960] / 4096 = 4096 := by decide
  omega

/-- The squat diagonal layout when the padded matrix fits the slots. -/
theorem C50_diagonal (rows cols numSlots : Nat) (hr : 1 ≤ rows) (hc : 1 ≤ cols)
    (hr' : 2 ^ Nat.clog 2 rows ≤ numSlots) (hc' : 2 ^ Nat.clog 2 cols ≤ numSlots)
    (hs : numSlots ≤ 2 ^ 63) :
    Complete (fun i : Nat × Nat => i.1 < rows ∧ i.2 < cols) (diagonal rows cols numSlots) ∧
      Unambiguous (diagonal rows cols numSlots) := by
  have hr2 := Nat.le_pow_clog (b := 2) (by omega) rows
  have hc2 := Nat.le_pow_clog (b := 2) (by omega) cols
  unfold diagonal
  rw [padded_eq hr (by omega), padded_eq hc (by omega)]
  constructor
  · rintro ⟨i, j⟩ ⟨hi, hj⟩
    simp only at hi hj
    have hP : 0 < 2 ^ Nat.clog 2 rows := by positivity
    have hQ : 0 < 2 ^ Nat.clog 2 cols := by positivity
    obtain hle | hle := Nat.le_total (Nat.clog 2 rows) (Nat.clog 2 cols)
    · -- squat
      obtain ⟨t, ht⟩ := Nat.pow_dvd_pow 2 hle
      generalize 2 ^ Nat.clog 2 rows = P at *
      generalize 2 ^ Nat.clog 2 cols = Q at *
      have ht0 : 0 < t := by rcases Nat.eq_zero_or_pos t with h | h; (subst h; omega); exact h
      have hPQ : P ≤ Q := by nlinarith
      let d := (j + Q - i) % Q
      have hd : d < Q := Nat.mod_lt _ hQ
      have hdt : d / P < t := by rw [Nat.div_lt_iff_lt_mul hP, Nat.mul_comm, ← ht]; exact hd
      have hmul : P * (d / P + 1) ≤ P * t := Nat.mul_le_mul_left _ hdt
      rw [← ht, Nat.mul_add] at hmul
      refine ⟨d % P, i + P * (d / P), hi, hj, ?_, by omega, ?_, ?_⟩
      · have := Nat.mod_lt d hP; omega
      · rw [Nat.add_mul_mod_self_left, Nat.mod_eq_of_lt (by omega)]
      · have hdm := Nat.div_add_mod d P
        have : d % P + (i + P * (d / P)) = i + d := by omega
        rw [this]
        show j = (i + (j + Q - i) % Q) % Q
        rw [Nat.add_mod_mod, show i + (j + Q - i) = j + Q by omega, Nat.add_mod_right,
          Nat.mod_eq_of_lt (by omega)]
    · -- tall
      have hPQ : 2 ^ Nat.clog 2 cols ≤ 2 ^ Nat.clog 2 rows := Nat.pow_le_pow_right (by omega) hle
      obtain ⟨t, ht⟩ := Nat.pow_dvd_pow 2 hle
      generalize 2 ^ Nat.clog 2 rows = P at *
      generalize 2 ^ Nat.clog 2 cols = Q at *
      have hi' : i % Q < Q := Nat.mod_lt _ hQ
      refine ⟨(j + Q - i % Q) % Q, i, hi, hj, ?_, by omega, ?_, ?_⟩
      · have := Nat.mod_lt (j + Q - i % Q) hQ; omega
      · rw [Nat.mod_eq_of_lt (by omega)]
      · rw [← Nat.add_mod_mod, Nat.mod_add_mod,
          show j + Q - i % Q + i % Q = j + Q by omega, Nat.add_mod_right, Nat.mod_eq_of_lt (by omega)]
  · rintro ⟨i, j⟩ ⟨i', j'⟩ ct slot ⟨_, _, _, _, h1, h2⟩ ⟨_, _, _, _, h1', h2'⟩
    exact Prod.ext (h1.trans h1'.symm) (h2.trans h2'.symm)

example : diagonal 3 5 16 (2, 4) 2 2 ∧ diagonal 3 5 16 (2, 0) 2 6 := by
  unfold diagonal
  rw [padded_eq (by omega) (by omega), padded_eq (by omega) (by omega)]
  decide

/-- Coprime dimensions; the bound on the number of elements is the only thing missing. -/
theorem C50_bicyclic_partial (rows cols numSlots : Nat) (h : Nat.Coprime rows cols)
    (h2 : rows * cols ≤ 2 ^ 24) (hs : 1 ≤ numSlots) (hs' : numSlots ≤ 2 ^ 24) :
    Complete (fun i : Nat × Nat => i.1 < rows ∧ i.2 < cols) (bicyclic rows cols numSlots) ∧
      Unambiguous (bicyclic rows cols numSlots) := by
  constructor
  · rintro ⟨i, j⟩ ⟨hi, hj⟩
    obtain ⟨k, hk, e1, e2⟩ := crt2 h hi hj
    have hdm : k / numSlots * numSlots + k % numSlots = k := by
      rw [Nat.mul_comm]; exact Nat.div_add_mod k numSlots
    refine ⟨k / numSlots, k % numSlots, hi, hj, ct_le_lastCt h2 hs hs' hk, Nat.mod_lt _ hs, ?_, ?_⟩
    · rw [hdm]; exact e1.symm
    · rw [hdm]; exact e2.symm
  · rintro ⟨i, j⟩ ⟨i', j'⟩ ct slot ⟨_, _, _, _, h1, h2⟩ ⟨_, _, _, _, h1', h2'⟩
    exact Prod.ext (h1.trans h1'.symm) (h2.trans h2'.symm)

/-- Without coprimality elements are lost. -/
theorem C50_bicyclic_not_coprime : ¬ ∃ ct slot, bicyclic 2 4 8 (0, 1) ct slot := by
  rintro ⟨ct, slot, _, _, _, _, h1, h2⟩
  simp only at h1 h2
  omega

theorem C50_tricyclic_partial (h m n numSlots : Nat) (h1 : Nat.Coprime h m) (h2 : Nat.Coprime h n)
    (h3 : Nat.Coprime m n) (hn : h * m * n ≤ 2 ^ 24) (hs : 1 ≤ numSlots) (hs' : numSlots ≤ 2 ^ 24) :
    Complete (fun i : Nat × Nat × Nat => i.1 < h ∧ i.2.1 < m ∧ i.2.2 < n)
      (tricyclic h m n numSlots) ∧ Unambiguous (tricyclic h m n numSlots) := by
  constructor
  · rintro ⟨i, j, l⟩ ⟨hi, hj, hl⟩
    obtain ⟨k, hk, e1, e2, e3⟩ := crt3 h1 h2 h3 hi hj hl
    have hdm : k / numSlots * numSlots + k % numSlots = k := by
      rw [Nat.mul_comm]; exact Nat.div_add_mod k numSlots
    refine ⟨k / numSlots, k % numSlots, hi, hj, hl, ct_le_lastCt hn hs hs' hk, Nat.mod_lt _ hs,
      ?_, ?_, ?_⟩
    · rw [hdm]; exact e1.symm
    · rw [hdm]; exact e2.symm
    · rw [hdm]; exact e3.symm
  · rintro ⟨i, j, l⟩ ⟨i', j', l'⟩ ct slot ⟨_, _, _, _, _, a, b, c⟩ ⟨_, _, _, _, _, a', b', c'⟩
    exact Prod.ext (a.trans a'.symm) (Prod.ext (b.trans b'.symm) (c.trans c'.symm))

/-- One row per ciphertext, padded to a power of two that fits the slots. -/
theorem C50_perRow (rows cols numSlots : Nat) (hc : 1 ≤ cols) (hc' : cols ≤ numSlots)
    (hs : numSlots ≤ 2 ^ 63) :
    Complete (fun i : Nat × Nat => i.1 < rows ∧ i.2 < cols) (perRow rows cols numSlots) ∧
      Unambiguous (perRow rows cols numSlots) := by
  have e : (BitVec.ofNat 64 cols).toNat = cols := by
    rw [BitVec.toNat_ofNat, Nat.mod_eq_of_lt]; omega
  have hp : (nextPowerOfTwo (BitVec.ofNat 64 cols)).toNat = 2 ^ Nat.clog 2 cols := by
    rw [nextPowerOfTwo_toNat _ (by rw [e]; exact hc) (by rw [e]; omega), e]
  have hc2 := Nat.le_pow_clog (b := 2) (by omega) cols
  constructor
  · rintro ⟨i, j⟩ ⟨hi, hj⟩
    simp only at hi hj
    refine ⟨i, j, hi, hj, hi, by omega, rfl, ?_⟩
    rw [hp]; exact Nat.mod_eq_of_lt (by omega)
  · rintro ⟨i, j⟩ ⟨i', j'⟩ ct slot ⟨_, _, _, _, h1, h2⟩ ⟨_, _, _, _, h1', h2'⟩
    simp only at h1 h2 h1' h2'
    rw [← h1, ← h2, ← h1', ← h2']

example : perRow 2 3 8 (1, 2) 1 6 := by
  refine ⟨by decide, by decide, by decide, by decide, rfl, by decide⟩

/-- The diagonals of the cleartext factor of a bicyclic product; the stride must be coprime to the
contracted dimension. -/
theorem C50_bicyclicDiagonal (rows cols stride numSlots : Nat) (c0 : Bool)
    (hcop : Nat.Coprime (if c0 then rows else cols) stride)
    (hs : (if c0 then cols else rows) ≤ numSlots) :
    Complete (fun i : Nat × Nat => i.1 < rows ∧ i.2 < cols)
      (bicyclicDiagonal rows cols c0 stride numSlots) ∧
      Unambiguous (bicyclicDiagonal rows cols c0 stride numSlots) := by
  constructor
  · rintro ⟨i, j⟩ ⟨hi, hj⟩
    simp only at hi hj
    unfold bicyclicDiagonal
    cases c0
    · simp only [Bool.false_eq_true, if_false] at hcop hs ⊢
      have hm : j ∈ (Finset.range cols).image fun c => (i + c * stride) % cols := by
        rw [image_steps i (by omega) hcop]; exact Finset.mem_range.2 hj
      obtain ⟨d, hd, e⟩ := Finset.mem_image.1 hm
      exact ⟨d, i, Finset.mem_range.1 hd, by omega, hi, hj, e.symm, (Nat.mod_eq_of_lt hi).symm⟩
    · simp only [if_true] at hcop hs ⊢
      have hm : i ∈ (Finset.range rows).image fun c => (j + c * stride) % rows := by
        rw [image_steps j (by omega) hcop]; exact Finset.mem_range.2 hi
      obtain ⟨d, hd, e⟩ := Finset.mem_image.1 hm
      exact ⟨d, j, Finset.mem_range.1 hd, by omega, hi, hj, e.symm, (Nat.mod_eq_of_lt hj).symm⟩
  · rintro ⟨i, j⟩ ⟨i', j'⟩ ct slot h h'
    unfold bicyclicDiagonal at h h'
    cases c0
    · rw [if_neg (by simp)] at h h'
      obtain ⟨_, _, _, _, h1, h2⟩ := h
      obtain ⟨_, _, _, _, h1', h2'⟩ := h'
      exact Prod.ext (h2.trans h2'.symm) (h1.trans h1'.symm)
    · rw [if_pos rfl] at h h'
      obtain ⟨_, _, _, _, h1, h2⟩ := h
      obtain ⟨_, _, _, _, h1', h2'⟩ := h'
      exact Prod.ext (h1.trans h1'.symm) (h2.trans h2'.symm)

example : bicyclicDiagonal 4 6 true 3 16 (3, 5) 2 5 := by unfold bicyclicDiagonal; decide

/-- The packing by remainders implements the bicyclic layout. -/
theorem C50_crtAssign_bicyclic {R : Type} [Zero R] (rows cols numSlots cts : Nat)
    (A : Nat × Nat → R) (M : List R)
    (hM : M = crtAssign [rows, cols] (fun l => A (l.getD 0 0, l.getD 1 0)) (cts * numSlots)
      (cts * numSlots)) (hr : 1 ≤ rows) (hc : 1 ≤ cols)
    (hcts : (cts : Int) = lastCt (rows * cols) numSlots + 1) :
    Packs (bicyclic rows cols numSlots) A cts numSlots (fun ct s => M.getD (ct * numSlots + s) 0) := by
  intro ct hct slot hslot
  have hlt : ct * numSlots + slot < cts * numSlots := by
    have : (ct + 1) * numSlots ≤ cts * numSlots := Nat.mul_le_mul_right _ hct
    rw [Nat.add_mul] at this; omega
  have hget : M.getD (ct * numSlots + slot) 0 =
      A ((ct * numSlots + slot) % rows, (ct * numSlots + slot) % cols) := by
    rw [List.getD_eq_getElem?_getD, hM, crtAssign_get _ _ _ _ le_rfl _ hlt, if_pos hlt]
    rfl
  simp only [hget]
  constructor
  · rintro ⟨i, j⟩ ⟨_, _, _, _, h1, h2⟩
    simp only at h1 h2
    rw [h1, h2]
  · intro h
    exact absurd ⟨Nat.mod_lt _ hr, Nat.mod_lt _ hc, by omega, hslot, rfl, rfl⟩
      (h ((ct * numSlots + slot) % rows, (ct * numSlots + slot) % cols))

/-- The packing by remainders implements the tricyclic layout. -/
theorem C50_crtAssign_tricyclic {R : Type} [Zero R] (h m n numSlots cts : Nat)
    (A : Nat × Nat × Nat → R) (M : List R)
    (hM : M = crtAssign [h, m, n] (fun l => A (l.getD 0 0, l.getD 1 0, l.getD 2 0))
      (cts * numSlots) (cts * numSlots)) (hh : 1 ≤ h) (hm : 1 ≤ m) (hn : 1 ≤ n)
    (hcts : (cts : Int) = lastCt (h * m * n) numSlots + 1) :
    Packs (tricyclic h m n numSlots) A cts numSlots
      (fun ct s => M.getD (ct * numSlots + s) 0) := by
  intro ct hct slot hslot
  have hlt : ct * numSlots + slot < cts * numSlots := by
    have : (ct + 1) * numSlots ≤ cts * numSlots := Nat.mul_le_mul_right _ hct
    rw [Nat.add_mul] at this; omega
  have hget : M.getD (ct * numSlots + slot) 0 =
      A ((ct * numSlots + slot) % h, (ct * numSlots + slot) % m, (ct * numSlots + slot) % n) := by
    rw [List.getD_eq_getElem?_getD, hM, crtAssign_get _ _ _ _ le_rfl _ hlt, if_pos hlt]
    rfl
  simp only [hget]
  constructor
  · rintro ⟨i, j, l⟩ ⟨_, _, _, _, _, h1, h2, h3⟩
    simp only at h1 h2 h3
    rw [h1, h2, h3]
  · intro hno
    exact absurd ⟨Nat.mod_lt _ hh, Nat.mod_lt _ hm, Nat.mod_lt _ hn, by omega, hslot, rfl, rfl, rfl⟩
      (hno ((ct * numSlots + slot) % h, (ct * numSlots + slot) % m, (ct * numSlots + slot) % n))

end Heir.Layout
