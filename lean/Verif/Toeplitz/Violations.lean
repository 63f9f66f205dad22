import Verif.Toeplitz.Props

/-! # Where the compiled convolution is not the convolution -/

namespace Heir.Toeplitz

open Heir.Layout Heir.Kernel Heir.Dag Heir.NumTheory Finset

/-- Two output channels, one input channel, data of length 9, filter of length 2, stride 2. -/
def exWide : Conv1 := ⟨9, 2, 2, 0⟩

theorem exWide_iff (idx : Nat × Nat × Nat) (row col : Nat) :
    exWide.matrix 2 1 false idx row col ↔ idx.1 < 2 ∧ idx.2.1 = 0 ∧ idx.2.2 < 2 ∧ row / 4 = idx.1 ∧
      col = row % 4 * 2 + idx.2.2 := by
  have hs : 1 ≤ exWide.s := by decide
  have hk : exWide.k ≤ exWide.w + 2 * exWide.p := by decide
  have ho : exWide.out = 4 := by decide
  obtain ⟨f, c, i⟩ := idx
  have hrow : row = row / 4 * exWide.out + row % 4 := by rw [ho]; omega
  show channels 2 1 exWide.out exWide.w exWide.filter (f, c, i) row col ↔ _
  rw [hrow, channels_iff (filter1_bound exWide hs hk) _ _ _ _ (by rw [ho]; omega), ← hrow]
  dsimp only
  constructor
  · rintro ⟨h1, h2, h3, j, h4, h5⟩
    obtain ⟨g1, g2, g3, g4⟩ := (filter1_iff exWide hs hk _ _ _).1 h4
    have e1 : exWide.k = 2 := rfl
    have e2 : exWide.s = 2 := rfl
    have e3 : exWide.p = 0 := rfl
    rw [e2, e3] at g4
    rw [e1] at g2
    have hc : c = 0 := by omega
    subst hc
    exact ⟨by omega, rfl, g2, by omega, by omega⟩
  · rintro ⟨h1, h2, h3, h4, h5⟩
    subst h2
    refine ⟨by omega, by omega, by omega, _, (filter1_iff exWide hs hk _ _ _).2
      ⟨by rw [ho]; omega, h3, ?_, rfl⟩, ?_⟩
    · show 0 ≤ _ ∧ row % 4 * 2 + i < 0 + 9
      omega
    · show col = 0 * 9 + (row % 4 * 2 + i - 0)
      omega

/-- The diagonals of `exWide` for a filter of ones, over the least bounds 8 by 8. -/
def exWideM : List (Slots ℤ 16) :=
  (List.range 8).map fun d s => if (s.val + d) % 8 / 2 = s.val % 8 % 4 then 1 else 0

/-- Data of ones. -/
def exWideV : Slots ℤ 16 := fun s => if s.val < 9 then 1 else 0

theorem exWideM_get {d : Nat} (hd : d < 8) {s : Nat} (hs : s < 16) :
    (exWideM.getD d 0) (s : ZMod 16) = if (s + d) % 8 / 2 = s % 8 % 4 then 1 else 0 := by
  have hv : (s : ZMod 16).val = s := ZMod.val_cast_of_lt hs
  have e : exWideM[d]? = some fun s : ZMod 16 =>
      if (s.val + d) % 8 / 2 = s.val % 8 % 4 then 1 else 0 := by
    rw [exWideM, List.getElem?_map, List.getElem?_range hd]; rfl
  rw [List.getD_eq_getElem?_getD, e]
  simp only [Option.getD_some, hv]

theorem exWideV_get {s : Nat} (hs : s < 16) : exWideV (s : ZMod 16) = if s < 9 then 1 else 0 := by
  have hv : (s : ZMod 16).val = s := ZMod.val_cast_of_lt hs
  simp only [exWideV, hv]

theorem exWide_operands : Operands (diagonalize (exWide.matrix 2 1 false) 8 8 16) 8 9
    (fun _ => (1 : ℤ)) [1, 1, 9] (fun _ => 1) exWideM exWideV (fun _ => false) := by
  have p8 : padded 8 = 8 := by decide +kernel
  refine ⟨⟨4, rfl⟩, by omega, by decide +kernel, by decide +kernel, by decide, ?_, ?_, ?_, by simp⟩
  · rintro idx ct slot ⟨r, c, _, _, _, h3, _⟩
    rw [p8] at h3
    have hlen : exWideM.length = 8 := rfl
    omega
  · intro ct hct slot hslot
    have hct : ct < 8 := hct
    dsimp only
    rw [exWideM_get hct hslot]
    constructor
    · rintro idx ⟨r, c, h1, h2, h3, h4, h5, h6, h7⟩
      rw [p8] at h6 h7
      obtain ⟨_, _, h8, h9, h10⟩ := (exWide_iff _ _ _).1 h1
      dsimp only at h2 h3 h6 h7
      rw [if_pos (by omega)]
    · intro hno
      rw [if_neg]
      intro e
      refine hno (slot % 8 / 4, 0, (slot + ct) % 8 % 2) ⟨slot % 8, (slot + ct) % 8,
        (exWide_iff _ _ _).2 ⟨?_, rfl, ?_, rfl, ?_⟩, ?_, ?_, ?_, hslot, ?_, ?_⟩ <;> try dsimp only
      all_goals first | omega | (rw [p8]; done) | (rw [p8]; omega)
  · intro ct hct slot hslot
    obtain rfl : ct = 0 := by omega
    have p9 : padded [1, 1, 9].prod = 16 := by decide +kernel
    have hr := fun idx => rowMajor_zero (N := 16) (dims := [1, 1, 9]) (by decide) (by decide)
      (by omega) idx slot hslot
    rw [p9] at hr
    dsimp only
    rw [exWideV_get hslot]
    constructor
    · intro idx h
      obtain ⟨_, h2, h3⟩ := (hr idx).1 h
      have : [1, 1, 9].prod = 9 := rfl
      rw [if_pos (by omega)]
    · intro hno
      rw [if_neg]
      intro hlt
      refine hno [0, 0, slot] ((hr _).2 ⟨List.Forall₂.cons (by omega) (List.Forall₂.cons (by omega)
        (List.Forall₂.cons hlt List.Forall₂.nil)), ?_⟩)
      rw [flat3 (by omega) (by omega) (by omega) _ _ _ (by omega)]
      have : [1, 1, 9].prod = 9 := rfl
      omega

/-- C93 fails for a strided `conv_1d_ncw_fcw` whose last column no window reaches: with the least
bounds the matrix is diagonalized as 8 by 8, while the kernel and the data use 9 columns rounded to
16.  All ones give 3 where the convolution is 2. -/
theorem C93_columns_violated :
    IsTight (exWide.matrix 2 1 false) 8 8 ∧
    Operands (diagonalize (exWide.matrix 2 1 false) 8 8 16) (2 * exWide.out) (1 * exWide.w)
      (fun _ => (1 : ℤ)) [1, 1, 9] (fun _ => 1) exWideM exWideV (fun _ => false) ∧
    result1 2 4 2 16 false [0, 0, 0] 0 0 ∧
    conv1Multi 1 2 2 1 (fun _ _ _ => (1 : ℤ)) (fun _ _ => 1) 0 0 = 2 ∧
    ∃ e y, haleviShoup exWideM exWideV (BitVec.ofNat 64 (2 * exWide.out))
        (BitVec.ofNat 64 (1 * exWide.w)) (fun _ => false) = some e ∧
      Computes anyKey e y ∧ y 0 = 3 := by
  refine ⟨⟨?_, ⟨(1, 0, 0), 6, ?_⟩, ⟨(0, 0, 1), 3, ?_⟩⟩, exWide_operands, ?_, by decide, ?_⟩
  · intro idx row col h
    obtain ⟨h1, h2, h3, h4, h5⟩ := (exWide_iff _ _ _).1 h
    omega
  · exact (exWide_iff _ _ _).2 (by decide)
  · exact (exWide_iff _ _ _).2 (by decide)
  · refine (result1_iff (by omega) (by omega) _ _ _ _).2 ⟨?_, 0, ?_, ?_⟩
    · exact List.Forall₂.cons (by omega) (List.Forall₂.cons (by omega)
        (List.Forall₂.cons (by omega) List.Forall₂.nil))
    · rw [if_neg (by decide)]; decide +kernel
    · exact (toCtSlot_zero (by omega) (by omega) (by omega) (by omega)).2 (by decide +kernel)
  · -- the ciphertexts also hold the diagonals of the 8 by 16 matrix with all columns repeated
    have hsame : haleviShoup exWideM exWideV (BitVec.ofNat 64 (2 * exWide.out))
        (BitVec.ofNat 64 (1 * exWide.w)) (fun _ => false) =
        haleviShoup exWideM exWideV (BitVec.ofNat 64 8) (BitVec.ofNat 64 16) (fun _ => false) := by
      unfold haleviShoup
      rw [show nextPowerOfTwo (BitVec.ofNat 64 (1 * exWide.w)) = nextPowerOfTwo (BitVec.ofNat 64 16)
        from by decide +kernel]
      rfl
    rw [hsame]
    let rel : Nat × Nat → Nat → Nat → Prop := fun i r c => i.1 < 8 ∧ i.2 < 16 ∧ r = i.1 ∧ c = i.2
    let A : Nat → Nat → ℤ := fun r c => if c % 8 / 2 = r % 4 then 1 else 0
    have p8 : padded 8 = 8 := by decide +kernel
    have p16 : padded 16 = 16 := by decide +kernel
    have hop : Operands (diagonalize rel 8 16 16) 8 16 (fun i => A i.1 i.2) [16]
        (fun i => if i.getD 0 0 < 9 then 1 else 0) exWideM exWideV (fun _ => false) := by
      refine ⟨⟨4, rfl⟩, by omega, by decide +kernel, by decide +kernel, by decide, ?_, ?_, ?_,
        by simp⟩
      · rintro idx ct slot ⟨r, c, _, _, _, h3, _⟩
        rw [p8, p16] at h3
        have hlen : exWideM.length = 8 := rfl
        omega
      · intro ct hct slot hslot
        have hct : ct < 8 := hct
        dsimp only
        rw [exWideM_get hct hslot]
        constructor
        · rintro ⟨i, j⟩ ⟨r, c, ⟨h1, h2, rfl, rfl⟩, _, _, _, _, h6, h7⟩
          rw [p8] at h6
          rw [p16] at h7
          dsimp only at h1 h2 h6 h7 ⊢
          refine if_congr ?_ rfl rfl
          omega
        · intro hno
          refine (hno (slot % 8, (slot + ct) % 16) ?_).elim
          refine ⟨slot % 8, (slot + ct) % 16, ⟨?_, ?_, rfl, rfl⟩, ?_, ?_, ?_, hslot, ?_, ?_⟩ <;>
            try dsimp only
          all_goals first | omega | (rw [p8]; done) | (rw [p16]; done) | (rw [p16]; omega) | (rw [p8, p16]; omega)
      · intro ct hct slot hslot
        obtain rfl : ct = 0 := by omega
        dsimp only
        rw [exWideV_get hslot]
        have hr := fun idx => rowMajor_zero (N := 16) (dims := [16]) (by decide) (by decide)
          (by omega) idx slot hslot
        rw [show padded [16].prod = 16 from p16] at hr
        have hfl : ∀ i, flat [16] [i] = i := fun i => by simp [flat, strides]
        constructor
        · intro idx h
          obtain ⟨h1, h2, h3⟩ := (hr idx).1 h
          cases h1 with
          | @cons i d is ds hi t =>
            cases t
            rw [hfl] at h3
            simp only [List.getD_cons_zero]
            refine if_congr ?_ rfl rfl
            omega
        · intro hno
          refine absurd ((hr [slot]).2 ⟨List.Forall₂.cons hslot List.Forall₂.nil, ?_⟩) (hno _)
          rw [hfl]
          have : [16].prod = 16 := rfl
          omega
    have hA : Packs rel (fun i => A i.1 i.2) 8 16 A := by
      intro r hr c hc
      constructor
      · rintro ⟨i, j⟩ ⟨_, _, rfl, rfl⟩; rfl
      · intro hno; exact absurd ⟨hr, hc, rfl, rfl⟩ (hno (r, c))
    obtain ⟨X, hX, e, y, h1, h2, h3⟩ := kernel_matvec (rel := rel) (rows' := 8) (cols' := 16)
      (fun idx r c h => by obtain ⟨a, b, rfl, rfl⟩ := h; exact ⟨a, b⟩) (by omega) le_rfl le_rfl rfl rfl
      hA (dims := [16]) (by decide) (by omega) hop
    refine ⟨e, y, h1, h2, ?_⟩
    have h0 := h3 0 (by omega)
    rw [p8] at h0
    have hX' : ∀ i, i < 16 → X i = if i < 9 then 1 else 0 := fun i hi => by
      have := hX [i] (List.Forall₂.cons hi List.Forall₂.nil)
      simpa [flat, strides] using this
    have : ∑ j ∈ range 16, A (0 % 8) j * X j = ∑ j ∈ range 16, A 0 j * (if j < 9 then 1 else 0) :=
      sum_congr rfl fun j hj => by rw [hX' j (mem_range.1 hj)]
    rw [this] at h0
    simpa [A, sum_range_succ] using h0

/-- C93 fails with dilations: the layouts do not depend on them.  The matrix for data of length 5
and a filter of length 2 does not give the convolution with dilation 2. -/
theorem C93_dilation_violated : ∃ (F : Nat × Nat × Nat → ℤ) (x : Nat → ℤ), ∀ A : Nat → Nat → ℤ,
    Packs ((Conv1.mk 5 2 1 0).matrix 1 1 false) F 4 5 A →
      ∑ j ∈ range 5, A 0 j * x j ≠
        conv1Multi 1 2 1 2 (fun f ch i => F (f, ch, i)) (fun _ => x) 0 0 := by
  refine ⟨fun _ => 1, fun j => j, fun A hA => ?_⟩
  have h := C92_conv1dMulti (Conv1.mk 5 2 1 0) (by decide) (by decide) 1 1 (fun _ => (1 : ℤ)) A hA
    (fun j => (j : ℤ)) 0 0 (by omega) (by decide)
  have e : Conv1.out ⟨5, 2, 1, 0⟩ = 4 := by decide
  simp only [Nat.zero_mul, Nat.one_mul, Nat.zero_add] at h
  rw [h]
  simp [conv1Multi, conv1, pad1, sum_range_succ]

/-- C93 fails for a convolution of the result of a strided one: the shape recorded for the four
channels of 2 by 2 is one channel of 4 by 4, so the filter elements of the other channels are not
stored.  Filters with different convolutions are packed by the same ciphertexts. -/
theorem C93_chain_violated : fheShape 4 2 2 4 4 2 = (1, 4, 4) ∧
    ∃ F F' : Nat × Nat × Nat × Nat → ℤ,
      (∀ (b : Bool) (N cts : Nat) (M : Nat → Nat → ℤ),
        Packs ((Conv2.mk 4 4 1 1 1 1 0).sequence 1 1 b N) F cts N M ↔
          Packs ((Conv2.mk 4 4 1 1 1 1 0).sequence 1 1 b N) F' cts N M) ∧
      ∃ x : Nat → Nat → Nat → ℤ,
        conv2Multi 4 1 1 1 1 1 1 (fun f c i j => F (f, c, i, j)) x 0 0 0 ≠
          conv2Multi 4 1 1 1 1 1 1 (fun f c i j => F' (f, c, i, j)) x 0 0 0 := by
  refine ⟨by decide, fun _ => 0, fun i => if i.2.1 = 1 then 1 else 0, ?_, fun _ _ _ => 1, by decide⟩
  intro b N cts M
  refine forall₄_congr fun ct _ s _ => and_congr_left fun _ => forall₂_congr fun idx h => ?_
  obtain ⟨row, col, ⟨f, c, oh, ow, cl, h1, -⟩, -⟩ := h
  have : idx.2.1 < 1 := h1.2.2.2.1
  dsimp only
  rw [if_neg (by omega)]

end Heir.Toeplitz
