import Verif.Toeplitz.Perm
import Verif.Kernel.MatmulProps

/-! # The Halevi-Shoup kernel on an expanded filter -/

namespace Heir.Toeplitz

open Heir.Layout Heir.Kernel Heir.Dag Heir.NumTheory Finset

variable {R : Type} {N : Nat} [CommRing R] {ι : Type}

/-- The operands of the kernel of a convolution: `M` holds the filter in the layout `layout`, `v`
holds the data in row-major order.  `rows` and `cols` are the sizes of the expanded filter.  The
tensor type of the filter has a ciphertext for each ciphertext of the layout
(`materializeLayout`, `ConvertToCiphertextSemantics/TypeConversion.cpp:28-59`, takes a bound that
may exceed the largest one), and a diagonal is skipped only if the layout has no element in it
(`getCtComplementPoints`, `ConvertToCiphertextSemantics.cpp:1095-1100`). -/
structure Operands (layout : ι → Nat → Nat → Prop) (rows cols : Nat) (F : ι → R) (dims : List Nat)
    (x : List Nat → R) (M : List (Slots R N)) (v : Slots R N) (skip : Nat → Bool) : Prop where
  pow : ∃ k, N = 2 ^ k
  slots : N ≤ 2 ^ 24
  rows_le : 2 ^ Nat.clog 2 rows ≤ N
  cols_le : 2 ^ Nat.clog 2 cols ≤ N
  nonempty : 1 ≤ M.length
  covers : ∀ idx ct slot, layout idx ct slot → ct < M.length
  filter : Packs layout F M.length N (fun d s => (M.getD d 0) (s : ZMod N))
  data : Packs (rowMajor dims N) x 1 N (fun _ s => v (s : ZMod N))
  skipped : ∀ d, d < M.length → skip d = true → ∀ idx slot, ¬ layout idx d slot

/-- The elements of a tensor in row-major order. -/
theorem exists_flat {dims : List Nat} (hpos : 1 ≤ dims.prod) (hN : dims.prod ≤ N)
    (hN' : N ≤ 2 ^ 24) (x : List Nat → R) (v : Nat → Nat → R) (h : Packs (rowMajor dims N) x 1 N v) :
    ∃ X : Nat → R, (∀ idx, InBounds dims idx → X (flat dims idx) = x idx) ∧
      Packs (rowMajor [dims.prod] N) (fun i => X (i.getD 0 0)) 1 N v := by
  classical
  have hp := pos_of_prod hpos
  have hinj : ∀ idx idx', InBounds dims idx → InBounds dims idx' → flat dims idx = flat dims idx' →
      idx = idx' := fun idx idx' h h' e => flat_inj h h' hp (by omega) e
  have hlast : lastCt dims.prod N = 0 := by
    rw [lastCt_eq hpos (by omega) (by omega) hN', Nat.div_eq_of_lt (by omega)]; rfl
  refine ⟨fun i => if h : ∃ idx, InBounds dims idx ∧ flat dims idx = i then x h.choose else 0,
    ?_, ?_⟩
  · intro idx hb
    have h : ∃ idx', InBounds dims idx' ∧ flat dims idx' = flat dims idx := ⟨idx, hb, rfl⟩
    dsimp only
    rw [dif_pos h, hinj _ _ h.choose_spec.1 hb h.choose_spec.2]
  · intro ct hct s hs
    obtain rfl : ct = 0 := by omega
    obtain ⟨ha, hb⟩ := h 0 hct s hs
    constructor
    · intro i hi
      obtain ⟨i, rfl, hlt, e⟩ := (rowMajor_vec hpos hN hN' _ s hs).1 hi
      have e0 : [i].getD 0 0 = i := rfl
      simp only [e0]
      split
      · rename_i hh
        refine ha _ ?_
        obtain ⟨h1, h2⟩ := hh.choose_spec
        unfold rowMajor
        rw [numElements_eq, h2, padded_eq hpos (by omega), hlast,
          Nat.mod_eq_of_lt (show i < N by omega), Nat.div_eq_of_lt (show i < N by omega)]
        exact ⟨h1, by simp, hs, rfl, e⟩
      · rename_i hh
        refine hb fun idx hr => hh ⟨idx, hr.1, ?_⟩
        have hf := flat_lt hr.1 hp (by omega)
        obtain ⟨_, _, _, _, h5⟩ := hr
        rw [numElements_eq, padded_eq hpos (by omega), e, Nat.mod_eq_of_lt (by omega)] at h5
        exact h5.symm
    · intro hno
      refine hb fun idx hr => ?_
      have hf := flat_lt hr.1 hp (by omega)
      obtain ⟨_, _, _, _, h5⟩ := hr
      rw [numElements_eq, padded_eq hpos (by omega), Nat.mod_eq_of_lt (show _ < N by omega)] at h5
      exact hno [flat dims idx] ((rowMajor_vec hpos hN hN' _ s hs).2 ⟨_, rfl, hf, h5⟩)

/-- Ciphertexts with a diagonalized filter hold the diagonals of the expanded matrix, if the sizes
used for the diagonalization round to the same powers of two. -/
theorem packs_diagonal {rel : ι → Nat → Nat → Prop} {F : ι → R} {rows cols rows' cols' : Nat}
    (hb : IsBound rel rows' cols') (hr : rows' ≤ rows) (hc : cols' ≤ cols)
    (er : padded rows' = padded rows) (ec : padded cols' = padded cols) {A : Nat → Nat → R}
    (hA : Packs rel F rows cols A) {cts cts' : Nat} {M : Nat → Nat → R}
    (hM : Packs (diagonalize rel rows' cols' N) F cts N M)
    (hcov : ∀ idx ct slot, diagonalize rel rows' cols' N idx ct slot → ct < cts)
    (hz : ∀ d, cts ≤ d → ∀ s, M d s = 0) :
    Packs (diagonal rows cols N) (fun i => A i.1 i.2) cts' N M := by
  intro ct hct slot hslot
  have key : ∀ idx row col, rel idx row col → diagonal rows cols N (row, col) ct slot →
      diagonalize rel rows' cols' N idx ct slot := by
    rintro idx row col h ⟨_, _, h3, h4, h5, h6⟩
    obtain ⟨g1, g2⟩ := hb _ _ _ h
    exact ⟨row, col, h, g1, g2, by rw [er, ec]; exact h3, h4, by rw [er]; exact h5,
      by rw [ec]; exact h6⟩
  constructor
  · rintro ⟨row, col⟩ hd
    obtain ⟨ha, hb'⟩ := hA row hd.1 col hd.2.1
    dsimp only
    by_cases h : ∃ idx, rel idx row col
    · obtain ⟨idx, hi⟩ := h
      have hk := key idx row col hi hd
      rw [ha idx hi, (hM ct (hcov _ _ _ hk) slot hslot).1 idx hk]
    · rw [hb' fun idx hi => h ⟨idx, hi⟩]
      by_cases hlt : ct < cts
      · refine (hM ct hlt slot hslot).2 ?_
        rintro idx ⟨r, c, h1, _, _, _, _, h6, h7⟩
        obtain ⟨_, _, _, _, g5, g6⟩ := hd
        dsimp only at *
        rw [er] at h6
        rw [ec] at h7
        rw [← g5] at h6
        rw [← g6] at h7
        subst h6 h7
        exact h ⟨idx, h1⟩
      · exact hz ct (by omega) slot
  · intro hno
    by_cases hlt : ct < cts
    · refine (hM ct hlt slot hslot).2 ?_
      rintro idx ⟨r, c, h1, h2, h3, h4, h5, h6, h7⟩
      dsimp only at *
      exact hno (r, c) ⟨by dsimp only; omega, by dsimp only; omega, by rw [← er, ← ec]; exact h4, h5, by rw [← er]; exact h6,
        by rw [← ec]; exact h7⟩
    · exact hz ct (by omega) slot

variable [DecidableEq R]

/-- The kernel on the operands of a convolution multiplies the expanded matrix with the flattened
data. -/
theorem kernel_matvec {rel : ι → Nat → Nat → Prop} {F : ι → R} {rows cols rows' cols' : Nat}
    (hb : IsBound rel rows' cols') (hr1 : 1 ≤ rows) (hr : rows' ≤ rows) (hc : cols' ≤ cols)
    (er : padded rows' = padded rows) (ec : padded cols' = padded cols) {A : Nat → Nat → R}
    (hA : Packs rel F rows cols A) {dims : List Nat} (hdims : dims.prod = cols) (hc1 : 1 ≤ cols)
    {x : List Nat → R} {M : List (Slots R N)} {v : Slots R N} {skip : Nat → Bool}
    (h : Operands (diagonalize rel rows' cols' N) rows cols F dims x M v skip) :
    ∃ X : Nat → R, (∀ idx, InBounds dims idx → X (flat dims idx) = x idx) ∧
      ∃ e w, haleviShoup M v (BitVec.ofNat 64 rows) (BitVec.ofNat 64 cols) skip = some e ∧
        Computes anyKey e w ∧ ∀ s, s < N → w (s : ZMod N) =
          if s % padded rows < rows then ∑ j ∈ range cols, A (s % padded rows) j * X j else 0 := by
  obtain ⟨⟨k, hk⟩, hN', hrN, hcN, hl, hcov, hM, hv, hskip⟩ := h
  have hN : 0 < N := by rw [hk]; positivity
  have hr2 := Nat.le_pow_clog (b := 2) (by omega) rows
  have hc2 := Nat.le_pow_clog (b := 2) (by omega) cols
  obtain ⟨X, hX, hv'⟩ := exists_flat (by omega) (by omega) hN' x _ hv
  rw [hdims] at hv'
  refine ⟨X, hX, ?_⟩
  have e1 : (nextPowerOfTwo (BitVec.ofNat 64 rows)).toNat = 2 ^ Nat.clog 2 rows := by
    rw [nextPowerOfTwo_toNat _ (by rw [toNat_ofNat64] <;> omega) (by rw [toNat_ofNat64] <;> omega),
      toNat_ofNat64 (by omega)]
  have e2 : (nextPowerOfTwo (BitVec.ofNat 64 cols)).toNat = 2 ^ Nat.clog 2 cols := by
    rw [nextPowerOfTwo_toNat _ (by rw [toNat_ofNat64] <;> omega) (by rw [toNat_ofNat64] <;> omega),
      toNat_ofNat64 (by omega)]
  have hzero : ∀ d, (∀ idx slot, ¬ diagonalize rel rows' cols' N idx d slot) → d < M.length →
      M.getD d 0 = 0 := by
    intro d hd hlt
    have : NeZero N := ⟨by omega⟩
    funext s
    have := (hM d hlt s.val (ZMod.val_lt s)).2 fun idx => hd idx _
    dsimp only at this
    rw [ZMod.natCast_zmod_val] at this
    exact this
  obtain ⟨e, he, hev⟩ := rotateAndReduce_ok (ok := anyKey) (m := M) (v := v) (period := 1)
    (steps := M.length) (skip := skip) (D := fun d => M.getD d 0) hl
    (fun c hc => by simp [hc]) (fun d hd hs => hzero d (hskip d hd hs) hd) (fun _ _ => rfl)
    (fun _ _ => rfl)
  unfold haleviShoup
  rw [he, e1, e2]
  have hclt : Nat.clog 2 cols < 2 ^ 31 := by
    have : Nat.clog 2 cols < 2 ^ Nat.clog 2 cols := Nat.lt_two_pow_self
    omega
  refine ⟨_, _, rfl, fun env => squatSum_ok true _ _ hclt (hev env) (fun _ _ => rfl), ?_⟩
  have hmin : min (padded rows) (padded cols) = 2 ^ min (Nat.clog 2 rows) (Nat.clog 2 cols) := by
    rw [padded_eq hr1 (by omega), padded_eq hc1 (by omega)]
    rcases le_total (Nat.clog 2 rows) (Nat.clog 2 cols) with h | h
    · rw [min_eq_left h, min_eq_left (Nat.pow_le_pow_right (by omega) h)]
    · rw [min_eq_right h, min_eq_right (Nat.pow_le_pow_right (by omega) h)]
  have hdiag := packs_diagonal (N := N) (cts' := 2 ^ min (Nat.clog 2 rows) (Nat.clog 2 cols)) hb hr hc
    er ec hA hM hcov (fun d hd s => by rw [List.getD_eq_default _ _ hd]; rfl)
  have hval := haleviShoup_value hr1 hc1 (hk ▸ pow_dvd_of_le (hk ▸ hrN)) (hk ▸ pow_dvd_of_le (hk ▸ hcN))
    hN hN' A X (fun d => M.getD d 0) v hdiag hv'
  -- the diagonals beyond the list, and the ciphertexts beyond the diagonals, are zero
  have hsum : ∑ d ∈ range M.length, M.getD d 0 * rot ((d : Int) * 1) v =
      ∑ d ∈ range (2 ^ min (Nat.clog 2 rows) (Nat.clog 2 cols)), M.getD d 0 * rot (d : Int) v := by
    have z1 : ∀ d, 2 ^ min (Nat.clog 2 rows) (Nat.clog 2 cols) ≤ d → M.getD d 0 = 0 := by
      intro d hd
      by_cases hlt : d < M.length
      · refine hzero d ?_ hlt
        rintro idx slot ⟨r, c, _, _, _, h4, _⟩
        rw [er, ec, hmin] at h4
        omega
      · exact List.getD_eq_default _ _ (by omega)
    have ext : ∀ n m, n ≤ m → (∀ d, n ≤ d → M.getD d 0 = 0) →
        ∑ d ∈ range n, M.getD d 0 * rot (d : Int) v = ∑ d ∈ range m, M.getD d 0 * rot (d : Int) v := by
      intro n m hnm hz
      refine sum_subset (range_subset_range.2 hnm) fun d _ hd => ?_
      rw [hz d (by simpa using hd), zero_mul]
    simp only [mul_one]
    rcases le_total M.length (2 ^ min (Nat.clog 2 rows) (Nat.clog 2 cols)) with h | h
    · exact ext _ _ h fun d hd => List.getD_eq_default _ _ hd
    · exact (ext _ _ h z1).symm
  intro s hs
  have hp := packs_vec hr1 (by omega) hN'
    (fun i => ∑ j ∈ range cols, A i j * X j) _ hval s hs
  rw [padded_eq hr1 (by omega), ← hp]
  simp only [hsum]

end Heir.Toeplitz
