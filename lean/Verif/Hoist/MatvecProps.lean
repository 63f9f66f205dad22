import Verif.Hoist.Spec
import Verif.Kernel.MatmulProps

/-!
# C156: conversions that are moved past or folded into matrix-vector products
-/

namespace Heir.Hoist

open Heir.Layout Heir.Kernel Heir.NumTheory Finset

variable {R : Type} {N : Nat} [CommRing R] [DecidableEq R]

/-- The kernel on the matrix and the vector computes `w`. -/
def KernelGives (M : List (Slots R N)) (v : Slots R N) (rows cols : Nat) (w : Slots R N) : Prop :=
  ∃ e, haleviShoup M v (BitVec.ofNat 64 rows) (BitVec.ofNat 64 cols) (fun _ => false) = some e ∧
    Computes anyKey e w

/-- The sum that the kernel computes, for all contents of the ciphertexts. -/
theorem hs_computes {rows cols : Nat} (hr : 1 ≤ rows) (hc : 1 ≤ cols) (hr2 : rows ≤ 2 ^ 24)
    (hc2 : cols ≤ 2 ^ 24) {M : List (Slots R N)} (hM : M ≠ []) (v : Slots R N) :
    KernelGives M v rows cols (∑ i ∈ range (2 ^ (Nat.clog 2 cols - Nat.clog 2 rows)),
      rot ((i * 2 ^ Nat.clog 2 rows : Nat) : Int)
        (∑ d ∈ range M.length, M.getD d 0 * rot (d : Int) v)) := by
  have e1 : (nextPowerOfTwo (BitVec.ofNat 64 rows)).toNat = 2 ^ Nat.clog 2 rows := by
    rw [nextPowerOfTwo_toNat _ (by rw [toNat_ofNat64] <;> omega) (by rw [toNat_ofNat64] <;> omega),
      toNat_ofNat64 (by omega)]
  have e2 : (nextPowerOfTwo (BitVec.ofNat 64 cols)).toNat = 2 ^ Nat.clog 2 cols := by
    rw [nextPowerOfTwo_toNat _ (by rw [toNat_ofNat64] <;> omega) (by rw [toNat_ofNat64] <;> omega),
      toNat_ofNat64 (by omega)]
  obtain ⟨e, he, hev⟩ := rotateAndReduce_ok (ok := anyKey) (m := M) (v := v) (period := 1)
    (steps := M.length) (skip := fun _ => false) (D := fun d => M.getD d 0)
    (List.length_pos_iff.2 hM) (fun c hc => by simp [hc]) (fun _ _ h => by simp at h)
    (fun _ _ => rfl) (fun _ _ => rfl)
  have hclt : Nat.clog 2 cols < 2 ^ 31 := by
    have := Nat.clog_mono_right 2 hc2
    rw [Nat.clog_pow 2 24 (by omega)] at this
    omega
  unfold KernelGives haleviShoup
  rw [he, e1, e2]
  refine ⟨_, rfl, fun env => ?_⟩
  have := squatSum_ok (ok := anyKey) true (Nat.clog 2 rows) (Nat.clog 2 cols) hclt (hev env)
    (fun _ _ => rfl)
  simp only [mul_one] at this
  exact this

/-- The kernel computes one value. -/
theorem kernelGives_unique {M : List (Slots R N)} {v w w' : Slots R N} {rows cols : Nat}
    (h : KernelGives M v rows cols w) (h' : KernelGives M v rows cols w') : w = w' := by
  obtain ⟨e, he, hw⟩ := h
  obtain ⟨e', he', hw'⟩ := h'
  rw [he] at he'
  cases he'
  obtain ⟨s, hs⟩ := hw default
  obtain ⟨s', hs'⟩ := hw' default
  rw [hs] at hs'
  simp at hs'
  exact hs'.2

/-- Square matrices: all slots are used. -/
theorem hs_square (hN : 0 < N) (hN' : N ≤ 2 ^ 24) {M : List (Slots R N)} (hM : M.length = N)
    (v : Slots R N) :
    KernelGives M v N N (∑ d ∈ range N, M.getD d 0 * rot (d : Int) v) := by
  have := hs_computes (N := N) (rows := N) (cols := N) hN hN hN' hN' (M := M)
    (fun h => by rw [h] at hM; simp at hM; omega) v
  simpa [hM, rot_zero] using this

/-! ## `hoistConversionThroughMatvec` -/

theorem rowVec_iff {k : Nat} (hk : N = 2 ^ k) (hN' : N ≤ 2 ^ 24) {i s : Nat} :
    rowVec N N i s ↔ s < N ∧ i = s := by
  have hN : 0 < N := by rw [hk]; positivity
  have hp : 2 ^ Nat.clog 2 N = N := by rw [hk, Nat.clog_pow 2 k (by omega)]
  unfold rowVec
  constructor
  · intro h
    have hs : s < N := h.2.2.1
    obtain ⟨j, hj, hj', e⟩ := (rowMajor_vec hN le_rfl hN' _ s hs).1 h
    rw [hp, Nat.mod_eq_of_lt hs] at e
    simp at hj
    exact ⟨hs, hj.trans e.symm⟩
  · rintro ⟨hs, rfl⟩
    exact (rowMajor_vec hN le_rfl hN' _ i hs).2 ⟨i, rfl, hs, by rw [hp, Nat.mod_eq_of_lt hs]⟩

theorem padded_pow {k : Nat} (hk : N = 2 ^ k) (hN' : N ≤ 2 ^ 24) : padded N = N := by
  have hN : 0 < N := by rw [hk]; positivity
  rw [padded_eq hN (by omega), hk, Nat.clog_pow 2 k (by omega)]

/-- The layout of the matrix after hoisting, for a square matrix that fills the slots. -/
theorem hoistMatvec_iff {k : Nat} (hk : N = 2 ^ k) (hN' : N ≤ 2 ^ 24) (σ : Equiv.Perm (ZMod N))
    {i j ct slot : Nat} :
    hoistMatvec (diagonal N N N) (rowVec N N) (movedVec σ) (i, j) ct slot ↔
      i < N ∧ ct < N ∧ slot < N ∧ σ (i : ZMod N) = (slot : ZMod N) ∧ j = (ct + i) % N := by
  have hN : 0 < N := by rw [hk]; positivity
  unfold hoistMatvec diagonal movedVec
  simp only [padded_pow hk hN', min_self]
  constructor
  · rintro ⟨s, ⟨h1, h2, h3, h4, h5, h6⟩, i', hi', _, h7, h8⟩
    obtain ⟨_, rfl⟩ := (rowVec_iff hk hN').1 hi'
    rw [Nat.mod_eq_of_lt h4] at h5
    subst h5
    exact ⟨h1, h3, h7, h8, h6⟩
  · rintro ⟨h1, h2, h3, h4, h5⟩
    exact ⟨i, ⟨h1, by rw [h5]; exact Nat.mod_lt _ hN, h2, h1, (Nat.mod_eq_of_lt h1).symm, h5⟩, i,
      (rowVec_iff hk hN').2 ⟨h1, rfl⟩, h1, h3, h4⟩

/-- C156: for a square matrix that fills the slots and a conversion that rotates, the kernel on the
repacked operands returns the product in the layout that is asked for. -/
theorem C156_matvec_partial {k : Nat} (hk : N = 2 ^ k) (hN' : N ≤ 2 ^ 24) {σ : Equiv.Perm (ZMod N)}
    (a : ZMod N) (hσ : ∀ i, σ i = i + a) {A : Nat → Nat → R} {x : Nat → R} {M : List (Slots R N)}
    {v : Slots R N} (hl : M.length = N) {mat : MatRel} {vec out : VecRel}
    (hh : matvecHoister (diagonal N N N) (rowVec N N) (movedVec σ) = (mat, vec, out))
    (hM : Packs mat (fun i => A i.1 i.2) N N (fun d s => (M.getD d 0) (s : ZMod N)))
    (hv : Packs vec.at0 x 1 N (fun _ s => v (s : ZMod N))) :
    ∃ w, KernelGives M v N N w ∧
      Packs out.at0 (fun i => ∑ j ∈ range N, A i j * x j) 1 N (fun _ s => w (s : ZMod N)) := by
  have hN : 0 < N := by rw [hk]; positivity
  have : NeZero N := ⟨hN.ne'⟩
  obtain ⟨rfl, rfl, rfl⟩ : hoistMatvec (diagonal N N N) (rowVec N N) (movedVec σ) = mat ∧
      movedVec σ = vec ∧ movedVec σ = out := by
    unfold matvecHoister at hh
    simpa using hh
  have hp : 2 ^ Nat.clog 2 N = N := by rw [hk, Nat.clog_pow 2 k (by omega)]
  refine ⟨_, hs_square hN hN' hl v, ?_⟩
  -- the same operands rotated back
  let M' : Nat → Slots R N := fun d i => M.getD d 0 (i + a)
  let v' : Slots R N := fun i => v (i + a)
  have hM' : Packs (diagonal N N N) (fun i => A i.1 i.2)
      (2 ^ min (Nat.clog 2 N) (Nat.clog 2 N)) N (fun d s => M' d (s : ZMod N)) := by
    rw [min_self, hp]
    intro d hd s hs
    set t := ((s : ZMod N) + a).val with ht
    have ht' : (t : ZMod N) = (s : ZMod N) + a := ZMod.natCast_zmod_val _
    have htN : t < N := ZMod.val_lt _
    have hval : M' d (s : ZMod N) = M.getD d 0 (t : ZMod N) := by rw [ht']
    obtain ⟨h1, _⟩ := hM d hd t htN
    have hrel := (hoistMatvec_iff hk hN' σ (i := s) (j := (d + s) % N) (ct := d) (slot := t)).2
      ⟨hs, hd, htN, by rw [hσ, ht'], rfl⟩
    have hpad := padded_pow hk hN'
    have hdiag : ∀ idx, diagonal N N N idx d s ↔ idx = (s, (d + s) % N) := by
      rintro ⟨i, j⟩
      unfold diagonal
      simp only [hpad, min_self, Prod.mk.injEq]
      rw [Nat.mod_eq_of_lt hs]
      exact ⟨fun h => ⟨h.2.2.2.2.1, h.2.2.2.2.2⟩,
        fun h => ⟨h.1 ▸ hs, h.2 ▸ Nat.mod_lt _ hN, hd, hs, h.1, h.2⟩⟩
    refine ⟨fun idx hi => ?_, fun hno => absurd ((hdiag _).2 rfl) (hno _)⟩
    rw [(hdiag idx).1 hi]
    exact hval.trans (h1 _ hrel)
  have hv' : Packs (rowMajor [N] N) (fun idx => x (idx.getD 0 0)) 1 N (fun _ s => v' (s : ZMod N)) := by
    intro ct hct s hs
    obtain rfl : ct = 0 := by omega
    set t := ((s : ZMod N) + a).val with ht
    have ht' : (t : ZMod N) = (s : ZMod N) + a := ZMod.natCast_zmod_val _
    have htN : t < N := ZMod.val_lt _
    have hval : v' (s : ZMod N) = v (t : ZMod N) := by rw [ht']
    have h1 := (hv 0 (by omega) t htN).1 s ⟨rfl, hs, htN, by rw [hσ, ht']⟩
    refine ⟨fun idx hi => ?_, fun hno => absurd ?_ (hno [s])⟩
    · obtain ⟨i, rfl, _, e⟩ := (rowMajor_vec hN le_rfl hN' _ s hs).1 hi
      rw [hp, Nat.mod_eq_of_lt hs] at e
      subst e
      exact hval.trans h1
    · exact (rowVec_iff hk hN').2 ⟨hs, rfl⟩
  have key := haleviShoup_value (N := N) (rows := N) (cols := N) hN hN (by rw [hp]) (by rw [hp]) hN
    hN' A x M' v' hM' hv'
  have hsum : ∀ i : ZMod N, (∑ d ∈ range N, M.getD d 0 * rot (d : Int) v) (i + a) =
      (∑ d ∈ range N, M' d * rot (d : Int) v') i := by
    intro i
    simp only [Finset.sum_apply, Pi.mul_apply]
    refine sum_congr rfl fun d _ => ?_
    show _ * v (i + a + _) = M.getD d 0 (i + a) * v (i + _ + a)
    rw [add_right_comm]
  intro ct hct t ht
  obtain rfl : ct = 0 := by omega
  set s := ((t : ZMod N) - a).val with hs
  have hs' : (s : ZMod N) = (t : ZMod N) - a := ZMod.natCast_zmod_val _
  have hsN : s < N := ZMod.val_lt _
  have hval : (∑ d ∈ range N, M.getD d 0 * rot (d : Int) v) (t : ZMod N) =
      ∑ j ∈ range N, A s j * x j := by
    have h1 := (key 0 (by omega) s hsN).1 [s] ((rowVec_iff hk hN').2 ⟨hsN, rfl⟩)
    simp only [Nat.sub_self, pow_zero, range_one, sum_singleton, zero_mul, Nat.cast_zero, min_self,
      hp, rot_zero] at h1
    rw [← sub_add_cancel (t : ZMod N) a, hsum, ← hs']
    exact h1
  have hrel : (movedVec σ).at0 s 0 t := ⟨rfl, hsN, ht, by rw [hσ, hs', sub_add_cancel]⟩
  refine ⟨?_, fun hno => absurd hrel (hno s)⟩
  rintro i ⟨_, hi, _, e⟩
  refine hval.trans ?_
  have : (i : ZMod N) = (s : ZMod N) := by rw [hs', eq_sub_iff_add_eq, ← hσ, e]
  have hv := congrArg ZMod.val this
  rw [ZMod.val_cast_of_lt hi, ZMod.val_cast_of_lt hsN] at hv
  simp only [hv]

/-- C156 is violated by every other permutation of the slots: there are a matrix and a vector for
which the kernel on the repacked operands returns something else. -/
theorem C156_violated_permutation {k : Nat} (hk : N = 2 ^ k) (hN' : N ≤ 2 ^ 24)
    {σ : Equiv.Perm (ZMod N)} (hσ : ¬ ∃ a, ∀ i, σ i = i + a) :
    ∃ (A : Nat → Nat → ℤ) (x : Nat → ℤ) (M : List (Slots ℤ N)) (v w : Slots ℤ N),
      M.length = N ∧
      Packs (matvecHoister (diagonal N N N) (rowVec N N) (movedVec σ)).1 (fun i => A i.1 i.2) N N
        (fun d s => (M.getD d 0) (s : ZMod N)) ∧
      Packs (matvecHoister (diagonal N N N) (rowVec N N) (movedVec σ)).2.1.at0 x 1 N
        (fun _ s => v (s : ZMod N)) ∧
      KernelGives M v N N w ∧
      ¬ Packs (matvecHoister (diagonal N N N) (rowVec N N) (movedVec σ)).2.2.at0
        (fun i => ∑ j ∈ range N, A i j * x j) 1 N (fun _ s => w (s : ZMod N)) := by
  have hN : 0 < N := by rw [hk]; positivity
  have : NeZero N := ⟨hN.ne'⟩
  obtain ⟨s, d, hsd⟩ : ∃ s d, σ (s + d) ≠ σ s + d := by
    by_contra hc
    refine hσ ⟨σ 0, fun i => ?_⟩
    by_contra hne
    exact hc ⟨0, i, by rw [zero_add, add_comm]; exact hne⟩
  let A : Nat → Nat → ℤ := fun i j => if (i : ZMod N) = s ∧ (j : ZMod N) = s + d then 1 else 0
  let x : Nat → ℤ := fun j => if (j : ZMod N) = s + d then 1 else 0
  let Mf : Nat → Slots ℤ N := fun c t => A (σ.symm t).val ((c + (σ.symm t).val) % N)
  let v : Slots ℤ N := fun t => x (σ.symm t).val
  let M : List (Slots ℤ N) := (List.range N).map Mf
  have hl : M.length = N := by simp [M]
  have hget : ∀ c, c < N → M.getD c 0 = Mf c := by
    intro c hc
    simp [M, List.getD, hc]
  have hval : ∀ i, i < N → ∀ t : ZMod N, σ (i : ZMod N) = t → (σ.symm t).val = i := by
    intro i hi t ht
    rw [← ht, Equiv.symm_apply_apply, ZMod.val_cast_of_lt hi]
  refine ⟨A, x, M, v, _, hl, ?_, ?_, hs_square hN hN' hl v, ?_⟩
  · intro c hc t ht
    refine ⟨?_, fun hno => absurd ?_ (hno ((σ.symm (t : ZMod N)).val,
      (c + (σ.symm (t : ZMod N)).val) % N))⟩
    · rintro ⟨i, j⟩ hr
      obtain ⟨h1, _, _, h4, rfl⟩ := (hoistMatvec_iff hk hN' σ).1 hr
      simp only [hget c hc, Mf]
      rw [hval i h1 _ h4]
    · exact (hoistMatvec_iff hk hN' σ).2 ⟨ZMod.val_lt _, hc, ht,
        by rw [ZMod.natCast_zmod_val, Equiv.apply_symm_apply], rfl⟩
  · intro c hc t ht
    obtain rfl : c = 0 := by omega
    refine ⟨?_, fun hno => absurd ?_ (hno (σ.symm (t : ZMod N)).val)⟩
    · rintro i ⟨_, hi, _, e⟩
      simp only [v]
      rw [hval i hi _ e]
    · exact ⟨rfl, ZMod.val_lt _, ht, by rw [ZMod.natCast_zmod_val, Equiv.apply_symm_apply]⟩
  · intro hP
    have h1 := (hP 0 (by omega) (σ s).val (ZMod.val_lt _)).1 s.val
      ⟨rfl, ZMod.val_lt _, ZMod.val_lt _, by rw [ZMod.natCast_zmod_val, ZMod.natCast_zmod_val]⟩
    simp only [ZMod.natCast_zmod_val] at h1
    have hright : ∑ j ∈ range N, A s.val j * x j = 1 := by
      rw [sum_eq_single (s + d).val]
      · simp [A, x]
      · intro j hj hne
        have : (j : ZMod N) ≠ s + d := by
          intro h
          apply hne
          rw [← h, ZMod.val_cast_of_lt (mem_range.1 hj)]
        simp [x, this]
      · intro h
        exact absurd (mem_range.2 (ZMod.val_lt _)) h
    have hleft : (∑ c ∈ range N, M.getD c 0 * rot (c : Int) v) (σ s) = 0 := by
      rw [Finset.sum_apply]
      refine sum_eq_zero fun c hc => ?_
      rw [Pi.mul_apply, hget c (mem_range.1 hc)]
      show A (σ.symm (σ s)).val ((c + (σ.symm (σ s)).val) % N) * x (σ.symm (σ s + ((c : Int) : ZMod N))).val = 0
      simp only [Equiv.symm_apply_apply, Int.cast_natCast]
      by_cases hcd : (c : ZMod N) = d
      · have : x (σ.symm (σ s + (c : ZMod N))).val = 0 := by
          simp only [x, ZMod.natCast_zmod_val]
          rw [if_neg]
          intro h
          apply hsd
          rw [← h, Equiv.apply_symm_apply, hcd]
        rw [this, mul_zero]
      · have : A s.val ((c + s.val) % N) = 0 := by
          simp only [A, ZMod.natCast_mod, Nat.cast_add, ZMod.natCast_zmod_val]
          rw [if_neg]
          rintro ⟨_, h⟩
          rw [add_comm] at h
          exact hcd (add_left_cancel h)
        rw [this, zero_mul]
    rw [hleft, hright] at h1
    exact zero_ne_one h1

/-- A rotation, and a permutation that is none. -/
example : (∀ i : ZMod 4, Equiv.addRight 3 i = i + 3) ∧
    ¬ ∃ a, ∀ i : ZMod 4, Equiv.swap 0 1 i = i + a := by decide

/-- C156 is violated for matrices that are not square: the vector gets the layout of the result, in
which some of its elements are not stored, and the kernel cannot know them. -/
theorem C156_violated_rectangular {rows cols : Nat} (h : rows < cols) {toVec : VecRel}
    (hto : ∀ i s, toVec i s → i < rows) (matrix : MatRel) (fromVec : VecRel) :
    ∃ j, j < cols ∧ ∀ s, ¬ (matvecHoister matrix fromVec toVec).2.1 j s :=
  ⟨rows, h, fun s hs => absurd (hto _ _ hs) (lt_irrefl _)⟩

/-- A vector of two elements is not a layout of the three elements of the operand. -/
example : ∀ i s, rowVec 2 4 i s → i < 2 := by
  intro i s h
  obtain ⟨j, hj, h2, _⟩ := (rowMajor_vec (n := 2) (N := 4) (by omega) (by omega) (by omega) _ s
    h.2.2.1).1 h
  simp at hj
  omega

/-! ## `FoldMatvecInputConversionIntoPlaintext` -/

/-- C156: if the padded columns fill the slots and the vector occupies the first slots, in any
order, the kernel on the folded matrix and the vector as it is returns the product. -/
theorem C156_fold_partial {rows cols : Nat} (hr : 1 ≤ rows) (hc : 1 ≤ cols)
    (hN : N = 2 ^ Nat.clog 2 cols) (hN' : N ≤ 2 ^ 24) (hrN : 2 ^ Nat.clog 2 rows ≤ N) {vec : VecRel}
    (h1 : oneToOne vec) (hb : ∀ i s, vec i s → i < cols ∧ s < cols)
    (hall : ∀ i, i < cols → ∃ s, vec i s) {A : Nat → Nat → R} {x : Nat → R}
    {M : List (Slots R N)} {v : Slots R N}
    (hl : M.length = 2 ^ min (Nat.clog 2 rows) (Nat.clog 2 cols))
    (hM : Packs (foldVec vec (diagonal rows cols N)) (fun i => A i.1 i.2) M.length N
      (fun d s => (M.getD d 0) (s : ZMod N)))
    (hv : Packs vec.at0 x 1 N (fun _ s => v (s : ZMod N))) :
    ∃ w, KernelGives M v rows cols w ∧
      Packs (rowMajor [rows] N) (fun idx => ∑ j ∈ range cols, A (idx.getD 0 0) j * x j) 1 N
        (fun _ s => w (s : ZMod N)) := by
  classical
  have hcN : cols ≤ N := hN ▸ Nat.le_pow_clog (by omega) cols
  have hNpos : 0 < N := by omega
  -- the permutation
  let π : Nat → Nat := fun i => if h : ∃ s, vec i s then h.choose else 0
  have hπ : ∀ i, i < cols → vec i (π i) := fun i hi => by
    simp only [π, dif_pos (hall i hi)]
    exact (hall i hi).choose_spec
  have hmaps : ∀ i, i < cols → π i < cols := fun i hi => (hb _ _ (hπ i hi)).2
  have hinj : ∀ i j, i < cols → j < cols → π i = π j → i = j := fun i j hi hj e =>
    h1.2 i j (π i) (hπ i hi) (e ▸ hπ j hj)
  have hsurj : ∀ s, s < cols → ∃ i, vec i s := by
    have := Finset.surjOn_of_injOn_of_card_le (s := range cols) (t := range cols) π
      (fun i hi => by simpa using hmaps i (by simpa using hi))
      (fun i hi j hj e => hinj i j (by simpa using hi) (by simpa using hj) e) le_rfl
    intro s hs
    obtain ⟨i, hi, e⟩ := this (show s ∈ (range cols : Set Nat) by simpa using hs)
    exact ⟨i, e ▸ hπ i (by simpa using hi)⟩
  let π' : Nat → Nat := fun s => if h : ∃ i, vec i s then h.choose else 0
  have hπ' : ∀ i s, vec i s → π' s = i := by
    intro i s h
    have hex : ∃ i, vec i s := ⟨i, h⟩
    simp only [π', dif_pos hex]
    exact h1.2 _ _ s hex.choose_spec h
  let A' : Nat → Nat → R := fun i s => A i (π' s)
  let x' : Nat → R := fun s => x (π' s)
  have hM' : Packs (diagonal rows cols N) (fun i => A' i.1 i.2) M.length N
      (fun d s => (M.getD d 0) (s : ZMod N)) := by
    intro d hd t ht
    obtain ⟨a, b⟩ := hM d hd t ht
    refine ⟨?_, fun hno => b ?_⟩
    · rintro ⟨i, s⟩ hr
      obtain ⟨j, hj⟩ := hsurj s hr.2.1
      have := a (i, j) ⟨s, hj, hr⟩
      simp only [A', hπ' _ _ hj]
      exact this
    · rintro idx ⟨s, _, hr⟩
      exact hno _ hr
  have hv' : Packs (rowMajor [cols] N) (fun idx => x' (idx.getD 0 0)) 1 N
      (fun _ s => v (s : ZMod N)) := by
    intro ct hct t ht
    obtain rfl : ct = 0 := by omega
    obtain ⟨a, b⟩ := hv 0 (by omega) t ht
    refine ⟨fun idx hi => ?_, fun hno => b ?_⟩
    · obtain ⟨i, rfl, hi, e⟩ := (rowMajor_vec hc hcN hN' _ t ht).1 hi
      rw [← hN, Nat.mod_eq_of_lt ht] at e
      subst e
      obtain ⟨j, hj⟩ := hsurj t hi
      rw [a j ⟨rfl, hj⟩]
      simp only [x', List.getD_cons_zero, hπ' _ _ hj]
    · rintro j ⟨_, hj⟩
      exact hno [t] ((rowMajor_vec hc hcN hN' _ t ht).2 ⟨t, rfl, (hb _ _ hj).2,
        by rw [← hN, Nat.mod_eq_of_lt ht]⟩)
  obtain ⟨e, w, he, hw, hP⟩ := C33_haleviShoup (N := N) (rows := rows) (cols := cols) (A := A')
    (x := x') (M := M) (v := v)
    ⟨hr, hc, ⟨_, hN⟩, hN', hrN, hN.symm.le, hl, hM', hv'⟩ (fun _ => false)
    (fun _ _ h => by simp at h)
  refine ⟨w, ⟨e, he, hw⟩, ?_⟩
  have hsum : ∀ i, ∑ j ∈ range cols, A' i j * x' j = ∑ j ∈ range cols, A i j * x j := by
    intro i
    symm
    refine Finset.sum_nbij π (fun j hj => mem_range.2 (hmaps j (mem_range.1 hj)))
      (fun a ha b hb' e => hinj a b (by simpa using ha) (by simpa using hb') e) ?_ ?_
    · intro s hs
      have hs : s < cols := by simpa using hs
      obtain ⟨j, hj⟩ := hsurj s hs
      have hjc := (hb _ _ hj).1
      exact ⟨j, by simpa using hjc, h1.1 j _ _ (hπ j hjc) hj⟩
    · intro j hj
      simp only [A', x', hπ' _ _ (hπ j (mem_range.1 hj))]
  simpa only [hsum] using hP

/-- A vector of three elements in reverse order in four slots. -/
example : oneToOne (fun i s => i < 3 ∧ s = 2 - i) ∧
    ∀ i s, (i < 3 ∧ s = 2 - i) → i < 3 ∧ s < 3 :=
  ⟨⟨fun i s s' h h' => by omega, fun i i' s h h' => by omega⟩, fun i s h => by omega⟩

/-- The elements 0 and 1 in slots 0 and 1, element 2 in slot 3. -/
def gapVec : VecRel := fun i s => i < 3 ∧ s = if i = 2 then 3 else i

/-- The elements in their slots, once. -/
def onceVec : VecRel := fun i s => i < 2 ∧ s = i

theorem padded_three : padded 3 = 4 := by rw [padded_eq (by omega) (by omega)]; decide

theorem padded_two : padded 2 = 2 := by rw [padded_eq (by omega) (by omega)]; decide

/-- C156 is violated if the vector has a slot beyond the columns: its column is dropped from the
matrix.  Three rows of ones and the vector of ones in four slots, the last element in slot 3: the
kernel returns 2 in slot 0, not 3. -/
theorem C156_violated_gap :
    ∃ (M : List (Slots ℤ 4)) (v w : Slots ℤ 4), oneToOne gapVec ∧ M.length = 4 ∧
      Packs (foldVec gapVec (diagonal 3 3 4)) (fun _ => 1) 4 4 (fun d s => (M.getD d 0) (s : ZMod 4)) ∧
      Packs gapVec.at0 (fun _ => 1) 1 4 (fun _ s => v (s : ZMod 4)) ∧
      KernelGives M v 3 3 w ∧ w 0 = 2 ∧
      ¬ Packs (rowMajor [3] 4) (fun _ => ∑ j ∈ range 3, (1 : ℤ) * 1) 1 4
        (fun _ s => w (s : ZMod 4)) := by
  refine ⟨[![1, 1, 0, 0], ![1, 0, 0, 0], ![0, 0, 1, 0], ![0, 1, 1, 0]], ![1, 1, 0, 1], _,
    ⟨?_, ?_⟩, rfl, ?_, ?_, hs_computes (by omega) (by omega) (by omega) (by omega) (by simp) _, ?_, ?_⟩
  · rintro i s s' ⟨_, rfl⟩ ⟨_, rfl⟩
    rfl
  · rintro i i' s ⟨_, rfl⟩ ⟨_, h⟩
    split at h <;> split at h <;> omega
  · intro d hd s hs
    have hrel : ∀ i j, foldVec gapVec (diagonal 3 3 4) (i, j) d s ↔
        j < 2 ∧ i = s ∧ i < 3 ∧ (d + s) % 4 = j := by
      intro i j
      unfold foldVec gapVec diagonal
      simp only [padded_three, min_self]
      constructor
      · rintro ⟨t, ⟨h1, rfl⟩, h3, h4, h5, h6, h7, h8⟩
        split at h4 <;> split at h8 <;> omega
      · rintro ⟨h1, rfl, h3, h4⟩
        refine ⟨j, ⟨by omega, by rw [if_neg (by omega)]⟩, h3, by omega, by omega, by omega, by omega,
          by omega⟩
    refine ⟨?_, fun hno => ?_⟩
    · rintro ⟨i, j⟩ hr
      obtain ⟨h1, rfl, h3, h4⟩ := (hrel i j).1 hr
      clear hr
      show _ = (1 : ℤ)
      interval_cases d <;> interval_cases i <;> first | omega | decide
    · have hno' : ¬ (s < 3 ∧ (d + s) % 4 < 2) := fun h =>
        hno (s, (d + s) % 4) ((hrel _ _).2 ⟨h.2, rfl, h.1, rfl⟩)
      interval_cases d <;> interval_cases s <;> first | omega | decide
  · intro ct hct s hs
    obtain rfl : ct = 0 := by omega
    refine ⟨?_, fun hno => ?_⟩
    · rintro i ⟨_, hi, rfl⟩
      interval_cases i <;> decide
    · have h2 : s = 2 := by
        by_contra hne
        by_cases h3 : s = 3
        · exact hno 2 ⟨rfl, by omega, by simp [h3]⟩
        · exact hno s ⟨rfl, by omega, by rw [if_neg hne]⟩
      subst h2
      decide
  · decide +kernel
  · intro h
    have := (h 0 (by omega) 0 (by omega)).1 [0]
      ((rowMajor_vec (by omega) (by omega) (by omega) _ _ (by omega)).2 ⟨0, rfl, by omega, by decide⟩)
    revert this
    decide +kernel

/-- C156 is violated if the columns do not fill the slots: the product needs the vector to be
repeated.  Two rows of ones and the vector of ones in four slots: the kernel returns 1 in slot 1,
not 2. -/
theorem C156_violated_repeat :
    ∃ (M : List (Slots ℤ 4)) (v w : Slots ℤ 4), oneToOne onceVec ∧ M.length = 2 ∧
      Packs (foldVec onceVec (diagonal 2 2 4)) (fun _ => 1) 2 4 (fun d s => (M.getD d 0) (s : ZMod 4)) ∧
      Packs onceVec.at0 (fun _ => 1) 1 4 (fun _ s => v (s : ZMod 4)) ∧
      KernelGives M v 2 2 w ∧ w 1 = 1 ∧
      ¬ Packs (rowMajor [2] 4) (fun _ => ∑ j ∈ range 2, (1 : ℤ) * 1) 1 4
        (fun _ s => w (s : ZMod 4)) := by
  refine ⟨[![1, 1, 1, 1], ![1, 1, 1, 1]], ![1, 1, 0, 0], _,
    ⟨?_, ?_⟩, rfl, ?_, ?_, hs_computes (by omega) (by omega) (by omega) (by omega) (by simp) _, ?_, ?_⟩
  · rintro i s s' ⟨_, rfl⟩ ⟨_, rfl⟩
    rfl
  · rintro i i' s ⟨_, rfl⟩ ⟨_, h⟩
    exact h
  · intro d hd s hs
    refine ⟨?_, fun hno => absurd ?_ (hno (s % 2, (d + s) % 2))⟩
    · intro idx _
      show _ = (1 : ℤ)
      interval_cases d <;> interval_cases s <;> decide
    · refine ⟨(d + s) % 2, ⟨by show (d + s) % 2 < 2; omega, rfl⟩, ?_⟩
      unfold diagonal
      simp only [padded_two, min_self]
      exact ⟨by omega, by omega, hd, hs, trivial, trivial⟩
  · intro ct hct s hs
    obtain rfl : ct = 0 := by omega
    refine ⟨?_, fun hno => ?_⟩
    · rintro i ⟨_, hi, rfl⟩
      interval_cases s <;> decide
    · have h2 : ¬ s < 2 := fun h => hno s ⟨rfl, h, rfl⟩
      interval_cases s <;> first | omega | decide
  · decide +kernel
  · intro h
    have := (h 0 (by omega) 1 (by omega)).1 [1]
      ((rowMajor_vec (by omega) (by omega) (by omega) _ _ (by omega)).2 ⟨1, rfl, by omega, by decide⟩)
    revert this
    decide +kernel

end Heir.Hoist
