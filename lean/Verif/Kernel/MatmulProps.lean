import Verif.Kernel.Props

/-! # C33, C34, C35, C49: the kernels on packed operands are the matrix products -/

namespace Heir.Kernel

open Heir.Dag Heir.Layout Heir.NumTheory Finset

variable {R : Type} {N : Nat} [CommRing R] [DecidableEq R]

/-! ## C33: Halevi-Shoup -/

/-- The row-major layout of a vector that fits one ciphertext. -/
theorem rowMajor_vec {n N : Nat} (h1 : 1 ≤ n) (h2 : n ≤ N) (h3 : N ≤ 2 ^ 24) (idx : List Nat)
    (slot : Nat) (hs : slot < N) :
    rowMajor [n] N idx 0 slot ↔ ∃ i, idx = [i] ∧ i < n ∧ slot % 2 ^ Nat.clog 2 n = i := by
  have e1 : numElements [n] = n := by simp [numElements]
  have e2 : lastCt n N = 0 := by
    rw [lastCt_eq h1 (by omega) (by omega) h3, Nat.div_eq_of_lt (by omega)]; rfl
  unfold rowMajor
  rw [e1, e2, padded_eq h1 (by omega)]
  constructor
  · rintro ⟨hb, _, _, _, hm⟩
    obtain ⟨i, rest, hi, hr, rfl⟩ : ∃ i rest, i < n ∧ InBounds [] rest ∧ idx = i :: rest := by
      cases hb with
      | cons h t => exact ⟨_, _, h, t, rfl⟩
    cases hr
    have : flat [n] [i] = i := by simp [flat, strides]
    rw [this, Nat.mod_eq_of_lt (show i < N by omega)] at hm
    exact ⟨i, rfl, hi, hm⟩
  · rintro ⟨i, rfl, hi, hm⟩
    have : flat [n] [i] = i := by simp [flat, strides]
    rw [this, Nat.mod_eq_of_lt (show i < N by omega), Nat.div_eq_of_lt (show i < N by omega)]
    exact ⟨by simp [InBounds, hi], by simp, hs, rfl, hm⟩

omit [DecidableEq R] in
/-- The slots of a packed vector. -/
theorem packs_vec {n : Nat} (h1 : 1 ≤ n) (h2 : n ≤ N) (h3 : N ≤ 2 ^ 24) (x : Nat → R)
    (v : Nat → Nat → R)
    (h : Packs (rowMajor [n] N) (fun idx => x (idx.getD 0 0)) 1 N v) (s : Nat) (hs : s < N) :
    v 0 s = if s % 2 ^ Nat.clog 2 n < n then x (s % 2 ^ Nat.clog 2 n) else 0 := by
  obtain ⟨ha, hb⟩ := h 0 (by omega) s hs
  split
  · rename_i hlt
    exact ha [s % 2 ^ Nat.clog 2 n] ((rowMajor_vec h1 h2 h3 _ s hs).2 ⟨_, rfl, hlt, rfl⟩)
  · rename_i hlt
    refine hb fun idx hi => ?_
    obtain ⟨i, _, hi, e⟩ := (rowMajor_vec h1 h2 h3 _ s hs).1 hi
    omega

omit [DecidableEq R] in
/-- The value computed on packed operands. -/
theorem haleviShoup_value {rows cols : Nat} (hr : 1 ≤ rows) (hc : 1 ≤ cols)
    (hr' : 2 ^ Nat.clog 2 rows ∣ N) (hc' : 2 ^ Nat.clog 2 cols ∣ N) (hN : 0 < N)
    (hN' : N ≤ 2 ^ 24) (A : Nat → Nat → R) (x : Nat → R)
    (M : Nat → Slots R N) (v : Slots R N)
    (hM : Packs (diagonal rows cols N) (fun i => A i.1 i.2)
      (2 ^ min (Nat.clog 2 rows) (Nat.clog 2 cols)) N (fun d s => M d (s : ZMod N)))
    (hv : Packs (rowMajor [cols] N) (fun idx => x (idx.getD 0 0)) 1 N (fun _ s => v (s : ZMod N))) :
    Packs (rowMajor [rows] N) (fun idx => ∑ j ∈ range cols, A (idx.getD 0 0) j * x j) 1 N
      (fun _ s => (∑ i ∈ range (2 ^ (Nat.clog 2 cols - Nat.clog 2 rows)),
        rot ((i * 2 ^ Nat.clog 2 rows : Nat) : Int)
        (∑ d ∈ range (2 ^ min (Nat.clog 2 rows) (Nat.clog 2 cols)), M d * rot (d : Int) v))
        (s : ZMod N)) := by
  have hrN := Nat.le_of_dvd hN hr'
  have hcN := Nat.le_of_dvd hN hc'
  have hr2 := Nat.le_pow_clog (b := 2) (by omega) rows
  have hc2 := Nat.le_pow_clog (b := 2) (by omega) cols
  have hX : ∀ t : Nat, v (t : ZMod N) =
      (fun j => if j < cols then x j else 0) (t % 2 ^ Nat.clog 2 cols) := by
    intro t
    have := packs_vec hc (by omega) hN' x _ hv (t % N) (Nat.mod_lt _ hN)
    simp only [ZMod.natCast_mod, Nat.mod_mod_of_dvd _ hc'] at this
    exact this
  have hDD : ∀ d, d < 2 ^ min (Nat.clog 2 rows) (Nat.clog 2 cols) → ∀ t : Nat, t < N →
      M d (t : ZMod N) = (fun i j => if i < rows ∧ j < cols then A i j else 0)
        (t % 2 ^ Nat.clog 2 rows) ((d + t) % 2 ^ Nat.clog 2 cols) := by
    intro d hd t ht
    obtain ⟨ha, hb⟩ := hM d hd t ht
    have hmin : min (padded rows) (padded cols) = 2 ^ min (Nat.clog 2 rows) (Nat.clog 2 cols) := by
      rw [padded_eq hr (by omega), padded_eq hc (by omega)]
      rcases le_total (Nat.clog 2 rows) (Nat.clog 2 cols) with h | h
      · rw [min_eq_left h, min_eq_left (Nat.pow_le_pow_right (by omega) h)]
      · rw [min_eq_right h, min_eq_right (Nat.pow_le_pow_right (by omega) h)]
    simp only
    split
    · rename_i h
      refine ha (t % 2 ^ Nat.clog 2 rows, (d + t) % 2 ^ Nat.clog 2 cols) ?_
      unfold diagonal
      rw [hmin, padded_eq hr (by omega), padded_eq hc (by omega)]
      exact ⟨h.1, h.2, hd, ht, rfl, rfl⟩
    · rename_i h
      refine hb fun idx hi => h ?_
      unfold diagonal at hi
      rw [padded_eq hr (by omega), padded_eq hc (by omega)] at hi
      obtain ⟨h1, h2, _, _, h5, h6⟩ := hi
      exact ⟨h5 ▸ h1, h6 ▸ h2⟩
  have key := squat_sum hr' hc' (fun i j => if i < rows ∧ j < cols then A i j else 0)
    (fun j => if j < cols then x j else 0) M v hX hDD hN
  have hsum : ∀ i, ∑ j ∈ range (2 ^ Nat.clog 2 cols),
      (if i < rows ∧ j < cols then A i j else 0) * (if j < cols then x j else 0) =
      if i < rows then ∑ j ∈ range cols, A i j * x j else 0 := by
    intro i
    obtain ⟨d, hd⟩ := Nat.exists_eq_add_of_le hc2
    rw [hd, sum_range_add, sum_eq_zero (s := range d) (fun j _ => by
      rw [if_neg (show ¬ cols + j < cols by omega), mul_zero]), add_zero]
    split
    · rename_i h
      refine sum_congr rfl fun j hj => ?_
      rw [if_pos ⟨h, mem_range.1 hj⟩, if_pos (mem_range.1 hj)]
    · rename_i h
      refine sum_eq_zero fun j hj => ?_
      rw [if_neg (fun h' => h h'.1), zero_mul]
  intro ct hct s hs
  have : ct = 0 := by omega
  subst this
  simp only [key, hsum]
  constructor
  · intro idx hi
    obtain ⟨i, rfl, hi, e⟩ := (rowMajor_vec hr (by omega) hN' _ s hs).1 hi
    rw [e, if_pos hi]
    rfl
  · intro h
    rw [if_neg]
    intro hlt
    exact h _ ((rowMajor_vec hr (by omega) hN' _ s hs).2 ⟨_, rfl, hlt, rfl⟩)

/-- Hypotheses on the operands of the Halevi-Shoup kernel: the slot count is a power of two that
holds the padded dimensions, and `M` and `v` pack the matrix and the vector. -/
structure MatvecOperands (rows cols : Nat) (A : Nat → Nat → R) (x : Nat → R)
    (M : List (Slots R N)) (v : Slots R N) : Prop where
  rows_pos : 1 ≤ rows
  cols_pos : 1 ≤ cols
  pow : ∃ k, N = 2 ^ k
  slots : N ≤ 2 ^ 24
  rows_le : 2 ^ Nat.clog 2 rows ≤ N
  cols_le : 2 ^ Nat.clog 2 cols ≤ N
  length : M.length = 2 ^ min (Nat.clog 2 rows) (Nat.clog 2 cols)
  matrix : Packs (diagonal rows cols N) (fun i => A i.1 i.2) M.length N
    (fun d s => (M.getD d 0) (s : ZMod N))
  vector : Packs (rowMajor [cols] N) (fun idx => x (idx.getD 0 0)) 1 N (fun _ s => v (s : ZMod N))

theorem pow_dvd_of_le {a k : Nat} (h : 2 ^ a ≤ 2 ^ k) : 2 ^ a ∣ 2 ^ k :=
  Nat.pow_dvd_pow 2 ((Nat.pow_le_pow_iff_right (by omega)).1 h)

/-- C33: the kernel on the packed matrix and vector returns the packed product, in every slot
(whatever zero diagonals are declared). -/
theorem C33_haleviShoup {rows cols : Nat} {A : Nat → Nat → R} {x : Nat → R}
    {M : List (Slots R N)} {v : Slots R N} (h : MatvecOperands rows cols A x M v)
    (skip : Nat → Bool) (hskip : ∀ d, d < M.length → skip d = true → M.getD d 0 = 0) :
    ∃ e w, haleviShoup M v (BitVec.ofNat 64 rows) (BitVec.ofNat 64 cols) skip = some e ∧
      Computes anyKey e w ∧
      Packs (rowMajor [rows] N) (fun idx => ∑ j ∈ range cols, A (idx.getD 0 0) j * x j) 1 N
        (fun _ s => w (s : ZMod N)) := by
  obtain ⟨hr, hc, ⟨k, hk⟩, hN', hrN, hcN, hl, hM, hv⟩ := h
  have hN : 0 < N := by rw [hk]; positivity
  have hr2 := Nat.le_pow_clog (b := 2) (by omega) rows
  have hc2 := Nat.le_pow_clog (b := 2) (by omega) cols
  have e1 : (nextPowerOfTwo (BitVec.ofNat 64 rows)).toNat = 2 ^ Nat.clog 2 rows := by
    rw [nextPowerOfTwo_toNat _ (by rw [toNat_ofNat64] <;> omega) (by rw [toNat_ofNat64] <;> omega),
      toNat_ofNat64 (by omega)]
  have e2 : (nextPowerOfTwo (BitVec.ofNat 64 cols)).toNat = 2 ^ Nat.clog 2 cols := by
    rw [nextPowerOfTwo_toNat _ (by rw [toNat_ofNat64] <;> omega) (by rw [toNat_ofNat64] <;> omega),
      toNat_ofNat64 (by omega)]
  obtain ⟨e, he, hev⟩ := rotateAndReduce_ok (ok := anyKey) (m := M) (v := v) (period := 1)
    (steps := M.length) (skip := skip) (D := fun d => M.getD d 0) (by rw [hl]; exact Nat.one_le_two_pow)
    (fun c hc => by simp [hc]) hskip (fun _ _ => rfl) (fun _ _ => rfl)
  unfold haleviShoup
  rw [he, e1, e2]
  have hclt : Nat.clog 2 cols < 2 ^ 31 := by
    have : Nat.clog 2 cols < 2 ^ Nat.clog 2 cols := Nat.lt_two_pow_self
    omega
  refine ⟨_, _, rfl, fun env => squatSum_ok true _ _ hclt (hev env) (fun _ _ => rfl), ?_⟩
  rw [hl] at hM
  have := haleviShoup_value hr hc (hk ▸ pow_dvd_of_le (hk ▸ hrN)) (hk ▸ pow_dvd_of_le (hk ▸ hcN)) hN
    hN' A x (fun d => M.getD d 0) v hM hv
  simp only [mul_one, hl]
  exact this

/-- C33: the rolled kernel. -/
theorem C33_haleviShoupRolled {rows cols : Nat} {A : Nat → Nat → R} {x : Nat → R}
    {M : List (Slots R N)} {v : Slots R N} (h : MatvecOperands rows cols A x M v)
    (zeros : List (Int × Bool))
    (hskip : ∀ d, d < M.length → ((d : Int), true) ∈ zeros → M.getD d 0 = 0) :
    ∃ e w, haleviShoupRolled M v (BitVec.ofNat 64 rows) (BitVec.ofNat 64 cols) zeros = some e ∧
      Computes anyKey e w ∧
      Packs (rowMajor [rows] N) (fun idx => ∑ j ∈ range cols, A (idx.getD 0 0) j * x j) 1 N
        (fun _ s => w (s : ZMod N)) := by
  obtain ⟨hr, hc, ⟨k, hk⟩, hN', hrN, hcN, hl, hM, hv⟩ := h
  have hN : 0 < N := by rw [hk]; positivity
  have hr2 := Nat.le_pow_clog (b := 2) (by omega) rows
  have hc2 := Nat.le_pow_clog (b := 2) (by omega) cols
  have e1 : (nextPowerOfTwo (BitVec.ofNat 64 rows)).toNat = 2 ^ Nat.clog 2 rows := by
    rw [nextPowerOfTwo_toNat _ (by rw [toNat_ofNat64] <;> omega) (by rw [toNat_ofNat64] <;> omega),
      toNat_ofNat64 (by omega)]
  have e2 : (nextPowerOfTwo (BitVec.ofNat 64 cols)).toNat = 2 ^ Nat.clog 2 cols := by
    rw [nextPowerOfTwo_toNat _ (by rw [toNat_ofNat64] <;> omega) (by rw [toNat_ofNat64] <;> omega),
      toNat_ofNat64 (by omega)]
  have hml : M.length ≤ 2 ^ 24 := by
    rw [hl]
    exact (Nat.pow_le_pow_right (by omega) (min_le_left _ _)).trans (hrN.trans hN')
  obtain ⟨e, he, hev⟩ := rotateAndReduceRolled_ok (ok := anyKey) (m := M) (v := v) (period := 1)
    (steps := M.length) (zeros := zeros) (D := fun d => M.getD d 0) (by rw [hl]; exact Nat.one_le_two_pow)
    (by omega) (fun c hc => by simp [hc]) hskip (fun _ _ => rfl) (fun _ _ => rfl)
  unfold haleviShoupRolled
  rw [he, e1, e2]
  have hclt : Nat.clog 2 cols < 2 ^ 31 := by
    have : Nat.clog 2 cols < 2 ^ Nat.clog 2 cols := Nat.lt_two_pow_self
    omega
  refine ⟨_, _, rfl, fun env => squatSum_ok false _ _ hclt (hev env) (fun _ _ => rfl), ?_⟩
  rw [hl] at hM
  have := haleviShoup_value hr hc (hk ▸ pow_dvd_of_le (hk ▸ hrN)) (hk ▸ pow_dvd_of_le (hk ▸ hcN)) hN
    hN' A x (fun d => M.getD d 0) v hM hv
  simp only [mul_one, hl]
  exact this

/-- Operands exist: the matrix `[[1, 2], [3, 4]]` and the vector `[5, 6]` on two slots. -/
example : MatvecOperands (N := 2) 2 2 (fun i j => (2 * i + j + 1 : ℤ)) (fun j => 5 + j)
    [fun s => if s = 0 then 1 else 4, fun s => if s = 0 then 2 else 3]
    (fun s => if s = 0 then 5 else 6) where
  rows_pos := by omega
  cols_pos := by omega
  pow := ⟨1, rfl⟩
  slots := by omega
  rows_le := by decide
  cols_le := by decide
  length := by decide
  matrix := by
    have e : padded 2 = 2 := by rw [padded_eq (by omega) (by omega)]; decide
    intro ct hct s hs
    have hct : ct < 2 := hct
    refine ⟨?_, fun hno => absurd ?_ (hno (s % 2, (ct + s) % 2))⟩
    · rintro ⟨i, j⟩ ⟨_, _, _, _, h5, h6⟩
      rw [e] at h5 h6
      simp only at h5 h6
      subst h5 h6
      interval_cases ct <;> interval_cases s <;> decide
    · unfold diagonal
      rw [e]
      exact ⟨by omega, by omega, hct, hs, rfl, rfl⟩
  vector := by
    intro ct hct s hs
    obtain rfl : ct = 0 := by omega
    have e : 2 ^ Nat.clog 2 2 = 2 := by decide
    refine ⟨?_, fun hno => absurd ?_ (hno [s % 2])⟩
    · intro idx h
      obtain ⟨i, rfl, _, h⟩ := (rowMajor_vec (by omega) le_rfl (by omega) _ _ hs).1 h
      rw [e] at h
      subst h
      interval_cases s <;> decide
    · exact (rowMajor_vec (by omega) le_rfl (by omega) _ _ hs).2 ⟨_, rfl, by omega, by rw [e]⟩

/-! ## C34, C35: ciphertext products -/

omit [DecidableEq R] in
/-- Slots of a tricyclic packing in one ciphertext. -/
theorem packs_tricyclic {h m n : Nat} (hh : 1 ≤ h) (hm : 1 ≤ m) (hn : 1 ≤ n)
    (hle : h * m * n ≤ N) (h3 : N ≤ 2 ^ 24) (A : Nat × Nat × Nat → R) (a : Nat → R)
    (hA : Packs (Layout.tricyclic h m n N) A 1 N (fun _ => a)) (k : Nat) (hk : k < N) :
    a k = A (k % h, k % m, k % n) := by
  have hpos : 1 ≤ h * m * n := Nat.mul_pos (Nat.mul_pos hh hm) hn
  refine (hA 0 (by omega) k hk).1 _ ⟨Nat.mod_lt _ hh, Nat.mod_lt _ hm, Nat.mod_lt _ hn, ?_, hk, ?_⟩
  · rw [lastCt_eq hpos (by omega) (by omega) h3]; exact_mod_cast Nat.zero_le _
  · simp

omit [DecidableEq R] in
theorem packs_bicyclic {m n : Nat} (hm : 1 ≤ m) (hn : 1 ≤ n)
    (hle : m * n ≤ N) (h3 : N ≤ 2 ^ 24) (A : Nat × Nat → R) (a : Nat → R)
    (hA : Packs (Layout.bicyclic m n N) A 1 N (fun _ => a)) (k : Nat) (hk : k < N) :
    a k = A (k % m, k % n) := by
  have hpos : 1 ≤ m * n := Nat.mul_pos hm hn
  refine (hA 0 (by omega) k hk).1 _ ⟨Nat.mod_lt _ hm, Nat.mod_lt _ hn, ?_, hk, ?_⟩
  · rw [lastCt_eq hpos (by omega) (by omega) h3]; exact_mod_cast Nat.zero_le _
  · simp

/-- The replication of a prefix that is at least one period long. -/
theorem replicatePrefix_ok {R : Type} {N P V : Nat} (hP : 1 ≤ P) (hV : P ≤ V) (hVN : V ≤ N)
    (v : Nat → R) : ∃ q, 1 ≤ q ∧ q * P ≤ V ∧
      replicatePrefix N P V v = some fun t => v (t % (q * P)) := by
  refine ⟨V / P, Nat.div_pos hV hP, Nat.div_mul_le_self V P, ?_⟩
  unfold replicatePrefix
  have e0 : (V : Int).tdiv P * P = ((V / P * P : Nat) : Int) := by
    rw [Int.tdiv_eq_ediv_of_nonneg (by omega)]
    push_cast; rfl
  have h1 : 0 < V / P * P := Nat.mul_pos (Nat.div_pos hV hP) hP
  have h2 := Nat.div_mul_le_self V P
  simp only [e0]
  rw [if_pos (show (0 : Int) < V by omega), Int.toNat_natCast, if_pos ⟨h1, by omega⟩]

/-- A prefix shorter than a period is rejected. -/
theorem replicatePrefix_none {R : Type} {N P : Nat} {V : Int} (hV : V < P) (v : Nat → R) :
    replicatePrefix N P V v = none := by
  unfold replicatePrefix
  by_cases h : 0 < V
  · have : V.tdiv P = 0 := by
      rw [Int.tdiv_eq_ediv_of_nonneg (by omega), Int.ediv_eq_zero_of_lt (by omega) hV]
    simp [h, this]
  · simp [h]

theorem bsgs_tricyclic {h m n p : Nat} (hh : 1 ≤ h) (hn : 1 ≤ n) (hp : 1 ≤ p)
    (hcop : Nat.Coprime n (h * m)) (hN : N ≤ 2 ^ 24) {q : Nat} (hq : q ≤ n)
    (hinv : p * q ≡ 1 [MOD n])
    (A B : Nat → Nat → Nat → R) (a b : Slots R N)
    (ha : ∀ k, k < N → a (k : ZMod N) = A (k % h) (k % m) (k % n))
    (hb : ∀ k, k < N → b (k : ZMod N) = B (k % h) (k % n) (k % p)) :
    ∃ e w, bsgs n ((h * m : Nat) : Int) (fun _ => false) (fun _ => leafV b)
        (cyclicRot (BitVec.ofNat 64 h) (BitVec.ofNat 64 m) (BitVec.ofNat 64 n) (BitVec.ofNat 64 p)
          (BitVec.ofNat 64 q) (BitVec.ofNat 64 (h * m))) (leafV a) = some e ∧
      Computes anyKey e w ∧
      ∀ s, s + (h * n * p - 1) + h * m * (n - 1) < N →
        w (s : ZMod N) = ∑ y ∈ range n, A (s % h) (s % m) y * B (s % h) y (s % p) := by
  obtain ⟨e, he, hev⟩ := bsgs_ok (ok := anyKey) hn ((h * m : Nat) : Int) (fun _ => leafV b) (fun _ => b)
    (cyclicRot (BitVec.ofNat 64 h) (BitVec.ofNat 64 m) (BitVec.ofNat 64 n) (BitVec.ofNat 64 p)
          (BitVec.ofNat 64 q) (BitVec.ofNat 64 (h * m))) (leafV a) a (sp := true)
    (fun _ _ _ => ev_leafV b) (fun _ => ⟨_, ev_leafV a⟩) (fun _ => rfl)
  refine ⟨e, _, he, hev, fun s hs => ?_⟩
  exact cyclic_sum hn hh hp hq hcop hinv (by omega) A B a b ha hb (ceilSqrt n) s hs

/-- C35: with `n` coprime to the other dimensions, the tricyclic kernel on tricyclic packings,
followed by the addition of the packed initial value and the replication of the valid prefix, gives
the tricyclic packing of the batched product plus the initial value, whenever one period of the
result fits in front of the reach of the rotations. -/
theorem C35_tricyclic {h m n p : Nat} (hh : 1 ≤ h) (hm : 1 ≤ m) (hn : 1 ≤ n) (hp : 1 ≤ p)
    (hnh : Nat.Coprime n h) (hnm : Nat.Coprime n m) (hnp : Nat.Coprime n p) (hN : N ≤ 2 ^ 24)
    (hfit : h * n * p - 1 + h * m * (n - 1) + h * m * p ≤ N)
    (A B C : Nat × Nat × Nat → R) (a b c : Slots R N)
    (hA : Packs (Layout.tricyclic h m n N) A 1 N (fun _ s => a (s : ZMod N)))
    (hB : Packs (Layout.tricyclic h n p N) B 1 N (fun _ s => b (s : ZMod N)))
    (hC : Packs (Layout.tricyclic h m p N) C 1 N (fun _ s => c (s : ZMod N))) :
    ∃ e w out, tricyclic a b (BitVec.ofNat 64 h) (BitVec.ofNat 64 m) (BitVec.ofNat 64 n)
        (BitVec.ofNat 64 p) = some e ∧ Computes anyKey e w ∧
      replicatePrefix N (h * m * p) ((N : Int) - (h * n * p - 1 + h * m * (n - 1) : Nat))
        (fun s => w (s : ZMod N) + c (s : ZMod N)) = some out ∧
      Packs (Layout.tricyclic h m p N)
        (fun i => ∑ y ∈ range n, A (i.1, i.2.1, y) * B (i.1, y, i.2.2) + C i) 1 N (fun _ => out) := by
  have hcop : Nat.Coprime n (h * m) := Nat.Coprime.mul_right hnh hnm
  have h1 : 1 ≤ h * n * p := Nat.mul_pos (Nat.mul_pos hh hn) hp
  have h2 : 1 ≤ h * m * p := Nat.mul_pos (Nat.mul_pos hh hm) hp
  have h2' : h * m ≤ h * m * p := Nat.le_mul_of_pos_right _ hp
  have h3 : h * m * n ≤ N := by
    have : h * m * n = h * m * (n - 1) + h * m := by
      rw [← Nat.mul_succ]; congr 1; omega
    omega
  have hnN : n ≤ h * n * p := by
    calc n = 1 * n * 1 := by ring
      _ ≤ h * n * p := by gcongr
  have hpN : p ≤ h * m * p := Nat.le_mul_of_pos_left _ (Nat.mul_pos hh hm)
  have hmN : h * m ≤ N := by omega
  have hhN : h ≤ h * m := Nat.le_mul_of_pos_right _ hm
  have hmN' : m ≤ h * m := Nat.le_mul_of_pos_left _ hh
  obtain ⟨q, hq, hinv, hqe⟩ := inverse_mod hn (by omega) (show p < 2 ^ 64 by omega) hnp
  obtain ⟨e, w, he, hw, hval⟩ := bsgs_tricyclic hh hn hp hcop hN hq hinv
    (fun i j k => A (i, j, k)) (fun i j k => B (i, j, k)) a b
    (fun k hk => packs_tricyclic hh hm hn h3 hN A _ hA k hk)
    (fun k hk => packs_tricyclic hh hn hp (by omega) hN B _ hB k hk)
  obtain ⟨r, hr1, hr2, hrep⟩ := replicatePrefix_ok (N := N) (P := h * m * p)
    (V := N - (h * n * p - 1 + h * m * (n - 1))) h2 (by omega) (by omega)
    (fun s => w (s : ZMod N) + c (s : ZMod N))
  refine ⟨e, w, _, ?_, hw, (Eq.trans ?_ hrep), ?_⟩
  · unfold tricyclic
    have hz : ¬ (BitVec.ofNat 64 n = 0#64 ∨
        BitVec.ofNat 64 h * BitVec.ofNat 64 n * BitVec.ofNat 64 p = 0#64) := by
      rintro (h0 | h0)
      · have := congrArg BitVec.toNat h0
        rw [toNat_ofNat64 (by omega)] at this
        simp at this; omega
      · rw [← BitVec.ofNat_mul, ← BitVec.ofNat_mul] at h0
        have := congrArg BitVec.toNat h0
        rw [toNat_ofNat64 (by omega)] at this
        simp at this; omega
    rw [if_neg hz, hqe]
    simp only [Option.bind_eq_bind, Option.bind_some]
    rw [← BitVec.ofNat_mul, toNat_ofNat64 (show n < 2 ^ 64 by omega), toInt_ofNat64 (by omega)]
    exact he
  · congr 1
    omega
  · have hrp : 0 < r * (h * m * p) := Nat.mul_pos hr1 h2
    intro ct hct s hs
    have : ct = 0 := by omega
    subst this
    have hlt : s % (r * (h * m * p)) < r * (h * m * p) := Nat.mod_lt _ hrp
    have hsle : s % (r * (h * m * p)) < N := by omega
    have hv := hval (s % (r * (h * m * p))) (by omega)
    have hcv := packs_tricyclic hh hm hp (by omega) hN C _ hC _ hsle
    have d1 : h ∣ r * (h * m * p) := ⟨r * m * p, by ring⟩
    have d2 : m ∣ r * (h * m * p) := ⟨r * h * p, by ring⟩
    have d3 : p ∣ r * (h * m * p) := ⟨r * h * m, by ring⟩
    rw [Nat.mod_mod_of_dvd _ d1, Nat.mod_mod_of_dvd _ d2, Nat.mod_mod_of_dvd _ d3] at hv hcv
    simp only [hv, hcv]
    constructor
    · rintro ⟨i, j, l⟩ ⟨_, _, _, _, _, e1, e2, e3⟩
      simp only [Nat.zero_mul, Nat.zero_add] at e1 e2 e3
      rw [e1, e2, e3]
    · intro hno
      exfalso
      refine hno (s % h, s % m, s % p) ⟨Nat.mod_lt _ hh, Nat.mod_lt _ hm, Nat.mod_lt _ hp, ?_, hs, ?_⟩
      · rw [lastCt_eq h2 (by omega) (by omega) hN]; exact_mod_cast Nat.zero_le _
      · simp

/-- C35: otherwise the replication is rejected. -/
theorem C35_tricyclic_rejected {R : Type} {N h m n p : Nat}
    (hfit : N < h * n * p - 1 + h * m * (n - 1) + h * m * p) (v : Nat → R) :
    replicatePrefix N (h * m * p) ((N : Int) - (h * n * p - 1 + h * m * (n - 1) : Nat)) v = none :=
  replicatePrefix_none (by omega) v

example : 2 * 3 * 7 - 1 + 2 * 5 * (3 - 1) + 2 * 5 * 7 ≤ 256 ∧ Nat.Coprime 3 2 ∧ Nat.Coprime 3 5 ∧
    Nat.Coprime 3 7 := by decide

/-- C34: with `n` coprime to `m` and `p`, the bicyclic kernel on bicyclic packings, followed by the
addition of the packed initial value and the replication of the valid prefix, gives the bicyclic
packing of `A B + C`, whenever one period of the result fits in front of the reach. -/
theorem C34_bicyclic {m n p : Nat} (hm : 1 ≤ m) (hn : 1 ≤ n) (hp : 1 ≤ p)
    (hnm : Nat.Coprime n m) (hnp : Nat.Coprime n p) (hN : N ≤ 2 ^ 24)
    (hfit : n * p - 1 + m * (n - 1) + m * p ≤ N)
    (A B C : Nat × Nat → R) (a b c : Slots R N)
    (hA : Packs (Layout.bicyclic m n N) A 1 N (fun _ s => a (s : ZMod N)))
    (hB : Packs (Layout.bicyclic n p N) B 1 N (fun _ s => b (s : ZMod N)))
    (hC : Packs (Layout.bicyclic m p N) C 1 N (fun _ s => c (s : ZMod N))) :
    ∃ e w out, bicyclic a b (BitVec.ofNat 64 m) (BitVec.ofNat 64 n) (BitVec.ofNat 64 p) = some e ∧
      Computes anyKey e w ∧
      replicatePrefix N (m * p) ((N : Int) - (n * p - 1 + m * (n - 1) : Nat))
        (fun s => w (s : ZMod N) + c (s : ZMod N)) = some out ∧
      Packs (Layout.bicyclic m p N)
        (fun i => ∑ y ∈ range n, A (i.1, y) * B (y, i.2) + C i) 1 N (fun _ => out) := by
  have h1 : 1 ≤ n * p := Nat.mul_pos hn hp
  have h2 : 1 ≤ m * p := Nat.mul_pos hm hp
  have h2' : m ≤ m * p := Nat.le_mul_of_pos_right _ hp
  have hpN : p ≤ m * p := Nat.le_mul_of_pos_left _ hm
  have hnN : n ≤ n * p := Nat.le_mul_of_pos_right _ hp
  have h3 : m * n ≤ N := by
    have : m * n = m * (n - 1) + m := by rw [← Nat.mul_succ]; congr 1; omega
    omega
  obtain ⟨q, hq, hinv, hqe⟩ := inverse_mod hn (by omega) (show p < 2 ^ 64 by omega) hnp
  obtain ⟨q', _, _, hqe'⟩ := inverse_mod hn (by omega) (show m < 2 ^ 64 by omega) hnm
  obtain ⟨e, w, he, hw, hval⟩ := bsgs_tricyclic (h := 1) le_rfl hn hp (by simpa using hnm) hN hq hinv
    (fun _ j k => A (j, k)) (fun _ j k => B (j, k)) a b
    (fun k hk => packs_bicyclic hm hn h3 hN A _ hA k hk)
    (fun k hk => packs_bicyclic hn hp (by omega) hN B _ hB k hk)
  simp only [Nat.one_mul] at he hval
  obtain ⟨r, hr1, hr2, hrep⟩ := replicatePrefix_ok (N := N) (P := m * p)
    (V := N - (n * p - 1 + m * (n - 1))) h2 (by omega) (by omega)
    (fun s => w (s : ZMod N) + c (s : ZMod N))
  refine ⟨e, w, _, ?_, hw, (Eq.trans ?_ hrep), ?_⟩
  · unfold bicyclic
    have hz : ¬ (BitVec.ofNat 64 n = 0#64 ∨ BitVec.ofNat 64 n * BitVec.ofNat 64 p = 0#64) := by
      rintro (h0 | h0)
      · have := congrArg BitVec.toNat h0
        rw [toNat_ofNat64 (by omega)] at this
        simp at this; omega
      · rw [← BitVec.ofNat_mul] at h0
        have := congrArg BitVec.toNat h0
        rw [toNat_ofNat64 (by omega)] at this
        simp at this; omega
    rw [if_neg hz, hqe, hqe']
    simp only [Option.bind_eq_bind, Option.bind_some]
    rw [toNat_ofNat64 (show n < 2 ^ 64 by omega), toInt_ofNat64 (by omega)]
    exact he
  · congr 1
    omega
  · have hrp : 0 < r * (m * p) := Nat.mul_pos hr1 h2
    intro ct hct s hs
    have : ct = 0 := by omega
    subst this
    have hlt : s % (r * (m * p)) < r * (m * p) := Nat.mod_lt _ hrp
    have hsle : s % (r * (m * p)) < N := by omega
    have hv := hval (s % (r * (m * p))) (by omega)
    have hcv := packs_bicyclic hm hp (by omega) hN C _ hC _ hsle
    have d2 : m ∣ r * (m * p) := ⟨r * p, by ring⟩
    have d3 : p ∣ r * (m * p) := ⟨r * m, by ring⟩
    rw [Nat.mod_mod_of_dvd _ d2, Nat.mod_mod_of_dvd _ d3] at hv hcv
    simp only [hv, hcv]
    constructor
    · rintro ⟨j, l⟩ ⟨_, _, _, _, e2, e3⟩
      simp only [Nat.zero_mul, Nat.zero_add] at e2 e3
      rw [e2, e3]
    · intro hno
      exfalso
      refine hno (s % m, s % p) ⟨Nat.mod_lt _ hm, Nat.mod_lt _ hp, ?_, hs, ?_⟩
      · rw [lastCt_eq h2 (by omega) (by omega) hN]; exact_mod_cast Nat.zero_le _
      · simp

/-- C34: otherwise the replication is rejected. -/
theorem C34_bicyclic_rejected {R : Type} {N m n p : Nat}
    (hfit : N < n * p - 1 + m * (n - 1) + m * p) (v : Nat → R) :
    replicatePrefix N (m * p) ((N : Int) - (n * p - 1 + m * (n - 1) : Nat)) v = none :=
  replicatePrefix_none (by omega) v

example : 4 * 5 - 1 + 3 * (4 - 1) + 3 * 5 ≤ 64 ∧ Nat.Coprime 4 3 ∧ Nat.Coprime 4 5 := by decide

/-! ## C49: ciphertext-plaintext products by generalized diagonals -/

omit [DecidableEq R] in
/-- The diagonals of a packed cleartext factor. -/
theorem packs_diagonal {rows cols stride : Nat} {c0 : Bool} (hr : 1 ≤ rows) (hc : 1 ≤ cols)
    (B : Nat × Nat → R) (M : Nat → Nat → R)
    (hM : Packs (bicyclicDiagonal rows cols c0 stride N) B (if c0 then rows else cols) N M)
    (d : Nat) (hd : d < if c0 then rows else cols) (s : Nat) (hs : s < N) :
    M d s = B (if c0 then ((s + d * stride) % rows, s % cols)
      else (s % rows, (s + d * stride) % cols)) := by
  cases c0
  · refine (hM d hd s hs).1 _ ?_
    simp only [bicyclicDiagonal, Bool.false_eq_true, if_false]
    exact ⟨hd, hs, Nat.mod_lt _ hr, Nat.mod_lt _ hc, trivial, trivial⟩
  · refine (hM d hd s hs).1 _ ?_
    simp only [bicyclicDiagonal, if_true]
    exact ⟨hd, hs, Nat.mod_lt _ hr, Nat.mod_lt _ hc, trivial, trivial⟩

omit [DecidableEq R] in
/-- The replication of a value that is right on the prefix. -/
theorem replicate_packs {m p V : Nat} (hm : 1 ≤ m) (hp : 1 ≤ p) (hN : N ≤ 2 ^ 24)
    (hV : m * p ≤ V) (hVN : V ≤ N) (F : Nat → Nat → R) (v : Nat → R)
    (hval : ∀ s, s < V → v s = F (s % m) (s % p)) :
    ∃ out, replicatePrefix N (m * p) V v = some out ∧
      Packs (Layout.bicyclic m p N) (fun i => F i.1 i.2) 1 N (fun _ => out) := by
  have h2 : 1 ≤ m * p := Nat.mul_pos hm hp
  obtain ⟨r, hr1, hr2, hrep⟩ := replicatePrefix_ok h2 hV hVN v
  refine ⟨_, hrep, ?_⟩
  have hrp : 0 < r * (m * p) := Nat.mul_pos hr1 h2
  intro ct hct s hs
  have : ct = 0 := by omega
  subst this
  have hlt : s % (r * (m * p)) < r * (m * p) := Nat.mod_lt _ hrp
  have hv := hval (s % (r * (m * p))) (by omega)
  have d2 : m ∣ r * (m * p) := ⟨r * p, by ring⟩
  have d3 : p ∣ r * (m * p) := ⟨r * m, by ring⟩
  rw [Nat.mod_mod_of_dvd _ d2, Nat.mod_mod_of_dvd _ d3] at hv
  simp only [hv]
  constructor
  · rintro ⟨j, l⟩ ⟨_, _, _, _, e2, e3⟩
    simp only [Nat.zero_mul, Nat.zero_add] at e2 e3
    rw [e2, e3]
  · intro hno
    exfalso
    refine hno (s % m, s % p) ⟨Nat.mod_lt _ hm, Nat.mod_lt _ hp, ?_, hs, ?_⟩
    · rw [lastCt_eq h2 (by omega) (by omega) hN]; exact_mod_cast Nat.zero_le _
    · simp

/-- C49, secret left factor: the rotate-and-reduce kernel with period `m` and `n` steps on the
bicyclic packing of `A` and the generalized diagonals of `B`, plus the initial value, replicated,
is the bicyclic packing of `A B + C`. -/
theorem C49_secret_lhs {m n p : Nat} (hm : 1 ≤ m) (hn : 1 ≤ n) (hp : 1 ≤ p)
    (hnm : Nat.Coprime n m) (hN : N ≤ 2 ^ 24) (hfit : m * (n - 1) + m * p ≤ N)
    (A B C : Nat × Nat → R) (a c : Slots R N) (M : List (Slots R N)) (hl : M.length = n)
    (hA : Packs (Layout.bicyclic m n N) A 1 N (fun _ s => a (s : ZMod N)))
    (hB : Packs (bicyclicDiagonal n p true m N) B n N (fun d s => (M.getD d 0) (s : ZMod N)))
    (hC : Packs (Layout.bicyclic m p N) C 1 N (fun _ s => c (s : ZMod N))) :
    ∃ e w out, rotateAndReduce M a m n (fun _ => false) = some e ∧ Computes anyKey e w ∧
      replicatePrefix N (m * p) ((N : Int) - (m * (n - 1) : Nat))
        (fun s => w (s : ZMod N) + c (s : ZMod N)) = some out ∧
      Packs (Layout.bicyclic m p N)
        (fun i => ∑ y ∈ range n, A (i.1, y) * B (y, i.2) + C i) 1 N (fun _ => out) := by
  have h2' : m ≤ m * p := Nat.le_mul_of_pos_right _ hp
  have h3 : m * n ≤ N := by
    have : m * n = m * (n - 1) + m := by rw [← Nat.mul_succ]; congr 1; omega
    omega
  obtain ⟨e, he, hev⟩ := rotateAndReduce_ok (ok := anyKey) (m := M) (v := a) (period := (m : Int))
    (steps := n) (skip := fun _ => false) (D := fun d => M.getD d 0) hn
    (fun c hc => by simp [hl, hc]) (by intro c _ h; simp at h) (fun _ _ => rfl) (fun _ _ => rfl)
  have hval : ∀ s, s < N - m * (n - 1) →
      (∑ d ∈ range n, M.getD d 0 * rot ((d : Int) * (m : Int)) a) (s : ZMod N) + c (s : ZMod N) =
      (fun i j => ∑ y ∈ range n, A (i, y) * B (y, j) + C (i, j)) (s % m) (s % p) := by
    intro s hs
    simp only
    rw [← sum_steps s hn hnm fun y => A (s % m, y) * B (y, s % p), Finset.sum_apply]
    congr 1
    · refine sum_congr rfl fun d hd => ?_
      have hd := mem_range.1 hd
      have hdm : d * m ≤ m * (n - 1) := by
        rw [Nat.mul_comm]; exact Nat.mul_le_mul_left _ (by omega)
      have e1 : (d : Int) * (m : Int) = ((d * m : Nat) : Int) := by push_cast; ring
      rw [Pi.mul_apply, e1, rot_nat, packs_bicyclic hm hn h3 hN A _ hA _ (by omega), mul_comm]
      congr 2
      · rw [Nat.add_mul_mod_self_right]
      · exact packs_diagonal hn hp B _ hB d hd s (by omega)
    · exact packs_bicyclic hm hp (by omega) hN C _ hC s (by omega)
  obtain ⟨out, ho, hpk⟩ := replicate_packs hm hp hN (by omega) (by omega)
    (fun i j => ∑ y ∈ range n, A (i, y) * B (y, j) + C (i, j)) _ hval
  refine ⟨e, _, out, he, hev, ?_, hpk⟩
  rw [← ho]
  congr 1
  omega

/-- C49, secret right factor: period `p`. -/
theorem C49_secret_rhs {m n p : Nat} (hm : 1 ≤ m) (hn : 1 ≤ n) (hp : 1 ≤ p)
    (hnp : Nat.Coprime n p) (hN : N ≤ 2 ^ 24) (hfit : p * (n - 1) + m * p ≤ N)
    (A B C : Nat × Nat → R) (b c : Slots R N) (M : List (Slots R N)) (hl : M.length = n)
    (hA : Packs (bicyclicDiagonal m n false p N) A n N (fun d s => (M.getD d 0) (s : ZMod N)))
    (hB : Packs (Layout.bicyclic n p N) B 1 N (fun _ s => b (s : ZMod N)))
    (hC : Packs (Layout.bicyclic m p N) C 1 N (fun _ s => c (s : ZMod N))) :
    ∃ e w out, rotateAndReduce M b p n (fun _ => false) = some e ∧ Computes anyKey e w ∧
      replicatePrefix N (m * p) ((N : Int) - (p * (n - 1) : Nat))
        (fun s => w (s : ZMod N) + c (s : ZMod N)) = some out ∧
      Packs (Layout.bicyclic m p N)
        (fun i => ∑ y ∈ range n, A (i.1, y) * B (y, i.2) + C i) 1 N (fun _ => out) := by
  have h2' : p ≤ m * p := Nat.le_mul_of_pos_left _ hm
  have h3 : n * p ≤ N := by
    have : p * n = p * (n - 1) + p := by rw [← Nat.mul_succ]; congr 1; omega
    rw [Nat.mul_comm]; omega
  obtain ⟨e, he, hev⟩ := rotateAndReduce_ok (ok := anyKey) (m := M) (v := b) (period := (p : Int))
    (steps := n) (skip := fun _ => false) (D := fun d => M.getD d 0) hn
    (fun c hc => by simp [hl, hc]) (by intro c _ h; simp at h) (fun _ _ => rfl) (fun _ _ => rfl)
  have hval : ∀ s, s < N - p * (n - 1) →
      (∑ d ∈ range n, M.getD d 0 * rot ((d : Int) * (p : Int)) b) (s : ZMod N) + c (s : ZMod N) =
      (fun i j => ∑ y ∈ range n, A (i, y) * B (y, j) + C (i, j)) (s % m) (s % p) := by
    intro s hs
    simp only
    rw [← sum_steps s hn hnp fun y => A (s % m, y) * B (y, s % p), Finset.sum_apply]
    congr 1
    · refine sum_congr rfl fun d hd => ?_
      have hd := mem_range.1 hd
      have hdm : d * p ≤ p * (n - 1) := by
        rw [Nat.mul_comm]; exact Nat.mul_le_mul_left _ (by omega)
      have e1 : (d : Int) * (p : Int) = ((d * p : Nat) : Int) := by push_cast; ring
      rw [Pi.mul_apply, e1, rot_nat, packs_bicyclic hn hp h3 hN B _ hB _ (by omega)]
      congr 1
      · exact packs_diagonal hm hn A _ hA d hd s (by omega)
      · rw [Nat.add_mul_mod_self_right]
    · exact packs_bicyclic hm hp (by omega) hN C _ hC s (by omega)
  obtain ⟨out, ho, hpk⟩ := replicate_packs hm hp hN (by omega) (by omega)
    (fun i j => ∑ y ∈ range n, A (i, y) * B (y, j) + C (i, j)) _ hval
  refine ⟨e, _, out, he, hev, ?_, hpk⟩
  rw [← ho]
  congr 1
  omega

example : 3 * (4 - 1) + 3 * 6 ≤ 32 ∧ Nat.Coprime 4 3 := by decide

end Heir.Kernel
