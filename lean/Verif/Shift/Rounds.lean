import Verif.Shift.Spec
import Verif.Graph.Props
import Verif.NumTheory.Props
import Mathlib.Combinatorics.Colex
import Mathlib.Data.Nat.BitIndices

/-! # The rounds of a shift network and the rotation groups -/

namespace Heir.Shift

open Heir.Graph Heir.NumTheory Finset

/-- The index in the virtual ciphertext. -/
def virt (m : Nat) (p : CtSlot) : Nat := p.ct * m + p.slot

/-- The position with a virtual index. -/
def place (m x : Nat) : CtSlot := ⟨x / m, x % m⟩

variable {m num : Nat}

theorem virt_lt {p : CtSlot} (h : InRange m num p) : virt m p < num * m := by
  have : (p.ct + 1) * m ≤ num * m := Nat.mul_le_mul_right _ h.1
  have := h.2
  unfold virt
  rw [Nat.add_mul] at *
  omega

theorem place_virt {p : CtSlot} (h : p.slot < m) : place m (virt m p) = p := by
  have hm : 0 < m := by omega
  obtain ⟨c, s⟩ := p
  simp only [place, virt] at *
  rw [Nat.add_comm, Nat.add_mul_div_right _ _ hm, Nat.add_mul_mod_self_right, Nat.div_eq_of_lt h,
    Nat.mod_eq_of_lt h, Nat.zero_add]

theorem virt_place (x : Nat) : virt m (place m x) = x := by
  simp only [virt, place]
  rw [Nat.mul_comm]
  exact Nat.div_add_mod x m

theorem place_inRange (hm : 0 < m) {x : Nat} (h : x < num * m) : InRange m num (place m x) :=
  ⟨(Nat.div_lt_iff_lt_mul hm).2 h, Nat.mod_lt _ hm⟩

theorem place_inj {x y : Nat} (h : place m x = place m y) : x = y := by
  rw [← virt_place (m := m) x, h, virt_place]

/-! ## Positions -/

/-- The bits of the shift that are done. -/
def part (k : SourceShift) (S : Finset Nat) : Nat := ∑ i ∈ S with k.shift.testBit i, 2 ^ i

/-- The virtual index of a key. -/
def vpos (m num : Nat) (k : SourceShift) (S : Finset Nat) : Nat :=
  (((virt m k.source : Int) - part k S) % (num * m : Nat)).toNat

/-- The position of a key. -/
def pos (m num : Nat) (k : SourceShift) (S : Finset Nat) : CtSlot := place m (vpos m num k S)

theorem sum_bits (n : Nat) : ∑ i ∈ n.bitIndices.toFinset, 2 ^ i = n :=
  Finset.twoPowSum_toFinset_bitIndices n

theorem mem_bits (n i : Nat) : i ∈ n.bitIndices.toFinset ↔ n.testBit i = true := by
  rw [List.mem_toFinset, Nat.mem_bitIndices]

theorem part_le (k : SourceShift) (S : Finset Nat) : part k S ≤ k.shift := by
  conv_rhs => rw [← sum_bits k.shift]
  unfold part
  refine Finset.sum_le_sum_of_subset fun i hi => ?_
  rw [mem_bits]
  exact (Finset.mem_filter.1 hi).2

theorem part_full (k : SourceShift) {S : Finset Nat} (h : ∀ i, k.shift.testBit i = true → i ∈ S) :
    part k S = k.shift := by
  conv_rhs => rw [← sum_bits k.shift]
  unfold part
  refine Finset.sum_congr ?_ fun _ _ => rfl
  ext i
  rw [mem_bits, Finset.mem_filter]
  exact ⟨fun h => h.2, fun hi => ⟨h i hi, hi⟩⟩

theorem part_inj {k l : SourceShift} {S : Finset Nat} (h : part k S = part l S) {i : Nat}
    (hi : i ∈ S) : k.shift.testBit i = l.shift.testBit i := by
  have := Finset.geomSum_injective (n := 2) (le_refl 2) h
  have h2 := congrArg (i ∈ ·) this
  simp only [Finset.mem_filter, hi, true_and, eq_iff_iff] at h2
  exact Bool.eq_iff_iff.2 h2

theorem part_insert (k : SourceShift) {S : Finset Nat} {i : Nat} (hi : i ∉ S) :
    part k (insert i S) = part k S + if k.shift.testBit i then 2 ^ i else 0 := by
  unfold part
  rw [Finset.filter_insert]
  split
  · rw [Finset.sum_insert (by simp [hi])]
    omega
  · rfl

theorem and_two_pow_ne (i n : Nat) : 2 ^ i &&& n ≠ 0 ↔ n.testBit i = true := by
  constructor
  · intro h
    by_contra hb
    refine h (Nat.eq_of_testBit_eq fun j => ?_)
    rw [Nat.testBit_and, Nat.testBit_two_pow, Nat.zero_testBit]
    by_cases hj : i = j
    · subst hj; simpa using hb
    · simp [hj]
  · intro h h0
    have := congrArg (Nat.testBit · i) h0
    simp [Nat.testBit_and, Nat.testBit_two_pow, h] at this

section
variable (hN : 0 < num * m)
include hN

theorem vpos_lt (k : SourceShift) (S : Finset Nat) : vpos m num k S < num * m := by
  unfold vpos
  have h1 := Int.emod_nonneg ((virt m k.source : Int) - part k S)
    (by exact_mod_cast hN.ne' : ((num * m : Nat) : Int) ≠ 0)
  have h2 := Int.emod_lt_of_pos ((virt m k.source : Int) - part k S)
    (by exact_mod_cast hN : 0 < ((num * m : Nat) : Int))
  omega

theorem pos_inRange (k : SourceShift) (S : Finset Nat) : InRange m num (pos m num k S) :=
  place_inRange (Nat.pos_of_mul_pos_left hN) (vpos_lt hN k S)

omit hN in
theorem pos_empty {k : SourceShift} (h : InRange m num k.source) : pos m num k ∅ = k.source := by
  have := virt_lt h
  unfold pos vpos part
  simp only [Finset.filter_empty, Finset.sum_empty, Nat.cast_zero, Int.sub_zero]
  rw [← Int.natCast_mod, Int.toNat_natCast, Nat.mod_eq_of_lt this, place_virt h.2]

theorem vpos_cast (k : SourceShift) (S : Finset Nat) :
    (vpos m num k S : Int) = ((virt m k.source : Int) - part k S) % (num * m : Nat) := by
  unfold vpos
  exact Int.toNat_of_nonneg (Int.emod_nonneg _ (by exact_mod_cast hN.ne'))

/-- The position moves by the amount. -/
theorem vpos_insert {k : SourceShift} {S : Finset Nat} {i : Nat} (hi : i ∉ S)
    (hk : k.shift < num * m) (hb : k.shift.testBit i = true) :
    (vpos m num k S = (vpos m num k (insert i S) + 2 ^ i) % (num * m)) ∧
    ((vpos m num k S : Int) - (2 ^ i : Nat) + (num * m : Nat)).tmod (num * m : Nat) =
      vpos m num k (insert i S) := by
  have hp := part_insert k hi
  rw [if_pos hb] at hp
  have hle := part_le k (insert i S)
  have h0 := vpos_lt hN k S
  constructor
  · zify
    rw [vpos_cast hN, vpos_cast hN, hp]
    push_cast
    rw [Int.emod_add_emod]
    congr 1
    ring
  · rw [Int.tmod_eq_emod_of_nonneg (by omega), vpos_cast hN, vpos_cast hN, hp, Int.add_emod_right,
      Int.emod_sub_emod]
    push_cast
    congr 1
    ring

theorem move_pos {k : SourceShift} {S : Finset Nat} {i : Nat} (hi : i ∉ S)
    (hk : k.shift < num * m) :
    move m num (2 ^ i) k (pos m num k S) = pos m num k (insert i S) := by
  unfold move
  by_cases hb : k.shift.testBit i = true
  · rw [if_pos ((and_two_pow_ne i k.shift).2 hb)]
    have e : ((pos m num k S).ct * m + (pos m num k S).slot : Int) = vpos m num k S := by
      have := virt_place (m := m) (vpos m num k S)
      unfold virt at this
      unfold pos
      exact_mod_cast this
    simp only [e, (vpos_insert hN hi hk hb).2]
    unfold pos place
    congr 1
  · rw [if_neg (by rw [and_two_pow_ne]; exact hb)]
    unfold pos vpos
    rw [part_insert k hi, if_neg hb, Nat.add_zero]

end

/-! ## The list of rounds -/

/-- The rounds for the exponents. -/
def roundList (m num : Nat) (keys : List SourceShift) (S : Finset Nat) : List Nat → List Round
  | [] => []
  | i :: L => ⟨keys.map fun k => (k, pos m num k (insert i S)), 2 ^ i⟩ ::
      roundList m num keys (insert i S) L

theorem lookup_map {α β : Type} [DecidableEq α] (f : α → β) : ∀ (l : List α) (a : α), a ∈ l →
    (l.map fun k => (k, f k)).lookup a = some (f a) := by
  intro l
  induction l with
  | nil => intro a h; simp at h
  | cons b l ih =>
    intro a h
    rw [List.map_cons, List.lookup_cons]
    by_cases hab : a = b
    · subst hab; simp
    · rw [show (a == b) = false by simpa using hab]
      exact ih a ((List.mem_cons.1 h).resolve_left hab)

theorem mapM_some {α β : Type} (f : α → Option β) (g : α → β) : ∀ (l : List α),
    (∀ a ∈ l, f a = some (g a)) → l.mapM f = some (l.map g) := by
  intro l
  induction l with
  | nil => intro _; rfl
  | cons a l ih =>
    intro h
    rw [List.mapM_cons, h a (by simp), ih fun b hb => h b (by simp [hb])]
    rfl

theorem roundsFrom_ok (hN : 0 < num * m) {keys : List SourceShift}
    (hk : ∀ k ∈ keys, k.shift < num * m) : ∀ (L : List Nat) (S : Finset Nat) (a : Nat),
    L.Nodup → (∀ i ∈ L, i ∉ S) →
    roundsFrom m num keys ⟨keys.map fun k => (k, pos m num k S), a⟩ (L.map (2 ^ ·)) =
      some (roundList m num keys S L) := by
  intro L
  induction L with
  | nil => intro S a _ _; rfl
  | cons i L ih =>
    intro S a hn hS
    have hnext : nextRound m num keys ⟨keys.map fun k => (k, pos m num k S), a⟩ (2 ^ i) =
        some ⟨keys.map fun k => (k, pos m num k (insert i S)), 2 ^ i⟩ := by
      unfold nextRound
      rw [mapM_some _ (fun k => (k, pos m num k (insert i S))) keys]
      · rfl
      · intro k hkk
        simp only
        rw [lookup_map (fun k => pos m num k S) keys k hkk]
        simp only [Option.map_some]
        rw [move_pos hN (hS i (by simp)) (hk k hkk)]
    rw [List.map_cons, roundsFrom, hnext]
    simp only [Option.bind_eq_bind, Option.bind_some]
    rw [ih (insert i S) (2 ^ i) hn.of_cons]
    · rfl
    · intro j hj hm
      rcases Finset.mem_insert.1 hm with rfl | hm
      · exact (List.nodup_cons.1 hn).1 hj
      · exact hS j (by simp [hj]) hm

theorem normalizeShift_spec {a b n : Int} (ha : 0 ≤ a ∧ a < n) (hb : 0 ≤ b ∧ b < n) :
    0 ≤ normalizeShift a b n ∧ normalizeShift a b n < n ∧ (a - normalizeShift a b n) % n = b := by
  have h : (b - a).tmod n = b - a := by
    rcases le_or_gt 0 (b - a) with h | h
    · rw [Int.tmod_eq_emod_of_nonneg h, Int.emod_eq_of_lt h (by omega)]
    · have : (-(a - b)).tmod n = -((a - b).tmod n) := Int.neg_tmod _ _
      rw [show b - a = -(a - b) by ring, this, Int.tmod_eq_emod_of_nonneg (by omega),
        Int.emod_eq_of_lt (by omega) (by omega)]
  unfold normalizeShift
  simp only [h]
  split
  · refine ⟨by omega, by omega, ?_⟩
    rw [show a - (-(b - a) + n) = b - n by ring, Int.sub_emod_right, Int.emod_eq_of_lt hb.1 hb.2]
  · refine ⟨by omega, by omega, ?_⟩
    rw [show a - (-(b - a)) = b by ring, Int.emod_eq_of_lt hb.1 hb.2]

theorem virtualShift_ok (hN : 0 < num * m) {s t : CtSlot} (hs : InRange m num s)
    (ht : InRange m num t) :
    virtualShift m num s t < num * m ∧ ∀ S, (∀ i, (virtualShift m num s t).testBit i = true → i ∈ S) →
      pos m num ⟨s, virtualShift m num s t⟩ S = t := by
  have h1 := virt_lt hs
  have h2 := virt_lt ht
  have key := normalizeShift_spec (a := virt m s) (b := virt m t) (n := (num * m : Nat)) ⟨by omega, by exact_mod_cast h1⟩ ⟨by omega, by exact_mod_cast h2⟩
  have e : (virtualShift m num s t : Int) = normalizeShift (virt m s) (virt m t) (num * m : Nat) := by
    unfold virtualShift
    rw [Int.toNat_of_nonneg]
    · unfold virt; push_cast; rfl
    · have := key.1
      unfold virt at this
      push_cast at this
      exact this
  refine ⟨by zify; rw [e]; exact_mod_cast key.2.1, fun S hS => ?_⟩
  unfold pos vpos
  rw [part_full _ hS]
  simp only
  rw [e, key.2.2, Int.toNat_natCast, place_virt ht.2]

/-! ## Evaluation -/

/-- The source shifts are in range. -/
theorem sourceShifts_ok (hN : 0 < num * m) {mp : Mapping}
    (hin : ∀ e ∈ mp, InRange m num e.1 ∧ InRange m num e.2) :
    ∀ k ∈ sourceShifts m num mp, k.shift < num * m ∧ InRange m num k.source := by
  intro k hk
  obtain ⟨e, he, rfl⟩ := List.mem_map.1 hk
  exact ⟨(virtualShift_ok hN (hin e he).2 (hin e he).1).1, (hin e he).2⟩

/-- The first round. -/
def initial (m num : Nat) (mp : Mapping) : Round :=
  ⟨(sourceShifts m num mp).map fun ss => (ss, ss.source), 0⟩

theorem isPowerOfTwo_ofNat {n : Nat} (hn : n < 2 ^ 63) :
    isPowerOfTwo (BitVec.ofNat 64 n) = true ↔ ∃ k, n = 2 ^ k := by
  rw [C07_isPowerOfTwo]
  have : (BitVec.ofNat 64 n).toInt = n := by
    rw [BitVec.toInt_eq_toNat_of_lt] <;> rw [BitVec.toNat_ofNat, Nat.mod_eq_of_lt] <;> omega
  rw [this]
  constructor
  · rintro ⟨k, h⟩; exact ⟨k, by exact_mod_cast h⟩
  · rintro ⟨k, h⟩; exact ⟨k, by exact_mod_cast h⟩

/-- The default order has all the powers of two below the size. -/
theorem defaultShiftOrder_ok {n : Nat} (h0 : 0 < n) (hn : n ≤ 2 ^ 31) :
    ∃ k, n ≤ 2 ^ k ∧ 2 ^ k < 2 * n ∧ defaultShiftOrder n = some ((List.range k).map (2 ^ ·)) := by
  have hsh : (fun i => 1 <<< i : Nat → Nat) = (2 ^ ·) := by funext i; simp [Nat.shiftLeft_eq]
  unfold defaultShiftOrder
  by_cases hp : isPowerOfTwo (BitVec.ofNat 64 n) = true
  · obtain ⟨k, rfl⟩ := (isPowerOfTwo_ofNat (by omega)).1 hp
    have hk : k ≤ 31 := (Nat.pow_le_pow_iff_right (by omega)).1 hn
    refine ⟨k, le_refl _, by omega, ?_⟩
    simp only [hp, if_true, Nat.size_pow, Nat.add_sub_cancel, hk, hsh]
  · have hs1 : n < 2 ^ Nat.size n := Nat.lt_size_self n
    have hs2 : 2 ^ (Nat.size n - 1) ≤ n := by
      have : Nat.size n - 1 < Nat.size n := by have := Nat.size_pos.2 h0; omega
      exact Nat.lt_size.1 this
    have hpos := Nat.size_pos.2 h0
    have e : 2 ^ Nat.size n = 2 * 2 ^ (Nat.size n - 1) := by
      rw [← pow_succ']; congr 1; omega
    have hne : n ≠ 2 ^ (Nat.size n - 1) := fun h => hp ((isPowerOfTwo_ofNat (by omega)).2 ⟨_, h⟩)
    have hk : Nat.size n ≤ 31 := by
      refine Nat.size_le.2 (lt_of_le_of_ne hn ?_)
      rintro rfl
      exact hp ((isPowerOfTwo_ofNat (by omega)).2 ⟨31, rfl⟩)
    refine ⟨Nat.size n, hs1.le, by omega, ?_⟩
    simp only [hp, if_false, hk, if_true, hsh, Bool.false_eq_true]

/-- A shift order: empty, or a rearrangement of the default order. -/
def OrderOk (n : Nat) (order : List Nat) : Prop :=
  order = [] ∨ ∃ d, defaultShiftOrder n = some d ∧ order.Perm d

theorem evaluate_ok (hm : ∃ j, m = 2 ^ j) (h0 : 0 < num) (hN : num * m ≤ 2 ^ 31) {mp : Mapping}
    (hin : ∀ e ∈ mp, InRange m num e.1 ∧ InRange m num e.2) {order : List Nat}
    (ho : OrderOk (num * m) order) :
    ∃ L : List Nat, L.Nodup ∧ (∀ i, 2 ^ i < num * m → i ∈ L) ∧ (∀ i ∈ L, 2 ^ i < num * m) ∧
      evaluate m num mp order =
        some (initial m num mp :: roundList m num (sourceShifts m num mp) ∅ L) := by
  have hmp : 0 < m := by obtain ⟨j, rfl⟩ := hm; positivity
  have hNp : 0 < num * m := Nat.mul_pos h0 hmp
  have hmn : m ≤ num * m := Nat.le_mul_of_pos_left _ h0
  obtain ⟨k, hk1, hk2, hd⟩ := defaultShiftOrder_ok hNp hN
  obtain ⟨L, hL, hord⟩ : ∃ L : List Nat, L.Perm (List.range k) ∧
      chosenOrder (num * m) order =
        some (L.map (2 ^ ·)) := by
    by_cases he : order = []
    · exact ⟨List.range k, List.Perm.refl _, by rw [he]; simpa [chosenOrder] using hd⟩
    · obtain ⟨d, hd', hperm⟩ := ho.resolve_left he
      rw [hd] at hd'
      obtain rfl := Option.some.inj hd'
      refine ⟨order.map Nat.log2, ?_, ?_⟩
      · have := hperm.map Nat.log2
        rw [List.map_map] at this
        refine this.trans ?_
        rw [show (Nat.log2 ∘ fun x => 2 ^ x) = id by funext i; simp [Nat.log2_two_pow], List.map_id]
      · rw [chosenOrder, if_neg (by simpa using he), List.map_map]
        congr 1
        symm
        conv_rhs => rw [← List.map_id order]
        refine List.map_congr_left fun a ha => ?_
        have : a ∈ (List.range k).map (2 ^ ·) := hperm.subset ha
        obtain ⟨i, _, rfl⟩ := List.mem_map.1 this
        simp [Nat.log2_two_pow]
  refine ⟨L, hL.nodup_iff.2 List.nodup_range, ?_, ?_, ?_⟩
  · intro i hi
    rw [hL.mem_iff, List.mem_range]
    exact (Nat.pow_lt_pow_iff_right (by omega)).1 (hi.trans_le hk1)
  · intro i hi
    rw [hL.mem_iff, List.mem_range] at hi
    have : 2 ^ (i + 1) ≤ 2 ^ k := Nat.pow_le_pow_right (by omega) hi
    rw [pow_succ] at this
    omega
  · have hks := sourceShifts_ok hNp hin
    have hinit : initial m num mp =
        ⟨(sourceShifts m num mp).map fun k => (k, pos m num k ∅), 0⟩ := by
      unfold initial
      congr 1
      refine List.map_congr_left fun k hk => ?_
      rw [pos_empty (hks k hk).2]
    have hg : isPowerOfTwo (BitVec.ofNat 64 m) = true := (isPowerOfTwo_ofNat (by omega)).2 hm
    unfold evaluate
    rw [hord]
    simp only [hg, guard, if_true, Option.bind_eq_bind, Option.bind_some, Option.pure_def]
    have := roundsFrom_ok hNp (fun k hk => (hks k hk).1) L ∅ 0 (hL.nodup_iff.2 List.nodup_range)
      (by simp)
    rw [← hinit] at this
    change Option.map _ (roundsFrom m num (sourceShifts m num mp) (initial m num mp) _) = _
    rw [this]
    rfl

end Heir.Shift
