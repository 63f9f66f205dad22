import Verif.Layout.Float
import Verif.Layout.Spec
import Verif.Kernel.Pow2
import Mathlib.Data.Nat.Bitwise
import Mathlib.Data.Nat.Prime.Basic
import Mathlib.Algebra.BigOperators.Group.List.Basic
import Mathlib.Data.Nat.ChineseRemainder
import Mathlib.Algebra.BigOperators.Group.Finset.Basic

/-! # Lemmas for the layouts -/

namespace Heir.Layout

open Heir.NumTheory Heir.Kernel

theorem padded_eq {n : Nat} (h1 : 1 ≤ n) (h2 : n ≤ 2 ^ 63) : padded n = 2 ^ Nat.clog 2 n := by
  unfold padded
  split
  · rename_i h
    obtain ⟨k, rfl⟩ : ∃ k, n = 2 ^ k := by
      have := (Nat.and_sub_one_eq_zero_iff_isPowerOfTwo (n := n) (by omega)).1 h.2
      exact this
    rw [Nat.clog_pow _ _ (by omega)]
  · have e : (BitVec.ofNat 64 n).toNat = n := by
      rw [BitVec.toNat_ofNat, Nat.mod_eq_of_lt]; omega
    rw [nextPowerOfTwo_toNat _ (by rw [e]; exact h1) (by rw [e]; exact h2), e]

theorem padded_ge {n : Nat} (h1 : 1 ≤ n) (h2 : n ≤ 2 ^ 63) : n ≤ padded n := by
  rw [padded_eq h1 h2]; exact Nat.le_pow_clog (by omega) _

/-! ## Row-major -/

theorem numElements_eq (dims : List Nat) : numElements dims = dims.prod :=
  List.prod_eq_foldl.symm

theorem strides_cons (d : Nat) (ds : List Nat) (hpos : ∀ x ∈ ds, 1 ≤ x) (h : ds.prod < 2 ^ 32) :
    strides (d :: ds) = ds.prod :: strides ds := by
  induction ds generalizing d with
  | nil => rfl
  | cons e es ih =>
    have hp : es.prod < 2 ^ 32 := by
      rw [List.prod_cons] at h
      have := hpos e (by simp)
      nlinarith
    have := ih e (fun x hx => hpos x (by simp [hx])) hp
    rw [strides.eq_def]
    simp only [this]
    rw [List.prod_cons, Nat.mul_comm e, Nat.mod_eq_of_lt]
    rw [List.prod_cons] at h; rw [Nat.mul_comm]; exact h

theorem flat_cons {d i : Nat} {ds is : List Nat} (hpos : ∀ x ∈ ds, 1 ≤ x) (h : ds.prod < 2 ^ 32) :
    flat (d :: ds) (i :: is) = ds.prod * i + flat ds is := by
  unfold flat
  rw [strides_cons d ds hpos h]
  simp

theorem prod_tail_lt {d : Nat} {ds : List Nat} (hd : 1 ≤ d) (h : (d :: ds).prod < 2 ^ 32) :
    ds.prod < 2 ^ 32 := by
  rw [List.prod_cons] at h; nlinarith

theorem flat_lt {dims idx : List Nat} (hb : InBounds dims idx) (hpos : ∀ x ∈ dims, 1 ≤ x)
    (h : dims.prod < 2 ^ 32) : flat dims idx < dims.prod := by
  induction hb with
  | nil => simp [flat, strides]
  | @cons i d is ds hi _ ih =>
    have hp := prod_tail_lt (hpos d (by simp)) h
    have hpos' : ∀ x ∈ ds, 1 ≤ x := fun x hx => hpos x (by simp [hx])
    rw [flat_cons hpos' hp, List.prod_cons]
    have := ih hpos' hp
    have : (i + 1) * ds.prod ≤ d * ds.prod := Nat.mul_le_mul_right _ hi
    have e : (i + 1) * ds.prod = ds.prod * i + ds.prod := by ring
    omega

theorem flat_inj {dims idx idx' : List Nat} (hb : InBounds dims idx) (hb' : InBounds dims idx')
    (hpos : ∀ x ∈ dims, 1 ≤ x) (h : dims.prod < 2 ^ 32) (he : flat dims idx = flat dims idx') :
    idx = idx' := by
  induction hb generalizing idx' with
  | nil => cases hb'; rfl
  | @cons i d is ds hi hbs ih =>
    cases hb' with
    | @cons j _ js _ hj hbs' =>
      have hp := prod_tail_lt (hpos d (by simp)) h
      have hpos' : ∀ x ∈ ds, 1 ≤ x := fun x hx => hpos x (by simp [hx])
      rw [flat_cons hpos' hp, flat_cons hpos' hp] at he
      have h1 := flat_lt hbs hpos' hp
      have h2 := flat_lt hbs' hpos' hp
      have hq : i = j := by
        have := congrArg (· / ds.prod) he
        simp only [Nat.mul_add_div (show 0 < ds.prod by omega), Nat.div_eq_of_lt h1,
          Nat.div_eq_of_lt h2] at this
        omega
      subst hq
      rw [ih hbs' hpos' hp (by omega)]

theorem pos_of_prod {dims : List Nat} (h : 1 ≤ dims.prod) : ∀ x ∈ dims, 1 ≤ x := by
  intro x hx
  by_contra hc
  have : x = 0 := by omega
  subst this
  rw [List.prod_eq_zero hx] at h
  omega

/-! ## Remainders -/

/-- The Chinese remainder theorem for two moduli. -/
theorem crt2 {a b i j : Nat} (h : Nat.Coprime a b) (hi : i < a) (hj : j < b) :
    ∃ k, k < a * b ∧ k % a = i ∧ k % b = j := by
  obtain ⟨k, h1, h2⟩ := Nat.chineseRemainder h i j
  refine ⟨k % (a * b), Nat.mod_lt _ (Nat.mul_pos (by omega) (by omega)), ?_, ?_⟩
  · rw [Nat.mod_mul_right_mod, h1, Nat.mod_eq_of_lt hi]
  · rw [Nat.mod_mul_left_mod, h2, Nat.mod_eq_of_lt hj]

theorem crt3 {a b c i j l : Nat} (h : Nat.Coprime a b) (h2 : Nat.Coprime a c) (h3 : Nat.Coprime b c)
    (hi : i < a) (hj : j < b) (hl : l < c) :
    ∃ k, k < a * b * c ∧ k % a = i ∧ k % b = j ∧ k % c = l := by
  obtain ⟨k, hk, e1, e2⟩ := crt2 h hi hj
  obtain ⟨m, hm, e3, e4⟩ := crt2 (Nat.Coprime.mul_left h2 h3) hk hl
  refine ⟨m, hm, ?_, ?_, e4⟩
  · rw [← e1, ← e3, Nat.mod_mul_right_mod]
  · rw [← e2, ← e3, Nat.mod_mul_left_mod]

/-- Steps coprime to `n` visit every residue once. -/
theorem image_steps {n s : Nat} (k : Nat) (hn : 1 ≤ n) (h : Nat.Coprime n s) :
    (Finset.range n).image (fun c => (k + c * s) % n) = Finset.range n := by
  apply Finset.eq_of_subset_of_card_le
  · intro y hy
    obtain ⟨c, _, rfl⟩ := Finset.mem_image.1 hy
    exact Finset.mem_range.2 (Nat.mod_lt _ hn)
  · rw [Finset.card_image_of_injOn]
    intro c hc d hd e
    have hc := Finset.mem_range.1 (Finset.mem_coe.1 hc)
    have hd := Finset.mem_range.1 (Finset.mem_coe.1 hd)
    have e1 : c * s ≡ d * s [MOD n] := Nat.ModEq.add_left_cancel' k e
    have e2 : c ≡ d [MOD n] := Nat.ModEq.cancel_right_of_coprime h e1
    have := e2
    rwa [Nat.ModEq, Nat.mod_eq_of_lt hc, Nat.mod_eq_of_lt hd] at this

theorem sum_steps {M : Type} [AddCommMonoid M] {n s : Nat} (k : Nat) (hn : 1 ≤ n)
    (h : Nat.Coprime n s) (f : Nat → M) :
    ∑ c ∈ Finset.range n, f ((k + c * s) % n) = ∑ y ∈ Finset.range n, f y := by
  conv_rhs => rw [← image_steps k hn h]
  rw [Finset.sum_image]
  have hcard : ((Finset.range n).image (fun c => (k + c * s) % n)).card = (Finset.range n).card := by
    rw [image_steps k hn h]
  exact Finset.card_image_iff.1 hcard

/-- A position below the element count lies in a ciphertext within the bound. -/
theorem ct_le_lastCt {n s k : Nat} (hn : n ≤ 2 ^ 24) (hs : 1 ≤ s) (hs' : s ≤ 2 ^ 24) (hk : k < n) :
    ((k / s : Nat) : Int) ≤ lastCt n s := by
  rw [lastCt_eq (by omega) hn hs hs']
  exact_mod_cast Nat.div_le_div_right (by omega)

/-! ## Loop of the remainder packing -/

theorem crtAssign_get {R : Type} [Zero R] (dims : List Nat) (input : List Nat → R) (total k : Nat)
    (hk : k ≤ total) (i : Nat) (hi : i < total) :
    (crtAssign dims input total k)[i]? =
      some (if i < k then input (dims.map fun d => i % d) else 0) := by
  have hlen : ∀ k, (crtAssign dims input total k).length = total := by
    intro k
    induction k with
    | zero => simp [crtAssign]
    | succ k ih => simp [crtAssign, ih]
  induction k with
  | zero => simp [crtAssign, hi]
  | succ k ih =>
    rw [crtAssign, List.getElem?_set, hlen, ih (by omega)]
    by_cases h : k = i
    · subst h; simp [hi]
    · rw [if_neg h]
      by_cases h2 : i < k
      · rw [if_pos h2, if_pos (by omega)]
      · rw [if_neg h2, if_neg (by omega)]

end Heir.Layout
