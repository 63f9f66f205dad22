import Verif.PolyFold.Lemmas
import Mathlib.Data.BitVec
import Mathlib.Data.Finset.Card

/-! # Reduction modulo `X^N + 1` -/

namespace Heir.PolyFold

open Heir.NTT Finset

variable {S : Type} [CommRing S]

theorem reduceLoop_length (n : Nat) : ∀ (k : Nat) (r : List (BitVec 64)),
    (reduceLoop n k r).length = r.length := by
  intro k
  induction k with
  | zero => intro r; rfl
  | succ k ih => intro r; rw [reduceLoop, ih]; simp

/-- The loop computes the solution of the recurrence `F j = c j - F (j + n)`. -/
theorem reduceLoop_spec (n : Nat) (hn : 0 < n) (c F : Nat → BitVec 64) (L : Nat)
    (h1 : ∀ j, j + n < L → F j = c j - F (j + n)) : ∀ (k : Nat) (r : List (BitVec 64)), k + n ≤ L →
    (∀ j, j < L → r[j]? = some (if j < k then c j else F j)) →
    ∀ j, j < L → (reduceLoop n k r)[j]? = some (F j) := by
  intro k
  induction k with
  | zero => intro r _ hr j hj; simpa [reduceLoop] using hr j hj
  | succ k ih =>
    intro r hk hr j hj
    rw [reduceLoop]
    refine ih _ (by omega) ?_ j hj
    intro i hi
    have hlen : k < r.length := by
      have := hr k (by omega)
      exact (List.getElem?_eq_some_iff.1 this).1
    by_cases hik : i = k
    · subst hik
      rw [List.getElem?_set_self hlen, hr i hi, hr (i + n) (by omega)]
      simp only [Option.getD_some]
      rw [if_pos (by omega), if_neg (by omega), if_neg (by omega), h1 i (by omega)]
    · rw [List.getElem?_set_ne (Ne.symm hik), hr i hi]
      congr 1
      by_cases h : i < k
      · rw [if_pos (by omega), if_pos h]
      · rw [if_neg (by omega), if_neg h]

/-- How many times position `j` is passed before the shifted window is met. -/
def laps (n e j : Nat) : Nat := (e - j + n - 1) / n

theorem laps_eq {n e j p t : Nat} (hp : p < n) (h : p + e = j + t * n) : laps n e j = t := by
  unfold laps
  rcases Nat.eq_zero_or_pos t with rfl | ht
  · have : e - j + n - 1 = n - 1 := by omega
    rw [this]; exact Nat.div_eq_of_lt (by omega)
  · have h2 : n ≤ t * n := Nat.le_mul_of_pos_left n ht
    have : e - j + n - 1 = t * n + (n - 1 - p) := by omega
    rw [this, Nat.add_comm, Nat.add_mul_div_right _ _ (by omega), Nat.div_eq_of_lt (by omega), zero_add]

/-- The sign picked up. -/
def sgn (t : Nat) (v : BitVec 64) : BitVec 64 := if t % 2 = 0 then v else -v

theorem shifted_get (e n : Nat) (a : List Nat) (ha : a.length = n) (j : Nat) (hj : j < e + n) :
    (List.replicate e (0 : BitVec 64) ++ a.map (BitVec.ofNat 64))[j]? =
      some (if j < e then 0 else BitVec.ofNat 64 (a[j - e]?.getD 0)) := by
  by_cases h : j < e
  · rw [List.getElem?_append_left (by simpa using h)]; simp [h]
  · rw [List.getElem?_append_right (by simpa using h)]
    have : j - e < a.length := by omega
    simp [h, this]

theorem reduce_shift {f : Terms} {n e : Nat} (hf : isNegacyclic f = true) (hd : degree f = n) (hn : 0 < n)
    (a : List Nat) (ha : a.length = n) :
    ∃ r, reduceModuloPolynomial (List.replicate e 0 ++ a.map (BitVec.ofNat 64)) f = some r ∧
      r.length = n ∧ ∀ p, p < n → r[(p + e) % n]? =
        some (sgn ((p + e) / n) (BitVec.ofNat 64 (a[p]?.getD 0))) := by
  set c : Nat → BitVec 64 := fun j => if j < e then 0 else BitVec.ofNat 64 (a[j - e]?.getD 0) with hc
  set F : Nat → BitVec 64 := fun j => sgn (laps n e j) (BitVec.ofNat 64 (a[j + laps n e j * n - e]?.getD 0))
    with hF
  have hl : (List.replicate e (0 : BitVec 64) ++ a.map (BitVec.ofNat 64)).length = e + n := by simp [ha]
  have hrec : ∀ j, j + n < e + n → F j = c j - F (j + n) := by
    intro j hj
    have hje : j < e := by omega
    have e1 : laps n e j = laps n e (j + n) + 1 := by
      unfold laps
      rw [← Nat.add_div_right _ hn]
      by_cases h : j + n ≤ e
      · congr 1; omega
      · have : e - (j + n) + n - 1 + n = (n - 1) + n := by omega
        rw [this, Nat.add_div_right _ hn, Nat.div_eq_of_lt (by omega : n - 1 < n)]
        refine Nat.div_eq_of_lt_le (by omega) (by omega)
    simp only [hc, hF, if_pos hje]
    rw [e1]
    have e2 : j + (laps n e (j + n) + 1) * n - e = j + n + laps n e (j + n) * n - e := by
      rw [Nat.add_mul, Nat.one_mul]; congr 1; omega
    rw [e2]
    generalize BitVec.ofNat 64 (a[j + n + laps n e (j + n) * n - e]?.getD 0) = v
    generalize laps n e (j + n) = t
    unfold sgn
    rcases Nat.mod_two_eq_zero_or_one t with h | h
    · rw [if_neg (by omega), if_pos h]; simp
    · rw [if_pos (by omega), if_neg (by omega)]; simp
  have hstart : ∀ j, j < e + n →
      (List.replicate e (0 : BitVec 64) ++ a.map (BitVec.ofNat 64))[j]? =
        some (if j < e then c j else F j) := by
    intro j hj
    rw [shifted_get e n a ha j hj]
    by_cases h : j < e
    · simp [hc, h]
    · have e3 : laps n e j = 0 := laps_eq (p := j - e) (by omega) (by omega)
      simp [hF, h, e3, sgn]
  have hfin := reduceLoop_spec n hn c F (e + n) hrec e _ (by omega) hstart
  refine ⟨(reduceLoop n e (List.replicate e 0 ++ a.map (BitVec.ofNat 64))).take n, ?_, ?_, ?_⟩
  · rw [reduceModuloPolynomial, if_pos hf]
    simp only [hd, hl]
    rw [show n - (e + n) = 0 by omega, List.replicate_zero, List.append_nil, hl,
      show e + n - n = e by omega]
  · rw [List.length_take, reduceLoop_length, hl]; omega
  · intro p hp
    have hm : (p + e) % n < n := Nat.mod_lt _ hn
    have hsum : p + e = (p + e) % n + (p + e) / n * n := by
      rw [Nat.mul_comm]; exact (Nat.mod_add_div _ _).symm
    rw [List.getElem?_take_of_lt hm, hfin _ (by omega)]
    simp only [hF]
    rw [laps_eq hp hsum, ← hsum, Nat.add_sub_cancel]

theorem sgn_toInt {v : Nat} (h : v < 2 ^ 63) (t : Nat) :
    (sgn t (BitVec.ofNat 64 v)).toInt = (-1) ^ t * (v : Int) := by
  unfold sgn
  rcases Nat.even_or_odd t with ht | ht
  · rw [if_pos (Nat.even_iff.1 ht), ofNat_toInt h, ht.neg_one_pow, one_mul]
  · rw [if_neg (by have := Nat.odd_iff.1 ht; omega), BitVec.toInt_neg, ofNat_toInt h, ht.neg_one_pow]
    rw [Int.bmod_eq_of_le (by omega) (by omega)]; ring

theorem normalize_ok {m : Nat} (hm : 0 < m) (h63 : m < 2 ^ 63) (v : BitVec 64) :
    (normalizeMod v m).toNat < m ∧
    ∀ {S : Type} [CommRing S], (m : S) = 0 → ((normalizeMod v m).toNat : S) = ((v.toInt : Int) : S) := by
  have hn : (BitVec.ofNat 64 m).toNat = m := by
    rw [BitVec.toNat_ofNat]; exact Nat.mod_eq_of_lt (by omega)
  have h := srem_fix v (BitVec.ofNat 64 m) (by rw [ofNat_toInt h63]; omega)
  rw [hn] at h
  exact h

/-- One limb: every coefficient moves by `e` places and changes sign at each wrap. -/
theorem monomialMulLimb_ok {f : Terms} {n e m : Nat} (hf : isNegacyclic f = true) (hd : degree f = n)
    (hn : 0 < n) (hm : 0 < m) (h63 : m < 2 ^ 63) (a : List Nat) (ha : a.length = n)
    (hb : ∀ v ∈ a, v < 2 ^ 63) :
    ∃ l, monomialMulLimb m e a f = some l ∧ l.length = n ∧ (∀ v ∈ l, v < m) ∧
      ∀ p, p < n → ∃ v, l[(p + e) % n]? = some v ∧ ∀ {S : Type} [CommRing S], (m : S) = 0 →
        (v : S) = (-1) ^ ((p + e) / n) * ((a[p]?.getD 0 : Nat) : S) := by
  obtain ⟨r, h1, h2, h3⟩ := reduce_shift (e := e) hf hd hn a ha
  refine ⟨r.map fun c => (normalizeMod c m).toNat, ?_, by simpa using h2, ?_, ?_⟩
  · unfold monomialMulLimb
    simp only [h1]
    rw [if_neg (by simp [h2, ha])]
  · intro v hv
    obtain ⟨c, _, rfl⟩ := List.mem_map.1 hv
    exact (normalize_ok hm h63 c).1
  · intro p hp
    refine ⟨_, by rw [List.getElem?_map, h3 p hp]; rfl, fun {S} _ hS => ?_⟩
    have hv : a[p]?.getD 0 < 2 ^ 63 := by
      have hp' : p < a.length := by omega
      rw [List.getElem?_eq_getElem hp', Option.getD_some]
      exact hb _ (List.getElem_mem _)
    rw [(normalize_ok hm h63 _).2 hS, sgn_toInt hv]
    push_cast
    ring

/-- Shifting with sign changes is multiplication by `x^e` where `x^n = -1`. -/
theorem shift_lval {n e : Nat} (hn : 0 < n) (x : S) (hx : x ^ n = -1) (a l : List Nat) (ha : a.length = n)
    (hl : l.length = n)
    (h : ∀ p, p < n → ((l[(p + e) % n]?.getD 0 : Nat) : S) = (-1) ^ ((p + e) / n) * ((a[p]?.getD 0 : Nat) : S)) :
    lval x l = x ^ e * lval x a := by
  unfold lval evalAt
  rw [ha, hl, mul_sum]
  symm
  have hinj : Set.InjOn (fun p => (p + e) % n) (range n : Set Nat) := by
    intro p hp p' hp' h
    simp only [coe_range, Set.mem_Iio] at hp hp'
    have h' : p + e ≡ p' + e [MOD n] := h
    have := Nat.ModEq.add_right_cancel' e h'
    rwa [Nat.ModEq, Nat.mod_eq_of_lt hp, Nat.mod_eq_of_lt hp'] at this
  have hmaps : Set.MapsTo (fun p => (p + e) % n) (range n : Set Nat) (range n : Set Nat) := by
    intro p _
    simpa using Nat.mod_lt _ hn
  refine sum_nbij (fun p => (p + e) % n) (fun p hp => by simpa using Nat.mod_lt _ hn) hinj
    (surjOn_of_injOn_of_card_le _ hmaps hinj le_rfl) ?_
  intro p hp
  beta_reduce
  rw [h p (mem_range.1 hp)]
  have e1 : x ^ (p + e) = (-1) ^ ((p + e) / n) * x ^ ((p + e) % n) := by
    conv_lhs => rw [← Nat.mod_add_div (p + e) n]
    rw [pow_add, pow_mul, hx]; ring
  calc x ^ e * (((a[p]?.getD 0 : Nat) : S) * x ^ p) = ((a[p]?.getD 0 : Nat) : S) * x ^ (p + e) := by
        rw [pow_add]; ring
    _ = _ := by rw [e1]; ring

/-! ## Integers of at most 64 bits -/

/-- The `i`-th word of a list, in a ring. -/
def word (S : Type) [CommRing S] (r : List (BitVec 64)) (i : Nat) : S := (((r[i]?.getD 0).toNat : Nat) : S)

theorem word_sub (h64 : ((2 ^ 64 : Nat) : S) = 0) (a b : BitVec 64) :
    (((a - b).toNat : Nat) : S) = (a.toNat : S) - (b.toNat : S) := by
  have hb := b.isLt
  have h1 : (a - b).toNat + b.toNat = a.toNat ∨ (a - b).toNat + b.toNat = a.toNat + 2 ^ 64 := by
    rw [BitVec.toNat_sub]; have := a.isLt; omega
  rcases h1 with h | h
  · have := congrArg (fun t : Nat => (t : S)) h
    push_cast at this
    linear_combination this
  · have := congrArg (fun t : Nat => (t : S)) h
    simp only [Nat.cast_add] at this
    rw [h64, add_zero] at this
    linear_combination this

theorem evalAt_change (n k : Nat) (hk : k < n) (g g' : Nat → S) (x : S) (h : ∀ i, i ≠ k → g' i = g i) :
    evalAt n g' x = evalAt n g x + (g' k - g k) * x ^ k := by
  have : evalAt n g' x - evalAt n g x = (g' k - g k) * x ^ k := by
    unfold evalAt
    rw [← sum_sub_distrib, sum_eq_single k]
    · ring
    · intro i _ hi; rw [h i hi]; ring
    · intro h; exact absurd (mem_range.2 hk) h
  linear_combination this

theorem reduceLoop_val (h64 : ((2 ^ 64 : Nat) : S) = 0) {n : Nat} (hn : 0 < n) (x : S) (hx : x ^ n = -1) :
    ∀ (k : Nat) (r : List (BitVec 64)), k + n ≤ r.length →
      evalAt n (word S (reduceLoop n k r)) x = evalAt (k + n) (word S r) x := by
  intro k
  induction k with
  | zero => intro r _; rw [reduceLoop, Nat.zero_add]
  | succ k ih =>
    intro r hr
    rw [reduceLoop, ih _ (by simp; omega)]
    have hk : k < r.length := by omega
    rw [evalAt_change (k + n) k (by omega) (word S r) _ x (fun i hi => by
      unfold word; rw [List.getElem?_set_ne (Ne.symm hi)])]
    have e1 : evalAt (k + 1 + n) (word S r) x = evalAt (k + n) (word S r) x + word S r (k + n) * x ^ (k + n) := by
      unfold evalAt
      rw [show k + 1 + n = k + n + 1 by omega, sum_range_succ]
    have e2 : word S (r.set k (r[k]?.getD 0 - r[k + n]?.getD 0)) k = word S r k - word S r (k + n) := by
      unfold word
      rw [List.getElem?_set_self hk, Option.getD_some, word_sub h64]
    rw [e1, e2, pow_add, hx]; ring

theorem evalAt_zero_tail (n d : Nat) (g : Nat → S) (x : S) (h : ∀ i, n ≤ i → g i = 0) :
    evalAt (n + d) g x = evalAt n g x := by
  induction d with
  | zero => rfl
  | succ d ih =>
    unfold evalAt at ih ⊢
    rw [show n + (d + 1) = n + d + 1 by omega, sum_range_succ, ih, h (n + d) (by omega)]
    ring

theorem reduce_val {f : Terms} {n : Nat} (hf : isNegacyclic f = true) (hd : degree f = n) (hn : 0 < n)
    (c : List (BitVec 64)) :
    ∃ r, reduceModuloPolynomial c f = some r ∧ r.length = n ∧
      ∀ (S : Type) [CommRing S] (x : S), ((2 ^ 64 : Nat) : S) = 0 → x ^ n = -1 →
        evalAt n (word S r) x = evalAt c.length (word S c) x := by
  set r0 := c ++ List.replicate (n - c.length) (0 : BitVec 64) with h0
  have hl : r0.length = c.length + (n - c.length) := by simp [h0]
  refine ⟨(reduceLoop n (r0.length - n) r0).take n, by rw [reduceModuloPolynomial, if_pos hf, hd], ?_, ?_⟩
  · rw [List.length_take, reduceLoop_length]; omega
  · intro S _ x h64 hx
    have e1 : evalAt n (word S ((reduceLoop n (r0.length - n) r0).take n)) x
        = evalAt n (word S (reduceLoop n (r0.length - n) r0)) x := by
      unfold evalAt word
      refine sum_congr rfl fun i hi => ?_
      rw [List.getElem?_take_of_lt (mem_range.1 hi)]
    rw [e1, reduceLoop_val h64 hn x hx _ r0 (by omega), show r0.length - n + n = r0.length by omega, hl]
    have e2 : word S r0 = word S c := by
      funext i
      unfold word
      congr 2
      by_cases h : i < c.length
      · rw [h0, List.getElem?_append_left h]
      · rw [h0, List.getElem?_append_right (by omega), List.getElem?_eq_none (by omega : c.length ≤ i),
          List.getElem?_replicate]
        split <;> rfl
    rw [e2, evalAt_zero_tail]
    intro i hi
    unfold word
    rw [List.getElem?_eq_none hi]; simp

end Heir.PolyFold
