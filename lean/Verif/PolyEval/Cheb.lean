import Verif.PolyEval.Mono

/-! # Division, decomposition and evaluation in the Chebyshev basis -/

namespace Heir.PolyEval

open Heir.Loop Heir.PolyClass Polynomial

variable {R : Type} [CommRing R]

theorem chebSeries_set {l : List R} {i : Nat} (h : i < l.length) (v : R) :
    chebSeries (l.set i v) = chebSeries l + C (v - l.getD i 0) * Chebyshev.T R i := by
  rw [chebSeries, chebSeries, List.length_set]
  have : ∀ j ∈ Finset.range l.length, C ((l.set i v).getD j 0) * Chebyshev.T R (j : ℤ) =
      C (l.getD j 0) * Chebyshev.T R (j : ℤ) + if i = j then C (v - l.getD i 0) * Chebyshev.T R (i : ℤ) else 0 := by
    intro j _
    rw [getD_set _ _ _ _ h]
    split
    · next e => subst e; simp only [C_sub]; ring
    · ring
  rw [Finset.sum_congr rfl this, Finset.sum_add_distrib, Finset.sum_ite_eq, if_pos (Finset.mem_range.2 h)]

theorem chebSeries_zeros (n : Nat) : chebSeries (List.replicate n (0 : R)) = 0 := by
  rw [chebSeries]
  refine Finset.sum_eq_zero fun i hi => ?_
  have : (List.replicate n (0 : R)).getD i 0 = 0 := by
    rw [List.getD_eq_getElem?_getD, List.getElem?_replicate]; split <;> rfl
  rw [this, C_0, zero_mul]

theorem get_getD {l : List R} {i : Nat} (h : i < l.length) : get l i = some (l.getD i 0) := by
  rw [Loop.get, List.getD_eq_getElem?_getD, List.getElem?_eq_getElem h]; rfl

/-- Product formula in the form of the comment in the code. -/
theorem cheb_split (k c : Nat) :
    2 * Chebyshev.T R (c : ℤ) * Chebyshev.T R (k : ℤ) =
      Chebyshev.T R ((k + c : Nat) : ℤ) +
        Chebyshev.T R ((((k + c : Nat) : ℤ) - ((2 * k : Nat) : ℤ)).natAbs : ℤ) := by
  rw [Chebyshev.T_mul_T, Chebyshev.T_natAbs]
  congr 2
  · push_cast; ring
  · push_cast; ring

variable [DecidableEq R]

/-- Invariant of the division loop. -/
theorem divLoop_ok {k n : Nat} (hk : 1 ≤ k) (P : R[X]) (c : Nat) (q p : List R) (hp : p.length = k + n)
    (hq : q.length = n) (hc : c ≤ n) (hqz : ∀ j, j < c → q.getD j 0 = 0)
    (hpz : ∀ j, k + c ≤ j → 1 ≤ c → p.getD j 0 = 0)
    (h0 : c = 0 → chebSeries q * Chebyshev.T R k + chebSeries (p.take k) = P)
    (h1 : 1 ≤ c → chebSeries q * Chebyshev.T R k + chebSeries p = P) :
    ∃ q' p', divLoop k c q p = some (q', p') ∧ q'.length = n ∧ p'.length = k + n ∧
      chebSeries q' * Chebyshev.T R k + chebSeries (p'.take k) = P := by
  induction c generalizing q p with
  | zero => exact ⟨q, p, rfl, hq, hp, h0 rfl⟩
  | succ c ih =>
    have hg : get p (k + c) = some (p.getD (k + c) 0) := get_getD (by omega)
    have h1' := h1 (by omega)
    have hpz : ∀ j, k + (c + 1) ≤ j → p.getD j 0 = 0 := fun j hj => hpz j hj (by omega)
    /- the terms from `k` on, when only `T_k` is left -/
    have htake : c = 0 → chebSeries p = chebSeries (p.take k) + C (p.getD k 0) * Chebyshev.T R k := by
      intro hc0
      subst hc0
      rw [chebSeries_eq (l := p) (N := p.length) le_rfl, chebSeries_eq (l := p.take k) (N := k) (by simp)]
      rw [hp, show k + n = k + 1 + (n - 1) by omega, Finset.sum_range_add, Finset.sum_range_succ]
      have hz : ∑ x ∈ Finset.range (n - 1), C (p.getD (k + 1 + x) 0) * Chebyshev.T R ((k + 1 + x : Nat) : ℤ) = 0 := by
        refine Finset.sum_eq_zero fun i _ => ?_
        rw [hpz _ (by omega), C_0, zero_mul]
      rw [hz, add_zero]
      refine congrArg₂ _ (Finset.sum_congr rfl fun i hi => ?_) rfl
      rw [List.getD_eq_getElem?_getD, List.getD_eq_getElem?_getD, List.getElem?_take_of_lt (Finset.mem_range.1 hi)]
    rw [divLoop]
    simp only [hg, Option.bind_eq_bind, Option.bind_some]
    by_cases hv : p.getD (k + c) 0 = 0
    · rw [if_pos hv]
      refine ih q p hp hq (by omega) (fun j hj => hqz j (by omega)) ?_ ?_ ?_
      · intro j hj _
        rcases Nat.eq_or_lt_of_le hj with h | h
        · rw [← h]; exact hv
        · exact hpz j (by omega)
      · intro hc0
        rw [← h1', htake hc0]
        subst hc0
        rw [show p.getD k 0 = 0 from hv, C_0, zero_mul, add_zero]
      · exact fun _ => h1'
    · rw [if_neg hv]
      by_cases hc0 : c = 0
      · subst hc0
        rw [if_pos rfl, put, if_pos (by omega)]
        simp only [Option.bind_some]
        refine ih _ p hp (by simpa using hq) (by omega) (by omega) (by omega) (fun _ => ?_) (by omega)
        rw [chebSeries_set (by omega), hqz 0 (by omega), ← h1', htake rfl, sub_zero, Nat.add_zero]
        simp only [Nat.cast_zero, Chebyshev.T_zero, mul_one]
        ring
      · set a := (((k + c : Nat) : ℤ) - ((2 * k : Nat) : ℤ)).natAbs with ha
        have hac : a < k + c := by omega
        rw [if_neg hc0, put, if_pos (by omega)]
        simp only [Option.bind_some]
        rw [get_getD (by omega : a < p.length)]
        simp only [Option.bind_some]
        rw [put, if_pos (by omega)]
        simp only [Option.bind_some]
        rw [put, if_pos (by simp; omega)]
        simp only [Option.bind_some]
        refine ih _ _ (by simp [hp]) (by simp [hq]) (by omega) ?_ ?_ (fun h => absurd h hc0) (fun _ => ?_)
        · intro j hj
          rw [getD_set _ _ _ _ (by omega), if_neg (by omega)]
          exact hqz j (by omega)
        · intro j hj _
          rw [getD_set _ _ _ _ (by simp; omega)]
          split
          · rfl
          · rw [getD_set _ _ _ _ (by omega), if_neg (by omega)]
            exact hpz j (by omega)
        · rw [chebSeries_set (by omega), chebSeries_set (by (try simp only [List.length_set]); omega),
            chebSeries_set (by (try simp only [List.length_set]); omega),
            getD_set _ _ _ _ (by omega), if_neg (by omega), hqz c (by omega), ← h1']
          have := cheb_split (R := R) k c
          rw [← ha] at this
          simp only [C_sub, C_mul, C_0, sub_zero]
          have h2 : (C (2 : R) : R[X]) = 2 := map_ofNat C 2
          rw [h2]
          linear_combination C (p.getD (k + c) 0) * this

theorem divide_ok (p : List R) {k : Nat} (hk : 1 ≤ k) :
    ∃ q r, divide p k = some (q, r) ∧ q.length = p.length - k ∧ r.length = min k p.length ∧
      chebSeries q * Chebyshev.T R k + chebSeries r = chebSeries p := by
  rw [divide]
  split
  · next h => exact ⟨[], p, rfl, by rw [List.length_nil]; omega, by omega, by simp [chebSeries]⟩
  · next h =>
    obtain ⟨q, r, h1, h2, h3, h4⟩ := divLoop_ok (k := k) (n := p.length - k) hk (chebSeries p) (p.length - k)
      (List.replicate (p.length - k) 0) p (by omega) (by simp) le_rfl
      (fun j hj => by rw [List.getD_eq_getElem?_getD, List.getElem?_replicate]; split <;> rfl)
      (fun j hj _ => getD_beyond (by omega)) (fun h0 => by omega)
      (fun _ => by rw [chebSeries_zeros, zero_mul, zero_add])
    refine ⟨q, r.take k, ?_, h2, by simp; omega, h4⟩
    rw [h1]; rfl

/-- Recombination `Σ_j b_j T_k^j`. -/
noncomputable def recombine (k : Nat) (blocks : List (List R)) : R[X] :=
  ∑ j ∈ Finset.range blocks.length, chebSeries (blocks.getD j []) * Chebyshev.T R k ^ j

omit [DecidableEq R] in
theorem recombine_cons (k : Nat) (b : List R) (bs : List (List R)) :
    recombine k (b :: bs) = chebSeries b + Chebyshev.T R k * recombine k bs := by
  have h : ∀ i, chebSeries ((b :: bs).getD (i + 1) []) * Chebyshev.T R (k : ℤ) ^ (i + 1) =
      Chebyshev.T R (k : ℤ) * (chebSeries (bs.getD i []) * Chebyshev.T R (k : ℤ) ^ i) := by
    intro i
    rw [List.getD_cons_succ, pow_succ]
    generalize chebSeries (bs.getD i []) = A
    ring
  rw [recombine, List.length_cons, Finset.sum_range_succ', Finset.sum_congr rfl fun i _ => h i, ← Finset.mul_sum,
    add_comm, List.getD_cons_zero, pow_zero, mul_one, recombine]

theorem decompose_ok {k : Nat} (hk : 1 ≤ k) (fuel : Nat) (p : List R) (hf : p.length ≤ fuel) :
    ∃ bs, decompose k fuel p = some bs ∧ bs.length = (p.length + k - 1) / k ∧ (∀ b ∈ bs, b.length ≤ k ∧ b ≠ []) ∧
      (bs.map List.length).sum = p.length ∧ recombine k bs = chebSeries p := by
  induction fuel generalizing p with
  | zero =>
    obtain rfl : p = [] := List.length_eq_zero_iff.1 (by omega)
    refine ⟨[], rfl, ?_, by simp, rfl, by simp [recombine, chebSeries]⟩
    rw [Nat.div_eq_of_lt (by rw [List.length_nil]; omega)]; rfl
  | succ fuel ih =>
    cases p with
    | nil =>
      refine ⟨[], rfl, ?_, by simp, rfl, by simp [recombine, chebSeries]⟩
      rw [Nat.div_eq_of_lt (by rw [List.length_nil]; omega)]; rfl
    | cons c t =>
      obtain ⟨q, r, h1, h2, h3, h4⟩ := divide_ok (c :: t) hk
      rw [List.length_cons] at h2 h3 hf
      obtain ⟨bs, h5, h6, h7, h8, h9⟩ := ih q (by omega)
      refine ⟨r :: bs, ?_, ?_, ?_, ?_, ?_⟩
      · simp only [decompose, h1, h5, Option.bind_eq_bind, Option.bind_some]
      · rw [List.length_cons, h6, h2, List.length_cons]
        rcases Nat.lt_or_ge k (t.length + 1) with h | h
        · rw [show t.length + 1 + k - 1 = (t.length + 1 - k + k - 1) + k by omega, Nat.add_div_right _ (by omega)]
        · rw [Nat.div_eq_of_lt (by omega), show t.length + 1 + k - 1 = t.length + k by omega,
            Nat.add_div_right _ (by omega), Nat.div_eq_of_lt (by omega)]
      · intro b hb
        rcases List.mem_cons.1 hb with rfl | hb
        · exact ⟨by omega, fun h => by rw [h] at h3; simp at h3; omega⟩
        · exact h7 b hb
      · rw [List.map_cons, List.sum_cons, h8, h2, h3, List.length_cons]; omega
      · rw [recombine_cons, h9, ← h4]; ring

/-! ## Chebyshev polynomials of the input -/

theorem shiftLoop_eq (t k : Nat) : shiftLoop t k = k + Nat.log 2 t := by
  fun_induction shiftLoop t k with
  | case1 t k h ih =>
    have h2 : Nat.log 2 t = Nat.log 2 (t / 2) + 1 := Nat.log_of_one_lt_of_le (by norm_num) h
    rw [ih, Nat.shiftRight_eq_div_pow, pow_one, h2]; omega
  | case2 t k h => rw [Nat.log_of_lt (by omega)]; rfl

/-- What `splitDegree` returns, for degrees from two on. -/
theorem splitDegree_cases {n : Nat} (hn : 2 ≤ n) :
    (∃ j, n = 2 ^ (j + 1) ∧ splitDegree n = (2 ^ j, 2 ^ j)) ∨
    (∃ k, 1 ≤ k ∧ 2 ^ k < n ∧ n < 2 ^ (k + 1) ∧ splitDegree n = (2 ^ k - 1, n - (2 ^ k - 1))) := by
  rw [splitDegree]
  split
  · next h =>
    obtain ⟨j, hj⟩ := (Nat.and_sub_one_eq_zero_iff_isPowerOfTwo (by omega)).1 h
    left
    cases j with
    | zero => omega
    | succ j => exact ⟨j, hj, by rw [hj, pow_succ, Nat.mul_div_cancel _ (by norm_num)]⟩
  · next h =>
    right
    have hne : ∀ j, n ≠ 2 ^ j := fun j hj =>
      h ((Nat.and_sub_one_eq_zero_iff_isPowerOfTwo (by omega)).2 ⟨j, hj⟩)
    have h1 := Nat.pow_log_le_self 2 (show n - 1 ≠ 0 by omega)
    have h2 := Nat.lt_pow_succ_log_self (b := 2) (by norm_num) (n - 1)
    have h3 := hne (Nat.log 2 (n - 1) + 1)
    refine ⟨Nat.log 2 (n - 1), ?_, by omega, by omega, by rw [shiftLoop_eq, Nat.zero_add]⟩
    refine Nat.log_pos (by norm_num) ?_
    have := hne 1
    omega

/-- What is claimed of the node for `T_i`: its value, and its depth when the input is a leaf. -/
structure Good (a : R) (x : Node R) (i : Nat) (v : Node R) : Prop where
  value : eval a v = (Chebyshev.T R (i : ℤ)).eval (eval a x)
  depth0 : i = 0 → depth v = -1
  depth1 : 1 ≤ i → depth x = 0 → depth v = Nat.clog 2 i

/-- Every entry of the cache is good. -/
def Sound (a : R) (x : Node R) (cache : Cache R) : Prop := ∀ i v, cache i = some v → Good a x i v

omit [DecidableEq R] in
theorem Sound.insert {a : R} {x : Node R} {cache : Cache R} (h : Sound a x cache) {n : Nat} {v : Node R}
    (hv : Good a x n v) : Sound a x (cache.insert n v) := by
  intro i w hw
  rw [Cache.insert] at hw
  split at hw
  · next e => cases hw; rw [e]; exact hv
  · exact h i w hw

omit [DecidableEq R] in
theorem good_zero (a : R) (x : Node R) : Good a x 0 (.const 1) :=
  ⟨by simp [eval], fun _ => rfl, fun h => by omega⟩

omit [DecidableEq R] in
theorem good_one (a : R) (x : Node R) : Good a x 1 x :=
  ⟨by simp, fun h => by omega, fun _ h => by rw [h]; simp⟩

/-- The depth equation of `splitDegree`. -/
theorem clog_split {n : Nat} (hn : 2 ≤ n) :
    1 ≤ (splitDegree n).1 ∧ 1 ≤ (splitDegree n).2 ∧ (splitDegree n).1 + (splitDegree n).2 = n ∧
      max (Nat.clog 2 (splitDegree n).1) (Nat.clog 2 (splitDegree n).2) + 1 = Nat.clog 2 n := by
  rcases splitDegree_cases hn with ⟨j, rfl, h⟩ | ⟨k, hk, h1, h2, h⟩
  · rw [h]
    have hp : 0 < 2 ^ j := Nat.two_pow_pos j
    refine ⟨hp, hp, by rw [pow_succ]; simp only []; omega, ?_⟩
    simp only [max_self]
    rw [Nat.clog_pow _ _ (by norm_num), Nat.clog_pow _ _ (by norm_num)]
  · rw [h]
    have hp : 2 ≤ 2 ^ k := by
      calc 2 = 2 ^ 1 := rfl
        _ ≤ 2 ^ k := Nat.pow_le_pow_right (by norm_num) hk
    have hpk : 2 ^ (k + 1) = 2 * 2 ^ k := by rw [pow_succ]; ring
    refine ⟨by simp only []; omega, by simp only []; omega, by simp only []; omega, ?_⟩
    simp only []
    have hcn : Nat.clog 2 n = k + 1 := by
      apply le_antisymm
      · exact (Nat.clog_le_iff_le_pow (by norm_num)).2 h2.le
      · exact Nat.succ_le_of_lt ((Nat.lt_clog_iff_pow_lt (by norm_num)).2 h1)
    have ha : Nat.clog 2 (2 ^ k - 1) ≤ k := (Nat.clog_le_iff_le_pow (by norm_num)).2 (by omega)
    have hb : Nat.clog 2 (n - (2 ^ k - 1)) ≤ k := (Nat.clog_le_iff_le_pow (by norm_num)).2 (by omega)
    have hab : k ≤ Nat.clog 2 (2 ^ k - 1) ∨ k ≤ Nat.clog 2 (n - (2 ^ k - 1)) := by
      rcases Nat.eq_or_lt_of_le hk with h | h
      · right
        subst h
        exact Nat.succ_le_of_lt ((Nat.lt_clog_iff_pow_lt (by norm_num)).2 (by omega))
      · left
        obtain ⟨m, rfl⟩ : ∃ m, k = m + 1 := ⟨k - 1, by omega⟩
        refine Nat.succ_le_of_lt ((Nat.lt_clog_iff_pow_lt (by norm_num)).2 ?_)
        have : 2 ≤ 2 ^ m := by
          calc 2 = 2 ^ 1 := rfl
            _ ≤ 2 ^ m := Nat.pow_le_pow_right (by norm_num) (by omega)
        rw [pow_succ]; omega
    rw [hcn]
    omega

omit [DecidableEq R] in
/-- One step of the recurrence, with any subtrahend that is `T_c`. -/
theorem good_step {a : R} {x : Node R} {p q c : Nat} {u v w : Node R} (hp : 1 ≤ p) (hq : 1 ≤ q)
    (hc : c = ((p : Int) - q).natAbs) (hu : Good a x p u) (hv : Good a x q v) (hw : Good a x c w)
    (hd : max (Nat.clog 2 p) (Nat.clog 2 q) + 1 = Nat.clog 2 (p + q)) :
    Good a x (p + q) (.sub (.add (.mul u v) (.mul u v)) w) := by
  refine ⟨?_, fun h => by omega, fun _ hx => ?_⟩
  · have h := congrArg (Polynomial.eval (eval a x)) (Chebyshev.T_mul_T R (p : ℤ) (q : ℤ))
    have hcc : (Chebyshev.T R (c : ℤ)) = Chebyshev.T R ((p : ℤ) - q) := by rw [hc, Chebyshev.T_natAbs]
    simp only [eval_mul, eval_add, eval_ofNat] at h
    simp only [eval]
    rw [hu.value, hv.value, hw.value, hcc]
    push_cast
    linear_combination h
  · have hdu := hu.depth1 hp hx
    have hdv := hv.depth1 hq hx
    have hdw : depth w ≤ Nat.clog 2 (p + q) := by
      rcases Nat.eq_zero_or_pos c with h | h
      · rw [hw.depth0 h]; omega
      · rw [hw.depth1 h hx]
        exact_mod_cast Nat.clog_mono_right 2 (by omega)
    simp only [depth, hdu, hdv]
    rw [if_neg (by omega), if_neg (by omega)]
    omega

theorem genPower_ok (a : R) (x : Node R) (fuel n : Nat) (cache : Cache R) (hf : n < fuel) (hs : Sound a x cache) :
    ∃ v cache', genPower x fuel n cache = some (v, cache') ∧ Good a x n v ∧ Sound a x cache' ∧
      (∀ i w, cache i = some w → cache' i = some w) ∧ cache' n = some v := by
  induction fuel generalizing n cache with
  | zero => omega
  | succ fuel ih =>
    have hmono : ∀ (c : Cache R) (m : Nat) (v : Node R), c m = none → ∀ i w, c i = some w → c.insert m v i = some w := by
      intro c m v hm i w hi
      rw [Cache.insert, if_neg (fun e => by rw [e, hm] at hi; cases hi)]; exact hi
    have hself : ∀ (c : Cache R) (m : Nat) (v : Node R), c.insert m v m = some v := fun c m v => by
      rw [Cache.insert, if_pos rfl]
    rw [genPower]
    cases hc : cache n with
    | some v => exact ⟨v, cache, rfl, hs n v hc, hs, fun _ _ h => h, hc⟩
    | none =>
      simp only []
      by_cases h0 : n = 0
      · subst h0
        exact ⟨_, _, if_pos rfl, good_zero a x, hs.insert (good_zero a x), hmono _ _ _ hc, hself _ _ _⟩
      rw [if_neg h0]
      by_cases h1 : n = 1
      · subst h1
        exact ⟨_, _, if_pos rfl, good_one a x, hs.insert (good_one a x), hmono _ _ _ hc, hself _ _ _⟩
      rw [if_neg h1]
      obtain ⟨ha, hb, hab, hd⟩ := clog_split (show 2 ≤ n by omega)
      revert ha hb hab hd
      generalize splitDegree n = s
      obtain ⟨p, q⟩ := s
      intro ha hb hab hd
      simp only [] at ha hb hab hd
      obtain ⟨u, c1, e1, g1, s1, m1, f1⟩ := ih p cache (by omega) hs
      obtain ⟨v, c2, e2, g2, s2, m2, f2⟩ := ih q c1 (by omega) s1
      have hn2 : ∀ (c' : Cache R) (w : Node R), (∀ i w, cache i = some w → c' i = some w) →
          ∀ i y, cache i = some y → c'.insert n w i = some y := by
        intro c' w hm i y hi
        rw [Cache.insert, if_neg (fun e => by rw [e, hc] at hi; cases hi)]; exact hm i y hi
      simp only [e1, e2, Option.bind_eq_bind, Option.bind_some]
      rw [← hab] at hd
      by_cases hz : ((p : Int) - q).natAbs = 0
      · rw [if_pos hz]
        have g := good_step ha hb hz.symm g1 g2 (good_zero a x) hd
        rw [hab] at g
        exact ⟨_, _, rfl, g, s2.insert g, hn2 _ _ fun i w h => m2 i w (m1 i w h), hself _ _ _⟩
      · rw [if_neg hz]
        obtain ⟨w, c3, e3, g3, s3, m3, f3⟩ := ih ((p : Int) - q).natAbs c2 (by omega) s2
        simp only [e3, Option.bind_some]
        have g := good_step ha hb rfl g1 g2 g3 hd
        rw [hab] at g
        exact ⟨_, _, rfl, g, s3.insert g, hn2 _ _ fun i w h => m3 i w (m2 i w (m1 i w h)), hself _ _ _⟩

/-- All Chebyshev polynomials up to `k`. -/
theorem genPowers_ok (a : R) (x : Node R) (k : Nat) :
    ∃ vals, genPowers x k = some vals ∧ ∀ i, i ≤ k → ∃ v, vals i = some v ∧ Good a x i v := by
  obtain ⟨c, h1, h2, h3⟩ := forN_inv (n := k) (body := fun t cache => (do
    let (_, cache) ← genPower x (t + 2) (t + 1) cache
    some cache)) (s := fun _ => none)
    (fun t cache => Sound a x cache ∧ ∀ i, 1 ≤ i → i ≤ t → ∃ v, cache i = some v)
    ⟨fun i v h => (by cases h), fun i h1 h2 => (by omega)⟩
    (fun t _ cache ⟨hs, hp⟩ => by
      obtain ⟨v, c', e, _, s', m, f⟩ := genPower_ok a x (t + 2) (t + 1) cache (by omega) hs
      refine ⟨c', by simp only [e, Option.bind_eq_bind, Option.bind_some], s', fun i h1 h2 => ?_⟩
      rcases Nat.lt_or_ge i (t + 1) with h | h
      · obtain ⟨w, hw⟩ := hp i h1 (by omega)
        exact ⟨w, m i w hw⟩
      · obtain rfl : i = t + 1 := by omega
        exact ⟨v, f⟩)
  refine ⟨c.insert 0 (.const 1), by rw [genPowers, h1]; rfl, fun i hi => ?_⟩
  have hs := h2.insert (good_zero a x)
  rcases Nat.eq_zero_or_pos i with h | h
  · subst h; exact ⟨.const 1, by rw [Cache.insert, if_pos rfl], good_zero a x⟩
  · obtain ⟨v, hv⟩ := h3 i h hi
    exact ⟨v, by rw [Cache.insert, if_neg (by omega)]; exact hv, h2 i v hv⟩

/-- The doubling recurrences. -/
theorem chebValues_ok (a : R) (k : Nat) :
    ∃ r, chebValues (R := R) k = some r ∧ r.length = k + 1 ∧ ∀ i, i ≤ k → ∃ v, get r i = some v ∧ Good a .leaf i v := by
  rcases Nat.eq_zero_or_pos k with h | h
  · subst h
    refine ⟨[.const 1], rfl, rfl, fun i hi => ?_⟩
    rw [Nat.le_zero.1 hi]
    exact ⟨_, rfl, good_zero a _⟩
  · obtain ⟨r, h1, h2, h3⟩ := forN_inv (n := k - 1) (body := fun t (r : List (Node R)) => (do
      let i := t + 2
      if i % 2 = 0 then do
        let a ← get r (i / 2)
        some (r ++ [.sub (.add (.mul a a) (.mul a a)) (.const 1)])
      else do
        let a ← get r (i / 2)
        let b ← get r (i / 2 + 1)
        some (r ++ [.sub (.add (.mul a b) (.mul a b)) .leaf]))) (s := [.const 1, .leaf])
      (fun t r => r.length = t + 2 ∧ ∀ i, i ≤ t + 1 → ∃ v, get r i = some v ∧ Good a .leaf i v)
      ⟨rfl, fun i hi => by
        rcases (by omega : i = 0 ∨ i = 1) with rfl | rfl
        · exact ⟨_, rfl, good_zero a _⟩
        · exact ⟨_, rfl, good_one a _⟩⟩
      (fun t ht r ⟨hlen, hv⟩ => by
        have hfin : ∀ w, Good a .leaf (t + 2) w → (r ++ [w]).length = t + 1 + 2 ∧
            ∀ i, i ≤ t + 1 + 1 → ∃ v, get (r ++ [w]) i = some v ∧ Good a .leaf i v := by
          intro w hw
          refine ⟨by simp [hlen], fun i hi => ?_⟩
          rcases Nat.lt_or_ge i (t + 2) with h | h
          · obtain ⟨v, hv1, hv2⟩ := hv i (by omega)
            exact ⟨v, by rw [Loop.get, getElem?_concat_lt _ _ (by omega)]; exact hv1, hv2⟩
          · obtain rfl : i = t + 2 := by omega
            exact ⟨w, by rw [Loop.get, ← hlen]; simp, hw⟩
        obtain ⟨u, hu, hu'⟩ := hv ((t + 2) / 2) (by omega)
        by_cases hpar : (t + 2) % 2 = 0
        · refine ⟨r ++ [.sub (.add (.mul u u) (.mul u u)) (.const 1)], ?_, hfin _ ?_⟩
          · simp only [hpar, if_true, hu, Option.bind_eq_bind, Option.bind_some]
          · have := good_step (p := (t + 2) / 2) (q := (t + 2) / 2) (c := 0) (by omega) (by omega) (by omega) hu' hu'
              (good_zero a _) (by
                rw [max_self, Nat.clog_of_two_le (by norm_num) (show 2 ≤ (t + 2) / 2 + (t + 2) / 2 by omega)]
                congr 2; omega)
            rwa [show (t + 2) / 2 + (t + 2) / 2 = t + 2 by omega] at this
        · obtain ⟨w, hw, hw'⟩ := hv ((t + 2) / 2 + 1) (by omega)
          refine ⟨r ++ [.sub (.add (.mul u w) (.mul u w)) .leaf], ?_, hfin _ ?_⟩
          · simp only [if_neg hpar, hu, hw, Option.bind_eq_bind, Option.bind_some]
          · have := good_step (p := (t + 2) / 2) (q := (t + 2) / 2 + 1) (c := 1) (by omega) (by omega) (by omega) hu' hw'
              (good_one a _) (by
                rw [max_eq_right (Nat.clog_mono_right 2 (by omega)),
                  Nat.clog_of_two_le (by norm_num) (show 2 ≤ (t + 2) / 2 + ((t + 2) / 2 + 1) by omega)]
                congr 2; omega)
            rwa [show (t + 2) / 2 + ((t + 2) / 2 + 1) = t + 2 by omega] at this)
    refine ⟨r, ?_, by omega, fun i hi => h3 i (by omega)⟩
    rw [chebValues, if_pos (show k ≥ 1 from h)]; exact h1

end Heir.PolyEval
