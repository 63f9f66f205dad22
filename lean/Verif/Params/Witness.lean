import Verif.Params.Lemmas2
import Mathlib.NumberTheory.LucasPrimality
import Mathlib.Tactic.NormNum.PowMod
import Mathlib.Tactic.NormNum.Prime

/-! # Concrete moduli -/

namespace Heir.Params

/-- Trial division, for numbers below `2 ^ 23`. -/
def isPrimeB (n : Nat) : Bool :=
  decide (2 < n) && n % 2 != 0 && (List.range 1450).all fun k => Nat.ble n (2 * k + 3) || n % (2 * k + 3) != 0

theorem isPrimeB_iff {n : Nat} (hn : n < 2900 * 2900) (h2 : 2 < n) : isPrimeB n = true ↔ n.Prime := by
  simp only [isPrimeB, Bool.and_eq_true, decide_eq_true_eq, List.all_eq_true, List.mem_range,
    Bool.or_eq_true, bne_iff_ne, Nat.ble_eq]
  constructor
  · rintro ⟨⟨_, ho⟩, h⟩
    by_contra hp
    have h1 := Nat.minFac_sq_le_self (by omega) hp
    have h3 : n.minFac < 2900 := by
      by_contra hc
      have : 2900 * 2900 ≤ n.minFac ^ 2 := by rw [pow_two]; exact Nat.mul_le_mul (by omega) (by omega)
      omega
    have hpr := Nat.minFac_prime (n := n) (by omega)
    have h4 := hpr.two_le
    have hd := Nat.minFac_dvd n
    rcases hpr.eq_two_or_odd with h5 | h5
    · rw [h5] at hd; exact ho (Nat.mod_eq_zero_of_dvd hd)
    · obtain ⟨k, hk⟩ : ∃ k, n.minFac = 2 * k + 3 := ⟨(n.minFac - 3) / 2, by omega⟩
      rcases h k (by omega) with h | h
      · have : n.minFac * 2 ≤ n.minFac ^ 2 := by rw [pow_two]; exact Nat.mul_le_mul_left _ h4
        omega
      · rw [← hk] at h; exact h (Nat.mod_eq_zero_of_dvd hd)
  · intro hp
    refine ⟨⟨h2, fun h => ?_⟩, fun k _ => ?_⟩
    · rcases (Nat.dvd_prime hp).1 (Nat.dvd_of_mod_eq_zero h) with h | h <;> omega
    · by_cases h2 : n ≤ 2 * k + 3
      · exact Or.inl h2
      · right
        intro h
        rcases (Nat.dvd_prime hp).1 (Nat.dvd_of_mod_eq_zero h) with h | h <;> omega

/-- Powers by squaring. -/
def powMod (m : Nat) : Nat → Nat → Nat → Nat
  | 0, _, _ => 1 % m
  | f + 1, a, n => if n % 2 = 1 then a * powMod m f (a * a % m) (n / 2) % m else powMod m f (a * a % m) (n / 2)

theorem powMod_eq (m : Nat) {f a n : Nat} (h : n < 2 ^ f) : powMod m f a n = a ^ n % m := by
  induction f generalizing a n with
  | zero =>
    have : n = 0 := by simpa using h
    subst this
    simp [powMod]
  | succ f ih =>
    have hn : n / 2 < 2 ^ f := by rw [pow_succ] at h; omega
    have e := Nat.div_add_mod n 2
    have hsq : (a * a % m) ^ (n / 2) % m = a ^ (2 * (n / 2)) % m := by
      rw [← Nat.pow_mod, pow_mul, pow_two]
    rw [powMod, ih hn, hsq]
    split
    · conv_rhs => rw [← e, ‹n % 2 = 1›, pow_succ, Nat.mul_comm]
      rw [Nat.mul_mod_mod]
    · conv_rhs => rw [← e, show n % 2 = 0 by omega, Nat.add_zero]

/-- `p` is a prime of the form `k * m + 1` and there is none between `lo` and `p`. -/
def gapB (m lo p hi : Nat) : Bool :=
  (List.range ((hi - lo) / m + 1)).all fun k =>
    decide (hi < (k + 1) * m + p % m) || decide (hi - (k + 1) * m ≤ lo) || !isPrimeB (hi - (k + 1) * m)

def checkAbove (m x p : Nat) : Bool :=
  isPrimeB p && decide (p % m = 1) && decide (x < p) && decide (p < 2900 * 2900) && decide (1 < m) &&
    gapB m x p p

theorem cand_iff {m r : Nat} (hm : 1 < m) : Cand m r ↔ r.Prime ∧ r % m = 1 := by
  rw [Cand, Nat.ModEq, Nat.mod_eq_of_lt hm]

theorem gapB_spec {m lo p hi : Nat} (hp : p % m = 1) (hh : hi % m = 1) (hm : 1 < m)
    (hl : hi < 2900 * 2900) (h : gapB m lo p hi = true) {r : Nat} (hr : Cand m r) (h1 : lo < r)
    (h2 : r < hi) : False := by
  rw [cand_iff hm] at hr
  have e1 := Nat.div_add_mod hi m
  have e2 := Nat.div_add_mod r m
  rw [hh] at e1
  rw [hr.2] at e2
  have hd : r / m < hi / m := by
    by_contra hc
    have := Nat.mul_le_mul_left m (Nat.le_of_not_lt hc)
    omega
  obtain ⟨k, hk⟩ : ∃ k, hi / m = r / m + (k + 1) := ⟨hi / m - r / m - 1, by omega⟩
  rw [hk, Nat.mul_add] at e1
  have hc : m * (k + 1) = (k + 1) * m := Nat.mul_comm _ _
  rw [gapB, List.all_eq_true] at h
  have := h k (by
    rw [List.mem_range, Nat.lt_succ_iff, Nat.le_div_iff_mul_le (by omega)]
    have : k * m ≤ (k + 1) * m := Nat.mul_le_mul_right _ (by omega)
    omega)
  have hrr : hi - (k + 1) * m = r := by omega
  rw [hrr, hp] at this
  have hpos := hr.1.two_le
  have hpr := (isPrimeB_iff (by omega) (by
    rcases Nat.eq_or_lt_of_le hpos with h | h
    · rw [← h] at e2
      have : 2 % m = 1 := by rw [h]; exact hr.2
      rcases Nat.lt_or_ge 2 m with h' | h'
      · rw [Nat.mod_eq_of_lt h'] at this; omega
      · have : m = 2 := by omega
        subst this; omega
    · exact h)).2 hr.1
  simp only [hpr, Bool.not_true, Bool.or_false, Bool.or_eq_true, decide_eq_true_eq] at this
  omega

theorem above_eq {m x p : Nat} (h : checkAbove m x p = true) : above m x = p := by
  simp only [checkAbove, Bool.and_eq_true, decide_eq_true_eq] at h
  obtain ⟨⟨⟨⟨⟨h1, h2⟩, h3⟩, h4⟩, h5⟩, h6⟩ := h
  obtain ⟨a1, a2, a3⟩ := above_spec (m := m) (by omega) x
  have hp : Cand m p := (cand_iff h5).2 ⟨(isPrimeB_iff h4 (by simp only [isPrimeB, Bool.and_eq_true, decide_eq_true_eq] at h1; exact h1.1.1)).1 h1, h2⟩
  have := a3 p hp h3
  by_contra hne
  exact gapB_spec h2 h2 h5 h4 h6 a1 a2 (by omega)

theorem next_eq {m x p : Nat} (h : checkAbove m x p = true) : nextPrime x m = some p := by
  have h4 : p < 2900 * 2900 := by
    simp only [checkAbove, Bool.and_eq_true, decide_eq_true_eq] at h
    exact h.1.1.2
  rw [nextPrime, above_eq h, if_pos (by omega)]

def checkBelow (m p x : Nat) : Bool :=
  isPrimeB p && decide (p % m = 1) && decide (p < x) && decide (x < 2900 * 2900) && decide (1 < m) &&
    decide (x % m = 1) && gapB m p p x

theorem prev_eq {m x p : Nat} (h : checkBelow m p x = true) : prevPrime x m = some p := by
  simp only [checkBelow, Bool.and_eq_true, decide_eq_true_eq] at h
  obtain ⟨⟨⟨⟨⟨⟨h1, h2⟩, h3⟩, h4⟩, h5⟩, h7⟩, h6⟩ := h
  obtain ⟨k, rfl⟩ : ∃ k, x = p + 1 + k := ⟨x - p - 1, by omega⟩
  have hpp := (isPrimeB_iff (n := p) (by omega) (by simp only [isPrimeB, Bool.and_eq_true, decide_eq_true_eq] at h1; exact h1.1.1)).1 h1
  rw [prevPrime, List.range_add, List.filter_append, List.range_succ, List.filter_append]
  have : (List.map (fun x => p + 1 + x) (List.range k)).filter
      (fun r => decide (Nat.Prime r) && decide (r % m = 1)) = [] := by
    rw [List.filter_eq_nil_iff]
    intro r hr hc
    simp only [List.mem_map, List.mem_range] at hr
    obtain ⟨j, hj, rfl⟩ := hr
    simp only [Bool.and_eq_true, decide_eq_true_eq] at hc
    exact gapB_spec h2 h7 h5 h4 h6 ((cand_iff h5).2 hc) (by omega) (by omega)
  rw [this, List.append_nil]
  simp [hpp, h2]

theorem find_eq {N n p : Nat} {E : List Nat} (hn : n ≤ 60) (f : Nat)
    (hf : checkAbove (2 * N) (2 ^ n) f = true) (hs : skip (2 * N) E (E.length + 1) f = some p) :
    findPrime n N E = some p := by
  rw [findPrime, show 80 - n = (79 - n) + 1 by omega, findLoop, tryBits, firstPrime, if_pos hn,
    next_eq hf, Option.bind_some, hs]

theorem skip_stop {m k p : Nat} {E : List Nat} (h : p ∉ E) : skip m E (k + 1) p = some p := by
  rw [skip, if_neg h]

theorem skip_step {m k p p' : Nat} {E : List Nat} (h : p ∈ E) (hn : checkAbove m p p' = true) :
    skip m E (k + 1) p = skip m E k p' := by
  rw [skip, if_pos h, next_eq hn, Option.bind_some]

/-! ### Moduli of 20 and 22 bits for the ring dimension 4096 -/

theorem primes4096 : findPrimes 4096 [22, 20, 20] [65537] = some [4300801, 1073153, 1097729] := by
  have h1 : findPrime 22 4096 [65537] = some 4300801 :=
    find_eq (by norm_num) 4300801 (by decide +kernel) (skip_stop (by decide))
  have h2 : findPrime 20 4096 [65537, 4300801] = some 1073153 :=
    find_eq (by norm_num) 1073153 (by decide +kernel) (skip_stop (by decide))
  have h3 : findPrime 20 4096 [65537, 4300801, 1073153] = some 1097729 :=
    find_eq (by norm_num) 1073153 (by decide +kernel)
      ((skip_step (by decide) (by decide +kernel)).trans (skip_stop (p := 1097729) (by decide)))
  simp only [findPrimes, h1, h2, h3, Option.bind_some, Option.map_some, List.cons_append, List.nil_append]

theorem specials4096 : findPrimes 4096 [22, 22] [65537, 4300801, 1073153, 1097729] =
    some [4366337, 4423681] := by
  have h1 : findPrime 22 4096 [65537, 4300801, 1073153, 1097729] = some 4366337 :=
    find_eq (by norm_num) 4300801 (by decide +kernel)
      ((skip_step (by decide) (by decide +kernel)).trans (skip_stop (p := 4366337) (by decide)))
  have h2 : findPrime 22 4096 [65537, 4300801, 1073153, 1097729, 4366337] = some 4423681 :=
    find_eq (by norm_num) 4300801 (by decide +kernel)
      ((skip_step (p' := 4366337) (by decide) (by decide +kernel)).trans
        ((skip_step (p' := 4423681) (by decide) (by decide +kernel)).trans (skip_stop (p := 4423681) (by decide))))
  simp only [findPrimes, h1, h2, Option.bind_some, Option.map_some, List.cons_append, List.nil_append]

/-- The sizes of the example. -/
def sizes4096 : List ℚ := [22, 20, 20]

theorem gen4096 : genRlwe sizes4096 65537 4096 =
    some ([4300801, 1073153, 1097729], [4366337, 4423681]) := by
  have h22 : ⌊(22 : ℚ)⌋ = 22 := by norm_num
  have h20 : ⌊(20 : ℚ)⌋ = 20 := by norm_num
  have hs : sizes sizes4096 = [22, 20, 20] := by
    norm_num [sizes, sizes4096]
  have hm : maxSize [22, 20, 20] = 22 := by
    norm_num [maxSize]
  simp only [genRlwe, hs, hm, List.map_cons, List.map_nil, h22, h20]
  have hc : ceilDiv [(22 : ℚ), 20, 20].length (computeDnum ([(22 : ℚ), 20, 20].length - 1)) = 2 := rfl
  rw [hc]
  simp only [ne_eq, OfNat.ofNat_ne_zero, not_false_eq_true, if_true]
  rw [show (22 : Int).toNat = 22 from rfl, show (20 : Int).toNat = 20 from rfl, primes4096]
  simp only [Option.bind_some, List.replicate, List.singleton_append]
  rw [specials4096]
  rfl

/-- 106 bits are asked for, which is what the table allows for 4096. -/
def scheme4096 : Scheme := ⟨4096, 2, 2, [4300801, 1073153, 1097729], [4366337, 4423681]⟩

theorem concrete4096 : getConcrete sizes4096 1024 65537 1 = some scheme4096 := by
  have hs : sizes sizes4096 = [22, 20, 20] := by
    norm_num [sizes, sizes4096]
  have hm : maxSize [22, 20, 20] = 22 := by
    norm_num [maxSize]
  rw [getConcrete, if_neg (by simp [sizes4096])]
  simp only [hs, hm]
  have hc : ceilDiv [(22 : ℚ), 20, 20].length (computeDnum ([(22 : ℚ), 20, 20].length - 1)) = 2 := rfl
  rw [hc]
  have hf : ⌊[(22 : ℚ), 20, 20].sum + ((2 : Nat) : ℚ) * 22⌋ = 106 := by
    norm_num
  rw [hf, show computeRingDim (Int.toNat 106) 1024 = some 4096 by decide +kernel, Option.bind_some,
    settle, gen4096, Option.bind_some]
  have hl : Nat.log 2 (([4300801, 1073153, 1097729] : List Nat).prod * ([4366337, 4423681] : List Nat).prod)
      = 106 := by
    rw [Nat.log_eq_iff (Or.inl (by norm_num))]
    decide +kernel
  rw [hl, show computeRingDim 106 1024 = some 4096 by decide +kernel]
  rfl

/-! ### CKKS moduli of 22 bits for the ring dimension 8192 -/

theorem prime60 : Nat.Prime 1152921504655147009 := by
  have hp : ∀ k : Nat, ((11 : ZMod 1152921504655147009)) ^ k =
      ((11 ^ k : Nat) : ZMod 1152921504655147009) := by intro k; push_cast; rfl
  refine lucas_primality _ 11 ?_ ?_
  · rw [hp, show (1 : ZMod 1152921504655147009) = ((1 : Nat) : ZMod 1152921504655147009) by simp,
      ZMod.natCast_eq_natCast_iff', ← powMod_eq _ (f := 64) (by norm_num)]
    decide +kernel
  · intro q hq hd
    rw [show 1152921504655147009 - 1 = 2 ^ 16 * 3 * 101 * 227 * 409 * 773 * 809 by norm_num] at hd
    have key : ∀ r : Nat, r.Prime → q ∣ r → q = r := fun r hr h => (Nat.prime_dvd_prime_iff_eq hq hr).1 h
    have : q = 2 ∨ q = 3 ∨ q = 101 ∨ q = 227 ∨ q = 409 ∨ q = 773 ∨ q = 809 := by
      simp only [hq.dvd_mul] at hd
      rcases hd with (((((hd | hd) | hd) | hd) | hd) | hd) | hd
      · exact Or.inl (key 2 (by norm_num) (hq.dvd_of_dvd_pow hd))
      · exact Or.inr (Or.inl (key 3 (by norm_num) hd))
      · exact Or.inr (Or.inr (Or.inl (key 101 (by norm_num) hd)))
      · exact Or.inr (Or.inr (Or.inr (Or.inl (key 227 (by norm_num) hd))))
      · exact Or.inr (Or.inr (Or.inr (Or.inr (Or.inl (key 409 (by norm_num) hd)))))
      · exact Or.inr (Or.inr (Or.inr (Or.inr (Or.inr (Or.inl (key 773 (by norm_num) hd))))))
      · exact Or.inr (Or.inr (Or.inr (Or.inr (Or.inr (Or.inr (key 809 (by norm_num) hd))))))
    rw [hp, show (1 : ZMod 1152921504655147009) = ((1 : Nat) : ZMod 1152921504655147009) by simp,
      ne_eq, ZMod.natCast_eq_natCast_iff']
    rcases this with rfl | rfl | rfl | rfl | rfl | rfl | rfl <;>
      rw [← powMod_eq _ (f := 64) (by norm_num)] <;> decide +kernel

theorem fixed_even {m k cnt a b p : Nat} {done : List Nat} (hc : cnt % 2 = 0)
    (h : prevPrime a m = some p) :
    fixedSteps m (k + 1) cnt a b done = fixedSteps m k (cnt + 1) p b (p :: done) := by
  rw [fixedSteps, if_pos hc, h, Option.bind_some]

theorem fixed_odd {m k cnt a b p : Nat} {done : List Nat} (hc : cnt % 2 ≠ 0)
    (h : nextPrime b m = some p) :
    fixedSteps m (k + 1) cnt a b done = fixedSteps m k (cnt + 1) a p (p :: done) := by
  rw [fixedSteps, if_neg hc, h, Option.bind_some]

theorem fixed_zero {m cnt a b : Nat} {done : List Nat} : fixedSteps m 0 cnt a b done = some done := by
  rw [fixedSteps]

theorem moduli_fixed {a b l N q p : Nat} {done : List Nat} (hl : l ≠ 0)
    (hf : firstPrime b (2 * N) = some q) (hs : fixedSteps (2 * N) (l - 1) 0 q q [q] = some done)
    (hm : firstModulus (2 * N) a b (done.foldl max q) done = some p) :
    moduli false a b l N = some (p :: done) := by
  simp only [moduli, hf, Option.bind_some, if_neg hl, Bool.false_eq_true, if_false, hs, hm,
    Option.map_some]

theorem moduli8192 : moduli false 22 22 6 8192 =
    some [4866049, 3850241, 4816897, 4046849, 4620289, 4079617, 4423681] := by
  have hf : firstPrime 22 16384 = some 4423681 := by
    rw [firstPrime, if_pos (by norm_num)]; exact next_eq (by decide +kernel)
  have h1 : prevPrime 4423681 16384 = some 4079617 := prev_eq (by decide +kernel)
  have h2 : nextPrime 4423681 16384 = some 4620289 := next_eq (by decide +kernel)
  have h3 : prevPrime 4079617 16384 = some 4046849 := prev_eq (by decide +kernel)
  have h4 : nextPrime 4620289 16384 = some 4816897 := next_eq (by decide +kernel)
  have h5 : prevPrime 4046849 16384 = some 3850241 := prev_eq (by decide +kernel)
  have h6 : nextPrime 4816897 16384 = some 4866049 := next_eq (by decide +kernel)
  have hs : fixedSteps 16384 5 0 4423681 4423681 [4423681] =
      some [3850241, 4816897, 4046849, 4620289, 4079617, 4423681] :=
    (fixed_even (cnt := 0) (by norm_num) h1).trans <| (fixed_odd (cnt := 1) (by norm_num) h2).trans <|
      (fixed_even (cnt := 2) (by norm_num) h3).trans <| (fixed_odd (cnt := 3) (by norm_num) h4).trans <|
      (fixed_even (cnt := 4) (by norm_num) h5).trans fixed_zero
  refine moduli_fixed (by norm_num) hf hs ?_
  have hm : ([3850241, 4816897, 4046849, 4620289, 4079617, 4423681] : List Nat).foldl max 4423681 = 4816897 := by
    norm_num
  rw [hm, firstModulus, if_pos rfl]
  exact h6

/-- Seven moduli of 22 bits and one special modulus of 60 bits. -/
theorem ckks8192 : ∃ P, 2 ^ 60 < P ∧ P < 2 ^ 61 ∧ getCkks false 22 22 6 4096 1 =
    some ⟨8192, 7, 3, [4866049, 3850241, 4816897, 4046849, 4620289, 4079617, 4423681], [P]⟩ := by
  have hc : Cand (2 * 8192) 1152921504655147009 := (cand_iff (by norm_num)).2 ⟨prime60, by norm_num⟩
  obtain ⟨P, hP⟩ := findPrime_some (n := 60) (N := 8192) (by norm_num)
    (E := [4866049, 3850241, 4816897, 4046849, 4620289, 4079617, 4423681]) le_rfl hc (by norm_num)
    (by norm_num) (by decide)
  have hs := (findPrime_spec (by norm_num) hP).2
  have hle := hs.2.2.2.2 _ hc (by norm_num) (by decide)
  refine ⟨P, hs.2.1, by have : (1152921504655147009 : Nat) < 2 ^ 61 := by norm_num
                        omega, ?_⟩
  have hg : genCkks false 22 22 6 8192 =
      some ([4866049, 3850241, 4816897, 4046849, 4620289, 4079617, 4423681], [P]) := by
    rw [genCkks, moduli8192, Option.bind_some, show numSpecial 22 22 6 = 1 from rfl]
    simp only [List.replicate, findPrimes, hP, Option.bind_some, Option.map_some]
  have hl : Nat.log 2 (([4866049, 3850241, 4816897, 4046849, 4620289, 4079617, 4423681] : List Nat).prod *
      [P].prod) = 214 := by
    have h1 := hs.2.1
    rw [Nat.log_eq_iff (Or.inl (by norm_num))]
    simp only [List.prod_cons, List.prod_nil, Nat.mul_one]
    norm_num at h1 ⊢
    constructor <;> omega
  rw [getCkks, show numSpecial 22 22 6 = 1 from rfl,
    show computeRingDim (22 + 22 * 6 + 60 * 1) (2 * 4096) = some 8192 by decide +kernel,
    Option.bind_some, settle, hg, Option.bind_some, hl,
    show computeRingDim 214 (2 * 4096) = some 8192 by decide +kernel]
  rfl

end Heir.Params
