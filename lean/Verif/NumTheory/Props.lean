import Verif.NumTheory.Lemmas2

/-!
# Properties C01–C07: compile-time number theory
-/

namespace Heir.NumTheory

variable {w : Nat}

/-! ## C01 -/

/-- C01: for every width, every modulus `m ≥ 2` and every `x < m` the function is defined; its
result is the inverse in `[0, m)` when `x` and `m` are coprime and `0` otherwise. -/
theorem C01_multiplicativeInverse {x m : BitVec w} (hm : 2 ≤ m.toNat) (hx : x.toNat < m.toNat) :
    ∃ r, multiplicativeInverse x m = some r ∧
      (Nat.Coprime x.toNat m.toNat → r.toNat < m.toNat ∧ r.toNat * x.toNat ≡ 1 [MOD m.toNat]) ∧
      (¬ Nat.Coprime x.toNat m.toNat → r = 0#w) := by
  have hw := width_pos_of_pos (a := m) (by omega)
  have h1 := one_toNat hw
  have hult : x.ult m = true := by simp [BitVec.ult, hx]
  obtain ⟨z, hz, hg, hc, hb⟩ := invLoop_spec x.toNat m.toNat m x 0#w 1#w 1 0 1 (Or.inl rfl)
    (by simp) (by simp) (by simp) hx (by omega) (by omega)
    (by simp [Int.ModEq]) (by simp [Int.ModEq])
  rw [multiplicativeInverse, if_pos hult]
  by_cases hco : Nat.Coprime x.toNat m.toNat
  · have hgcd : Nat.gcd m.toNat x.toNat = 1 := hco.symm
    rw [hgcd] at hg hc hb
    have hr1 : (invLoop m x 0#w 1#w).1 = 1#w := BitVec.eq_of_toNat_eq (by rw [hg, h1])
    have hml := m.isLt
    obtain ⟨N, hN⟩ : ∃ N, 2 ^ w = 2 * N := ⟨2 ^ (w - 1), by
      obtain ⟨n, rfl⟩ : ∃ n, w = n + 1 := ⟨w - 1, by omega⟩
      simp [Nat.pow_succ]; ring⟩
    have hzb : -(N : Int) < z ∧ z < N := by
      have h3 := abs_le.1 (show |z| ≤ (m.toNat : Int) / 2 by
        rw [Int.le_ediv_iff_mul_le (by norm_num)]; push_cast at hb; linarith)
      have h4 : (m.toNat : Int) / 2 < N := by omega
      constructor <;> linarith [h3.1, h3.2]
    have hti : (invLoop m x 0#w 1#w).2.toInt = z := by
      rw [hz, BitVec.toInt_ofInt]
      rw [Int.bmod_eq_of_le] <;> · push_cast [hN]; omega
    have hmsb : (invLoop m x 0#w 1#w).2.msb = decide (z < 0) := by
      rw [BitVec.msb_eq_toInt, hti]
    have hbz : 2 * |z| ≤ m.toNat := by push_cast at hb; linarith
    simp only [hr1, ne_eq, not_true_eq_false, if_false, hmsb]
    have key : ∀ r : BitVec w, (r.toNat : Int) < m.toNat → (r.toNat : Int) ≡ z [ZMOD m.toNat] →
        r.toNat < m.toNat ∧ r.toNat * x.toNat ≡ 1 [MOD m.toNat] := by
      intro r hr1 hr2
      refine ⟨by omega, ?_⟩
      rw [← Int.natCast_modEq_iff]
      push_cast
      exact (hr2.mul_right _).trans (by simpa using hc)
    by_cases hneg : z < 0
    · refine ⟨_, by simp [hneg]; rfl, fun _ => key _ ?_ ?_, fun h => absurd hco h⟩
      all_goals
        have hv : (((invLoop m x 0#w 1#w).2 + m).toNat : Int) = z + m.toNat := by
          rw [BitVec.toNat_add]
          have h5 := hti
          rw [BitVec.toInt_eq_toNat_cond] at h5
          have h6 := (invLoop m x 0#w 1#w).2.isLt
          rw [abs_of_neg hneg] at hbz
          split at h5
          · omega
          · have e : (invLoop m x 0#w 1#w).2.toNat + m.toNat
                = ((invLoop m x 0#w 1#w).2.toNat + m.toNat - 2 ^ w) + 2 ^ w := by omega
            rw [e, Nat.add_mod_right, Nat.mod_eq_of_lt (by omega)]
            omega
      · rw [hv]; omega
      · rw [hv]; simp [Int.ModEq]
    · refine ⟨_, by simp [hneg]; rfl, fun _ => key _ ?_ ?_, fun h => absurd hco h⟩
      all_goals
        have hv : ((invLoop m x 0#w 1#w).2.toNat : Int) = z := by
          have h5 := hti
          rw [BitVec.toInt_eq_toNat_cond] at h5
          split at h5 <;> omega
      · rw [hv]
        rw [abs_of_nonneg (by omega)] at hbz
        omega
      · rw [hv]
  · have hr1 : (invLoop m x 0#w 1#w).1 ≠ 1#w := by
      intro h
      apply hco
      rw [h, h1] at hg
      exact (Nat.gcd_comm _ _).trans hg.symm
    exact ⟨0#w, by simp [hr1], fun h => absurd h hco, fun _ => rfl⟩

/-- A case with a negative cofactor at the full width of the word, and one without inverse. -/
example : (2 ≤ (251#8).toNat ∧ (100#8).toNat < (251#8).toNat ∧
    Nat.Coprime (100#8).toNat (251#8).toNat) ∧ (¬ Nat.Coprime (6#4).toNat (15#4).toNat) := by
  decide

/-- The assertion on the operand is the only failure. -/
theorem C01_precondition {x m : BitVec w} (h : ¬ x.toNat < m.toNat) :
    multiplicativeInverse x m = none := by
  rw [multiplicativeInverse, if_neg (by simp [BitVec.ult]; omega)]

/-! ## C02 -/

/-- C02, multiplication: for every width and every nonzero modulus. -/
theorem C02_modMul (a b : BitVec w) {m : BitVec w} (hm : 0 < m.toNat) :
    ∃ r, modMul a b m = some r ∧ r.toNat = a.toNat * b.toNat % m.toNat := modMul_some hm

example : modMul 15#4 14#4 13#4 = some 2#4 := by decide

/-- C02, exponentiation; missing: modulus `1` with exponent `0`, for which the code returns `1`
(`C02_modExp_violated_modulus_one`). -/
theorem C02_modExp_partial {we : Nat} (b : BitVec w) (e : BitVec we) {m : BitVec w}
    (hm : 0 < m.toNat) (h : 2 ≤ m.toNat ∨ 0 < e.toNat) :
    ∃ r, modExp b e m = some r ∧ r.toNat = b.toNat ^ e.toNat % m.toNat := by
  by_cases h2 : 2 ≤ m.toNat
  · exact modExp_some h2 b e
  · have he : 0 < e.toNat := by omega
    obtain ⟨r, h, _, hp⟩ := modExpLoop_some hm 1#w (b.umod m) e
    refine ⟨r, by rw [modExp, if_neg (ne_of_pos hm), h], ?_⟩
    have : m.toNat = 1 := by omega
    rw [hp he, this, Nat.mod_one, Nat.mod_one]

example : (0 < (13#4).toNat ∧ (2 ≤ (13#4).toNat ∨ 0 < (200#8).toNat)) := by decide

/-- C02 violated at modulus `1`, exponent `0`: the result is `1`, not the residue `0`. -/
theorem C02_modExp_violated_modulus_one (hw : 0 < w) (b : BitVec w) :
    modExp b 0#8 1#w = some 1#w ∧ (1#w).toNat ≠ b.toNat ^ 0 % (1#w).toNat := by
  have h1 := one_toNat hw
  refine ⟨?_, by rw [h1]; simp⟩
  rw [modExp, if_neg (ne_of_pos (by omega)), modExpLoop]
  simp

/-! ## C03 -/

/-- C03: no prime is rejected, for every width. -/
theorem C03_prime_accepted {n : BitVec w} (hp : n.toNat.Prime) : isPrime n = some true := by
  unfold isPrime
  rw [if_neg (by have := hp.two_le; omega)]
  split
  · rfl
  · rename_i h4
    have hodd : n.toNat % 2 = 1 := by
      rcases hp.eq_two_or_odd with h | h <;> omega
    rw [if_neg (getLsbD_zero_of_odd hodd)]
    have h1 := sub_one_toNat (n := n) hp.pos
    have hne : (n - 1#w).toNat ≠ 0 := by omega
    apply basesLoop_prime hp (by omega) _ (ctz_pos hne (by omega))
    · rw [BitVec.toNat_ushiftRight, Nat.shiftRight_eq_div_pow, ← h1]
      exact Nat.div_mul_cancel (ctz_spec hne)
    · decide

/-- C03, contrapositive form. -/
theorem C03_rejected_not_prime {n : BitVec w} (h : isPrime n = some false) : ¬ n.toNat.Prime := by
  intro hp; rw [C03_prime_accepted hp] at h; simp at h

example : Nat.Prime (97#8).toNat := by norm_num

/-- The test is defined (no division by zero) on every input. -/
theorem C03_defined (n : BitVec w) : ∃ b, isPrime n = some b := by
  unfold isPrime
  split
  · exact ⟨_, rfl⟩
  split
  · exact ⟨_, rfl⟩
  split
  · exact ⟨_, rfl⟩
  rename_i h2 h4 _
  have hsq : ∀ k (x : BitVec w), ∃ b, squareLoop n x k = some b := by
    intro k
    induction k with
    | zero => exact fun _ => ⟨_, rfl⟩
    | succ k ih =>
      intro x
      obtain ⟨y, hy, _⟩ := modMul_some (a := x) (b := x) (m := n) (by omega)
      rw [squareLoop, hy]
      by_cases hc : y = n - 1#w
      · exact ⟨false, by simp [hc]⟩
      · obtain ⟨b, hb⟩ := ih y
        exact ⟨b, by simp [hc, hb]⟩
  generalize mrBases = as
  dsimp only
  induction as with
  | nil => exact ⟨_, rfl⟩
  | cons a as ih =>
    rw [basesLoop]
    split
    · exact ⟨_, rfl⟩
    · obtain ⟨x, hx, _⟩ := modExp_some (m := n) (by omega) (BitVec.ofNat w a)
        ((n - 1#w) >>> ctz (n - 1#w).toNat)
      simp only [hx, Option.bind_eq_bind, Option.bind_some]
      split
      · exact ih
      · obtain ⟨b, hb⟩ := hsq (ctz (n - 1#w).toNat - 1) x
        rw [hb]
        cases b
        · simpa using ih
        · exact ⟨false, rfl⟩

/-! ## C04 -/

/-- C04: `factorize` terminates without undefined behaviour and returns, in increasing order
without repetition, exactly the primes dividing `n`, for every `n ≥ 1` of every size (also for
64-bit arguments close to `2^64`, where `d * d` wraps around). -/
theorem C04_factorize {n : Nat} (hn : 0 < n) :
    ∃ L, factorize n = some L ∧ (∀ p, p ∈ L ↔ p.Prime ∧ p ∣ n) ∧ L.Pairwise (· < ·) :=
  factorize_spec hn

example : (0 : Nat) < 2 ^ 64 - 59 := by norm_num

/-! ## C05 -/

/-- C05 for every prime modulus up to `2^64`: a generator is found. -/
theorem C05_findPrimitiveRoot {q : BitVec w} (hp : q.toNat.Prime) (h64 : q.toNat ≤ 2 ^ 64) :
    ∃ g, findPrimitiveRoot q = some (some g) ∧ g.toNat < q.toNat ∧
      orderOf (g.toNat : ZMod q.toNat) = q.toNat - 1 ∧
      ∀ x : ZMod q.toNat, x ≠ 0 → ∃ k : Nat, (g.toNat : ZMod q.toNat) ^ k = x := by
  obtain ⟨h1, h2⟩ := findPrimitiveRoot_spec hp
  obtain ⟨o, ho⟩ := h2 h64
  obtain ⟨r, rfl, hlt, hord⟩ := h1 o ho
  refine ⟨r, ho, hlt, hord, ?_⟩
  intro x hx
  have := Fact.mk hp
  have hr0 : (r.toNat : ZMod q.toNat) ≠ 0 := by
    intro h
    rw [h] at hord
    have h2 := hp.two_le
    rw [orderOf_zero] at hord
    omega
  let u := Units.mk0 _ hr0
  have hu : orderOf u = Fintype.card (ZMod q.toNat)ˣ := by
    rw [ZMod.card_units_eq_totient, Nat.totient_prime hp, ← hord, ← orderOf_units]; rfl
  have hgen : Subgroup.zpowers u = ⊤ := by
    apply Subgroup.eq_top_of_card_eq
    rw [Nat.card_zpowers, hu, Nat.card_eq_fintype_card]
  have hmem : Units.mk0 x hx ∈ Subgroup.zpowers u := by rw [hgen]; trivial
  rw [← mem_powers_iff_mem_zpowers] at hmem
  obtain ⟨k, hk⟩ := hmem
  refine ⟨k, ?_⟩
  have := congrArg Units.val hk
  simpa [u] using this

example : Nat.Prime (65537#32).toNat ∧ (65537#32).toNat ≤ 2 ^ 64 := by
  constructor <;> norm_num

/-- C05 for all primes; missing: for `q > 2^64` that the 64-bit candidate counter finds a
generator before it wraps around. -/
theorem C05_findPrimitiveRoot_large_partial {q : BitVec w} (hp : q.toNat.Prime) {o}
    (h : findPrimitiveRoot q = some o) :
    ∃ g, o = some g ∧ g.toNat < q.toNat ∧ orderOf (g.toNat : ZMod q.toNat) = q.toNat - 1 :=
  (findPrimitiveRoot_spec hp).1 o h

/-! ## C06 -/

/-- C06: the root returned for `2 n ∣ q - 1` has order exactly `2 n`. -/
theorem C06_findPrimitive2nthRoot {q : BitVec w} {n : Nat} (hp : q.toNat.Prime)
    (h64 : q.toNat ≤ 2 ^ 64) (hn : 0 < n) (hd : 2 * n ∣ q.toNat - 1) :
    ∃ r, findPrimitive2nthRoot q n = some (some r) ∧ r.toNat < q.toNat ∧
      orderOf (r.toNat : ZMod q.toNat) = 2 * n ∧ (r.toNat : ZMod q.toNat) ^ n = -1 := by
  have := Fact.mk hp
  have h2 := hp.two_le
  have hle := Nat.le_of_dvd (by omega) hd
  have hql := q.isLt
  have h2n : 2 * n % 2 ^ 64 = 2 * n := Nat.mod_eq_of_lt (by omega)
  have hap : (BitVec.ofNat w (2 * n)).toNat = 2 * n := by
    rw [BitVec.toNat_ofNat]; exact Nat.mod_eq_of_lt (by omega)
  have hw := width_pos_of_pos hp.pos
  have h1 := sub_one_toNat (n := q) hp.pos
  have hmod : q.umod (BitVec.ofNat w (2 * n)) = 1#w := by
    apply BitVec.eq_of_toNat_eq
    rw [BitVec.umod_eq, BitVec.toNat_umod, hap, one_toNat hw]
    obtain ⟨k, hk⟩ := hd
    rw [show q.toNat = 1 + 2 * n * k by omega, Nat.add_mul_mod_self_left]
    exact Nat.mod_eq_of_lt (by omega)
  obtain ⟨g, hg, hgl, hgo, _⟩ := C05_findPrimitiveRoot hp h64
  obtain ⟨r, hr, hrv⟩ := modExp_some (m := q) h2 g ((q - 1#w).udiv (BitVec.ofNat w (2 * n)))
  rw [BitVec.udiv_eq, BitVec.toNat_udiv, hap, h1] at hrv
  have hcast : (r.toNat : ZMod q.toNat) = (g.toNat : ZMod q.toNat) ^ ((q.toNat - 1) / (2 * n)) := by
    rw [hrv]; simp
  have hord : orderOf (r.toNat : ZMod q.toNat) = 2 * n := by
    rw [hcast, orderOf_pow_of_dvd, hgo]
    · exact Nat.div_div_self hd (by omega)
    · exact (Nat.div_pos hle (by omega)).ne'
    · rw [hgo]; exact Nat.div_dvd_of_dvd hd
  refine ⟨r, ?_, by rw [hrv]; exact Nat.mod_lt _ hp.pos, hord, ?_⟩
  · simp only [findPrimitive2nthRoot, h2n]
    rw [if_neg (by omega), if_neg (by simpa using hmod), hg]
    simp only [Option.bind_eq_bind, Option.bind_some, hr]
  · have hsq : ((r.toNat : ZMod q.toNat) ^ n) * ((r.toNat : ZMod q.toNat) ^ n) = 1 := by
      rw [← pow_add, ← two_mul, ← hord, pow_orderOf_eq_one]
    rcases mul_self_eq_one_iff.1 hsq with h | h
    · exfalso
      have := Nat.le_of_dvd hn (hord ▸ orderOf_dvd_of_pow_eq_one h)
      omega
    · exact h

example : Nat.Prime (7681#16).toNat ∧ (7681#16).toNat ≤ 2 ^ 64 ∧ 2 * 256 ∣ (7681#16).toNat - 1 := by
  refine ⟨by norm_num, by norm_num, by norm_num⟩

/-- C06: nothing is returned when `2 n` does not divide `q - 1`. -/
theorem C06_none {q : BitVec w} {n : Nat} (hq : 0 < q.toNat) (hn : 0 < n) (hn63 : n < 2 ^ 63)
    (hfit : 2 * n < 2 ^ w) (hd : ¬ 2 * n ∣ q.toNat - 1) :
    findPrimitive2nthRoot q n = some none := by
  have h2n : 2 * n % 2 ^ 64 = 2 * n := Nat.mod_eq_of_lt (by omega)
  have hap : (BitVec.ofNat w (2 * n)).toNat = 2 * n := by
    rw [BitVec.toNat_ofNat]; exact Nat.mod_eq_of_lt (by omega)
  simp only [findPrimitive2nthRoot, h2n]
  rw [if_neg (by omega), if_pos]
  intro h
  apply hd
  have := congrArg BitVec.toNat h
  rw [BitVec.umod_eq, BitVec.toNat_umod, hap, one_toNat (width_pos_of_pos hq)] at this
  have h2 := Nat.div_add_mod q.toNat (2 * n)
  exact ⟨q.toNat / (2 * n), by omega⟩

example : (0 < (17#8).toNat) ∧ 2 * 5 < 2 ^ 8 ∧ ¬ 2 * 5 ∣ (17#8).toNat - 1 := by decide

/-- A degree that does not fit the modulus width trips the `APInt` constructor's assertion. -/
theorem C06_degree_too_wide (q : BitVec w) {n : Nat} (hn63 : n < 2 ^ 63) (h : 2 ^ w ≤ 2 * n) :
    findPrimitive2nthRoot q n = none := by
  have h2n : 2 * n % 2 ^ 64 = 2 * n := Nat.mod_eq_of_lt (by omega)
  simp only [findPrimitive2nthRoot, h2n]
  rw [if_pos (Or.inl h)]

/-! ## C07 -/

/-- C07: `nextPowerOfTwo` is the least power of two not below its argument. -/
theorem C07_nextPowerOfTwo (v : BitVec 64) (h1 : 1 ≤ v.toNat) (h2 : v.toNat ≤ 2 ^ 63) :
    (nextPowerOfTwo v).toNat.isPowerOfTwo ∧ v.toNat ≤ (nextPowerOfTwo v).toNat ∧
      ∀ p : Nat, p.isPowerOfTwo → v.toNat ≤ p → (nextPowerOfTwo v).toNat ≤ p := by
  obtain ⟨k, hk, hle, hmin⟩ := nextPowerOfTwo_val v h1 h2
  refine ⟨⟨k, hk⟩, by rw [hk]; exact hle, ?_⟩
  rintro p ⟨j, rfl⟩ hp
  rw [hk]
  exact Nat.pow_le_pow_right (by norm_num) (hmin j hp)

example : nextPowerOfTwo 1000#64 = 1024#64 ∧ nextPowerOfTwo 1024#64 = 1024#64 ∧
    nextPowerOfTwo 1#64 = 1#64 := by decide

/-- Outside the range the function returns `0`. -/
theorem C07_nextPowerOfTwo_zero : nextPowerOfTwo 0#64 = 0#64 := by decide

/-- Outside the range the function returns `0`. -/
theorem C07_nextPowerOfTwo_overflow (v : BitVec 64) (h : 2 ^ 63 < v.toNat) :
    nextPowerOfTwo v = 0#64 := by
  obtain ⟨s, hs, hb⟩ := nextPowerOfTwo_smear v
  have hu := sub_one_toNat (n := v) (by omega)
  have hvl := v.isLt
  have hst : s = BitVec.allOnes 64 := by
    apply BitVec.eq_of_getLsbD_eq
    intro i hi
    have h63 : (v - 1#64).getLsbD 63 = true := by
      rw [BitVec.getLsbD, hu, Nat.testBit_eq_decide_div_mod_eq]
      have : (v.toNat - 1) / 2 ^ 63 = 1 := by omega
      rw [this]; decide
    have : s.getLsbD i = true := (hb i).2 ⟨63 - i, by rw [show i + (63 - i) = 63 by omega]; exact h63⟩
    rw [this, BitVec.getLsbD_allOnes]; simp [hi]
  rw [hs, hst]; decide

/-- C07: `isPowerOfTwo` decides being a power of two, on all `int64_t`. -/
theorem C07_isPowerOfTwo (n : BitVec 64) :
    isPowerOfTwo n = true ↔ ∃ k : Nat, n.toInt = 2 ^ k := by
  unfold isPowerOfTwo
  rw [Bool.and_eq_true, decide_eq_true_eq, beq_iff_eq]
  constructor
  · rintro ⟨h1, h2⟩
    have hn : n.toInt = n.toNat := by
      rw [BitVec.toInt_eq_toNat_cond] at h1 ⊢
      have := n.isLt
      split at h1 <;> omega
    have h0 : n.toNat ≠ 0 := by omega
    have h3 := congrArg BitVec.toNat h2
    rw [BitVec.toNat_and, sub_one_toNat (by omega)] at h3
    obtain ⟨k, hk⟩ := (Nat.and_sub_one_eq_zero_iff_isPowerOfTwo h0).1 (by simpa using h3)
    exact ⟨k, by rw [hn, hk]; push_cast; rfl⟩
  · rintro ⟨k, hk⟩
    have hpos : 0 < n.toInt := by rw [hk]; positivity
    refine ⟨hpos, ?_⟩
    have hn : n.toInt = n.toNat := by
      rw [BitVec.toInt_eq_toNat_cond] at hpos ⊢
      have := n.isLt
      split at hpos <;> omega
    have hnk : n.toNat = 2 ^ k := by
      have : (n.toNat : Int) = ((2 ^ k : Nat) : Int) := by rw [← hn, hk]; push_cast; rfl
      exact_mod_cast this
    have h0 : n.toNat ≠ 0 := by omega
    apply BitVec.eq_of_toNat_eq
    rw [BitVec.toNat_and, sub_one_toNat (by omega)]
    simpa using (Nat.and_sub_one_eq_zero_iff_isPowerOfTwo h0).2 ⟨k, hnk⟩

example : isPowerOfTwo 4096#64 = true ∧ isPowerOfTwo (BitVec.intMin 64) = false := by decide

end Heir.NumTheory
