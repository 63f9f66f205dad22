import Verif.Params.Gaps
import Verif.Params.Witness

/-! # Properties of the chosen parameters -/

namespace Heir.Params

/-! ### C181: 128 bits of security -/

/-- C181: the ring dimension is the least one of the guidelines that is large enough for the number of
slots and allows moduli of that many bits; there is none exactly if no ring dimension does. -/
theorem C181_table (l min : Nat) :
    (∀ N, computeRingDim l min = some N ↔ ∃ M, maxLogQ N = some M ∧ min ≤ N ∧ l ≤ M ∧
      ∀ N' M', maxLogQ N' = some M' → min ≤ N' → l ≤ M' → N ≤ N') ∧
    (computeRingDim l min = none ↔ ∀ N M, maxLogQ N = some M → min ≤ N → ¬ l ≤ M) := by
  refine ⟨fun N => computeRingDim_iff, ?_⟩
  constructor
  · intro h N M hN hmin hl
    have hmem : (N, M) ∈ table := by
      unfold maxLogQ at hN
      split at hN <;> simp_all [table]
    simp only [computeRingDim, Option.map_eq_none_iff, List.find?_eq_none] at h
    exact h _ hmem (by simp [hmin, hl])
  · intro h
    cases hc : computeRingDim l min with
    | none => rfl
    | some N =>
      obtain ⟨M, h1, h2, h3, _⟩ := computeRingDim_iff.1 hc
      exact absurd h3 (h N M h1 h2)

/-- C181, for BGV and BFV.  Missing: the logarithm of all moduli is cut to an integer before it is
compared, hence up to one bit more than the guidelines allow. -/
theorem C181_bgv_partial {logqi : List ℚ} {min t k : Nat} {s : Scheme}
    (h : getConcrete logqi min t k = some s) :
    min ≤ s.ringDim ∧ ∃ M, maxLogQ s.ringDim = some M ∧ s.q.prod * s.p.prod < 2 ^ (M + 1) := by
  obtain ⟨_, _, h1, _⟩ := getConcrete_spec h
  obtain ⟨M, h2, h3, h4, _⟩ := computeRingDim_iff.1 h1
  exact ⟨h3, M, h2, Nat.lt_pow_of_log_lt (by norm_num) (by omega)⟩

/-- C181, for CKKS; missing as above. -/
theorem C181_ckks_partial {red : Bool} {a b l min k : Nat} {s : Scheme}
    (h : getCkks red a b l min k = some s) :
    2 * min ≤ s.ringDim ∧ ∃ M, maxLogQ s.ringDim = some M ∧ s.q.prod * s.p.prod < 2 ^ (M + 1) := by
  obtain ⟨_, h1, _⟩ := getCkks_spec h
  obtain ⟨M, h2, h3, h4, _⟩ := computeRingDim_iff.1 h1
  exact ⟨h3, M, h2, Nat.lt_pow_of_log_lt (by norm_num) (by omega)⟩

/-- C181: the parameters chosen before the noise is known are secure for all moduli of at most 60
bits. -/
theorem C181_conservative {level min N d n np : Nat}
    (h : getConservative level min = some (N, d, n, np)) {q p : List Nat} (hq : q.length = n)
    (hp : p.length = np) (hb : ∀ r ∈ q ++ p, r < 2 ^ 60) :
    min ≤ N ∧ n = level + 1 ∧ Secure N (q.prod * p.prod) := by
  simp only [getConservative, Option.map_eq_some_iff, Prod.mk.injEq] at h
  obtain ⟨N', h1, rfl, rfl, rfl, rfl⟩ := h
  obtain ⟨M, h2, h3, h4, _⟩ := computeRingDim_iff.1 h1
  refine ⟨h3, rfl, M, h2, ?_⟩
  have hne : q ++ p ≠ [] := by
    intro hc
    simp only [List.append_eq_nil_iff] at hc
    rw [hc.1] at hq
    simp at hq
  have := prod_lt_pow hne hb
  rw [List.prod_append, List.length_append, hq, hp] at this
  exact this.le.trans (Nat.pow_le_pow_right (by norm_num) h4)

/-- C181 fails: moduli of 22, 20 and 20 bits and two special ones of 22 bits are taken for the ring
dimension 4096, for which 106 bits are allowed; they multiply to more. -/
theorem C181_violated_truncation : getConcrete [22, 20, 20] 1024 65537 1 = some scheme4096 ∧
    scheme4096.ringDim = 4096 ∧ ¬ Secure 4096 (scheme4096.q.prod * scheme4096.p.prod) := by
  refine ⟨concrete4096, rfl, ?_⟩
  rintro ⟨M, h1, h2⟩
  have : M = 106 := by simpa [maxLogQ] using h1.symm
  subst this
  revert h2
  decide +kernel

example : computeRingDim 215 1 = some 16384 ∧ computeRingDim 20 3000 = some 4096 ∧
    computeRingDim 3524 1 = none := by decide +kernel

example : getConservative 5 1 = some (32768, 3, 6, 2) := by decide +kernel

/-! ### C182: the moduli can be used -/

/-- C182, for BGV and BFV: as many moduli as sizes, all of them different primes for which the
transform exists, none of them the plaintext modulus, each with more bits than its size and than 20;
one special modulus for each modulus of a digit, larger than all of them. -/
theorem C182_bgv {logqi : List ℚ} {min t k : Nat} {s : Scheme}
    (h : getConcrete logqi min t k = some s) :
    s.q.length = logqi.length ∧ s.level + 1 = s.q.length ∧
    (s.q ++ s.p).Nodup ∧ (∀ r ∈ s.q ++ s.p, NttPrime s.ringDim r ∧ r < 2 ^ 64) ∧
    (t ≠ 0 → t ∉ s.q ++ s.p) ∧
    List.Forall₂ (fun (x : ℚ) r => 2 ^ ⌊x⌋.toNat < r ∧ 2 ^ 20 < r) logqi s.q ∧
    ∀ x ∈ s.q, ∀ y ∈ s.p, x < y := by
  obtain ⟨hne, h1, h2, h3, h4⟩ := getConcrete_spec h
  obtain ⟨g1, g2, g3, g4, g5, g6, g7⟩ := genRlwe_spec (ringDim_ne h2) h1
  have : 0 < logqi.length := List.length_pos_of_ne_nil hne
  exact ⟨g1, by omega, g3, fun r hr => ⟨ntt_of_cand (g5 r hr).1, (g5 r hr).2⟩, g4, g6, g7⟩

/-- C182, for CKKS: one modulus more than levels, all of them different primes for which the transform
exists; the special ones have more than 60 bits. -/
theorem C182_ckks {red : Bool} {a b l min k : Nat} {s : Scheme}
    (h : getCkks red a b l min k = some s) :
    s.q.length = l + 1 ∧ (s.q ++ s.p).Nodup ∧ (∀ r ∈ s.q ++ s.p, NttPrime s.ringDim r) ∧
    ∀ r ∈ s.p, 2 ^ 60 < r ∧ r < 2 ^ 64 := by
  obtain ⟨h1, h2, _⟩ := getCkks_spec h
  obtain ⟨g1, g2, g3, g4, g5⟩ := genCkks_spec (ringDim_ne h2) h1
  exact ⟨g1, g3, fun r hr => ntt_of_cand (g4 r hr), g5⟩

example : ∃ s, getConcrete [22, 20, 20] 1024 65537 1 = some s := ⟨_, concrete4096⟩

example : ∃ s, getCkks false 22 22 6 4096 1 = some s := by
  obtain ⟨P, _, _, h⟩ := ckks8192; exact ⟨_, h⟩

/-! ### C183: key switching -/

/-- C183, for BGV and BFV: the digits cover all moduli, and the special moduli multiply to more than
any digit. -/
theorem C183_bgv {logqi : List ℚ} {min t k : Nat} {s : Scheme}
    (h : getConcrete logqi min t k = some s) :
    s.q.length ≤ s.dnum * ceilDiv s.q.length s.dnum ∧
    ∀ i, (digit s.q (ceilDiv s.q.length s.dnum) i).prod < s.p.prod := by
  obtain ⟨hne, h1, h2, h3, h4⟩ := getConcrete_spec h
  obtain ⟨g1, g2, g3, g4, g5, g6, g7⟩ := genRlwe_spec (ringDim_ne h2) h1
  have hpos : 0 < logqi.length := List.length_pos_of_ne_nil hne
  refine ⟨ceilDiv_le (h4 ▸ dnum_pos _), fun i => ?_⟩
  rw [g1, h4, ← g2]
  refine prod_lt ?_ ?_ ?_ ?_
  · rw [digit, List.length_take]; exact Nat.min_le_left _ _
  · intro d hd r hr
    exact g7 d (List.mem_of_mem_drop (List.mem_of_mem_take hd)) r hr
  · intro r hr
    exact (g5 r (List.mem_append_right _ hr)).1.1.one_lt
  · intro hc
    rw [hc] at g2
    have := ceilDiv_le (a := logqi.length) (dnum_pos (logqi.length - 1))
    rw [← g2, List.length_nil, Nat.mul_zero] at this
    omega

/-- C183, for CKKS, if the moduli have at most 60 bits: digits of as many moduli as there are special
ones are smaller than the special moduli together.  Missing: the digits that the parameters ask for. -/
theorem C183_ckks_partial {red : Bool} {a b l min k : Nat} {s : Scheme}
    (h : getCkks red a b l min k = some s) (hq : ∀ r ∈ s.q, r ≤ 2 ^ 60) (hp : s.p ≠ []) (i : Nat) :
    (digit s.q s.p.length i).prod < s.p.prod := by
  obtain ⟨h1, h2, _⟩ := getCkks_spec h
  obtain ⟨g1, g2, g3, g4, g5⟩ := genCkks_spec (ringDim_ne h2) h1
  refine prod_lt ?_ ?_ ?_ hp
  · rw [digit, List.length_take]; exact Nat.min_le_left _ _
  · intro d hd r hr
    have := hq d (List.mem_of_mem_drop (List.mem_of_mem_take hd))
    have := (g5 r hr).1
    omega
  · intro r hr
    have := (g5 r hr).1
    have : 1 ≤ 2 ^ 60 := Nat.one_le_two_pow
    omega

theorem pow_le_prod {b : Nat} : ∀ {l : List Nat}, (∀ r ∈ l, b ≤ r) → b ^ l.length ≤ l.prod
  | [], _ => by simp
  | r :: rs, h => by
    rw [List.length_cons, List.prod_cons, Nat.pow_succ, Nat.mul_comm]
    exact Nat.mul_le_mul (h r List.mem_cons_self)
      (pow_le_prod fun x hx => h x (List.mem_cons_of_mem _ hx))

/-- C183, CKKS: the special moduli have at least the bits of all requested moduli divided by the number of
digits.  Missing: the digits may have more than that. -/
theorem C183_ckks_bits_partial {red : Bool} {a b l min k : Nat} {s : Scheme}
    (h : getCkks red a b l min k = some s) : 2 ^ (a + b * l) ≤ s.p.prod ^ s.dnum := by
  obtain ⟨h1, h2, h3⟩ := getCkks_spec h
  obtain ⟨g1, g2, g3, g4, g5⟩ := genCkks_spec (ringDim_ne h2) h1
  have hd : s.dnum = computeDnum l := h3.2
  have e1 : (2 ^ 60) ^ s.p.length ≤ s.p.prod := pow_le_prod fun r hr => Nat.le_of_lt (g5 r hr).1
  refine Nat.le_trans ?_ (Nat.pow_le_pow_left e1 _)
  rw [← Nat.pow_mul, ← Nat.pow_mul, g2, hd, numSpecial]
  refine Nat.pow_le_pow_right (by decide) ?_
  have e2 : a + b * l ≤ computeDnum l * ceilDiv (a + b * l) (computeDnum l) := ceilDiv_le (dnum_pos _)
  have e3 : ceilDiv (a + b * l) (computeDnum l) ≤
      60 * ceilDiv (ceilDiv (a + b * l) (computeDnum l)) 60 := ceilDiv_le (by decide)
  rw [← Nat.mul_assoc, Nat.mul_comm (60 * _)]
  exact Nat.le_trans e2 (Nat.mul_le_mul_left _ e3)

/-- C183 fails for CKKS: with seven moduli of 22 bits in three digits there is one special modulus,
of 60 bits, for digits of 66. -/
theorem C183_violated_ckks : ∃ s, getCkks false 22 22 6 4096 1 = some s ∧ s.dnum = 3 ∧
    ceilDiv s.q.length s.dnum = 3 ∧ s.p.prod < 2 ^ 61 ∧ 2 ^ 66 < (digit s.q 3 0).prod := by
  obtain ⟨P, h1, h2, h⟩ := ckks8192
  refine ⟨_, h, rfl, by simp [ceilDiv], by simpa using h2, ?_⟩
  simp only [digit]
  decide +kernel

/-! ### C184: the parameters in the program -/

theorem two_pow_log {N M : Nat} (h : maxLogQ N = some M) : 2 ^ Nat.log 2 N = N := by
  have : ∃ j, N = 2 ^ j := by
    unfold maxLogQ at h
    split at h
    · exact ⟨10, rfl⟩
    · exact ⟨11, rfl⟩
    · exact ⟨12, rfl⟩
    · exact ⟨13, rfl⟩
    · exact ⟨14, rfl⟩
    · exact ⟨15, rfl⟩
    · exact ⟨16, rfl⟩
    · exact ⟨17, rfl⟩
    · simp at h
  obtain ⟨j, rfl⟩ := this
  rw [Nat.log_pow (by norm_num)]

theorem dnum_back {n : Nat} (hn : 0 < n) :
    ceilDiv n (ceilDiv n (computeDnum (n - 1))) = computeDnum (n - 1) := by
  unfold computeDnum
  split
  · have e : ceilDiv n 3 = (n + 2) / 3 := rfl
    rw [e, ceilDiv]
    generalize hc : (n + 2) / 3 = c
    have h1 := Nat.div_add_mod (n + 2) 3
    have h2 := Nat.mod_lt (n + 2) (by norm_num : 3 > 0)
    rw [hc] at h1
    rw [Nat.div_eq_iff (by omega)]
    constructor <;> omega
  · split
    · have : n = 2 ∨ n = 3 ∨ n = 4 := by omega
      rcases this with rfl | rfl | rfl <;> rfl
    · have : n = 1 := by omega
      subst this; rfl

/-- C184, for BGV and BFV: reading the parameters that were written to the program gives the same
parameters. -/
theorem C184_bgv {logqi : List ℚ} {min t k : Nat} {s : Scheme}
    (h : getConcrete logqi min t k = some s) : ofAttr (toAttr s) = some s := by
  obtain ⟨hne, h1, h2, h3, h4⟩ := getConcrete_spec h
  obtain ⟨g1, g2, _⟩ := genRlwe_spec (ringDim_ne h2) h1
  obtain ⟨M, hM, _⟩ := computeRingDim_iff.1 h2
  have hpos : 0 < logqi.length := List.length_pos_of_ne_nil hne
  have hp : s.p.length ≠ 0 := by
    intro hc
    have := ceilDiv_le (a := logqi.length) (dnum_pos (logqi.length - 1))
    rw [← g2, hc] at this
    omega
  rw [ofAttr, if_neg (by
    rintro (hc | hc)
    · exact hp (by rw [toAttr] at hc; simp only at hc; rw [hc]; rfl)
    · rw [toAttr] at hc; simp only at hc; rw [hc] at g1; simp at g1; omega)]
  simp only [toAttr]
  rw [two_pow_log hM, g1, g2, dnum_back hpos, ← h4, ← h3]

/-- C184, for CKKS: reading gives the same ring dimension and the same moduli.  Missing: the level and
the number of digits. -/
theorem C184_ckks_partial {red : Bool} {a b l min k : Nat} {s : Scheme}
    (h : getCkks red a b l min k = some s) (hp : s.p ≠ []) :
    ∃ s', ofAttr (toAttr s) = some s' ∧ s'.ringDim = s.ringDim ∧ s'.q = s.q ∧ s'.p = s.p ∧
      s'.level = l := by
  obtain ⟨h1, h2, _⟩ := getCkks_spec h
  obtain ⟨g1, _⟩ := genCkks_spec (ringDim_ne h2) h1
  obtain ⟨M, hM, _⟩ := computeRingDim_iff.1 h2
  rw [ofAttr, if_neg (by
    rintro (hc | hc)
    · exact hp hc
    · rw [toAttr] at hc; simp only at hc; rw [hc] at g1; simp at g1)]
  refine ⟨_, rfl, two_pow_log hM, rfl, rfl, ?_⟩
  simp only [toAttr, g1, Nat.add_sub_cancel]

/-- C184 fails for CKKS, always: the level is one more than the level that is read back. -/
theorem C184_violated_ckks {red : Bool} {a b l min k : Nat} {s : Scheme}
    (h : getCkks red a b l min k = some s) : ofAttr (toAttr s) ≠ some s := by
  obtain ⟨h1, h2, h3, _⟩ := getCkks_spec h
  obtain ⟨g1, _⟩ := genCkks_spec (ringDim_ne h2) h1
  intro hc
  rw [ofAttr] at hc
  split at hc
  · simp at hc
  · have := congrArg (Option.map Scheme.level) hc
    simp only [Option.map_some, toAttr, g1, h3, Option.some.injEq] at this
    omega

/-- C184 fails for CKKS: seven digits are read back instead of three. -/
theorem C184_violated_dnum : ∃ s s', getCkks false 22 22 6 4096 1 = some s ∧
    ofAttr (toAttr s) = some s' ∧ s.dnum = 3 ∧ s'.dnum = 7 := by
  obtain ⟨P, h1, h2, h⟩ := ckks8192
  exact ⟨_, _, h, rfl, rfl, by simp [toAttr, ceilDiv]⟩

/-! ### C185: moduli for the noise -/

/-- C185: sizes are written past the end of the vector exactly if a level is larger than the number of
different levels of mod reductions. -/
theorem C185_defined (gaps : List (Nat × ℚ)) (bounds : List ℚ) :
    gapSizes gaps bounds = none ↔ ∃ e ∈ gaps, (gaps.map Prod.fst).toFinset.card < e.1 := by
  have hL := largest gaps
  have hlen := levelToGap_length gaps
  rw [gapSizes]
  constructor
  · intro h
    obtain ⟨l, h1, h2⟩ := writeSizes_none h
    simp only [List.length_set, List.length_replicate] at h2
    simp only [keys, List.mem_map, Prod.exists, exists_and_right, exists_eq_right] at h1
    obtain ⟨g, hg⟩ := h1
    exact ⟨(l, g), (hL.max _ _ hg).1, by simp only; omega⟩
  · rintro ⟨⟨l, g⟩, h1, h2⟩
    exact writeSizes_ub (hL.all _ _ h1) (by
      simp only [List.length_set, List.length_replicate]
      simp only at h2
      omega)

/-- C185, if levels are numbered without holes from one: each size is one more than the largest gap of
its level, rounded up, and the first size is two more than the bounds of level zero.  Missing: other
levels. -/
theorem C185_sizes_partial {gaps : List (Nat × ℚ)} (bounds : List ℚ)
    (h : ∀ e ∈ gaps, 1 ≤ e.1 ∧ e.1 ≤ (gaps.map Prod.fst).toFinset.card) :
    ∃ out, gapSizes gaps bounds = some out ∧ out.length = (gaps.map Prod.fst).toFinset.card + 1 ∧
      (∀ l g, (l, g) ∈ gaps → ∃ g', (l, g') ∈ gaps ∧ g ≤ g' ∧ out[l]? = some (1 + ⌈g'⌉)) ∧
      ∃ f, out[0]? = some f ∧ 0 ≤ f ∧ ∀ b ∈ bounds, 2 + ⌈b⌉ ≤ f := by
  have hL := largest gaps
  have hlen := levelToGap_length gaps
  have hk : ∀ l ∈ keys (levelToGap gaps), 1 ≤ l ∧ l ≤ (gaps.map Prod.fst).toFinset.card := by
    intro l hl
    simp only [keys, List.mem_map, Prod.exists, exists_and_right, exists_eq_right] at hl
    obtain ⟨g, hg⟩ := hl
    exact h _ (hL.max _ _ hg).1
  obtain ⟨out, h1, h2, h3, h4⟩ := writeSizes_some hL.nodup
    (v := (List.replicate ((levelToGap gaps).length + 1) 0).set 0 (firstModSize bounds)) (by
      intro l hl
      simp only [List.length_set, List.length_replicate]
      have := hk l hl
      omega)
  refine ⟨out, h1, by rw [h2, List.length_set, List.length_replicate, hlen], ?_, ?_⟩
  · intro l g hg
    have := hL.all _ _ hg
    simp only [keys, List.mem_map, Prod.exists, exists_and_right, exists_eq_right] at this
    obtain ⟨g', hg'⟩ := this
    exact ⟨g', (hL.max _ _ hg').1, (hL.max _ _ hg').2 g hg, h3 _ _ hg'⟩
  · refine ⟨firstModSize bounds, ?_, (firstModSize_ge bounds 0).1, (firstModSize_ge bounds 0).2⟩
    rw [h4 0 (fun hc => by have := (hk 0 hc).1; omega), List.getElem?_set_self (by simp)]

/-- C185, if levels are numbered without holes: each modulus is more than twice what a mod reduction at
its level takes off the noise, and the first one more than four times the noise at level zero.
Missing: other levels. -/
theorem C185_moduli_partial {gaps : List (Nat × ℚ)} (bounds : List ℚ)
    (h : ∀ e ∈ gaps, 1 ≤ e.1 ∧ e.1 ≤ (gaps.map Prod.fst).toFinset.card) {out : List Int}
    (ho : gapSizes gaps bounds = some out) {min t k : Nat} {s : Scheme}
    (hs : getConcrete (out.map (Int.cast : Int → ℚ)) min t k = some s) :
    s.level = (gaps.map Prod.fst).toFinset.card ∧
    (∀ l g, (l, g) ∈ gaps → ∃ r : Nat, s.q[l]? = some r ∧ (2 : ℝ) ^ (1 + (g : ℝ)) < r) ∧
    ∃ r : Nat, s.q[0]? = some r ∧ ∀ b ∈ bounds, (2 : ℝ) ^ (2 + (b : ℝ)) < r := by
  obtain ⟨out', h1, h2, h3, f, h4, h5, h6⟩ := C185_sizes_partial bounds h
  rw [ho, Option.some.injEq] at h1
  subst h1
  obtain ⟨c1, c2, _, _, _, c3, _⟩ := C182_bgv hs
  refine ⟨by rw [List.length_map] at c1; omega, ?_, ?_⟩
  · intro l g hg
    obtain ⟨g', _, hle, hget⟩ := h3 l g hg
    obtain ⟨r, hr, hr2, _⟩ := forall₂_get c3 (i := l) (x := ((1 + ⌈g'⌉ : Int) : ℚ)) (by
      rw [List.getElem?_map, hget]; rfl)
    rw [Int.floor_intCast] at hr2
    have := rpow_lt (c := 1) (g := g) (x := 1 + ⌈g'⌉) (by
      push_cast
      have := Int.le_ceil g'
      linarith) hr2
    exact ⟨r, hr, by simpa using this⟩
  · obtain ⟨r, hr, hr2, _⟩ := forall₂_get c3 (i := 0) (x := ((f : Int) : ℚ)) (by
      rw [List.getElem?_map, h4]; rfl)
    rw [Int.floor_intCast] at hr2
    refine ⟨r, hr, fun b hb => ?_⟩
    have := rpow_lt (c := 2) (g := b) (x := f) (by
      have h7 : ((2 + ⌈b⌉ : Int) : ℚ) ≤ f := by exact_mod_cast h6 b hb
      push_cast at h7 ⊢
      have := Int.le_ceil b
      linarith) hr2
    simpa using this

/-- C185 fails: a program whose only mod reduction is at level two. -/
theorem C185_violated_hole : gapSizes [(2, 3)] [] = none := by
  rw [C185_defined]
  exact ⟨(2, 3), by simp, by simp⟩

/-- C185, for BFV: the sizes are positive, at most the largest size, and add up to the bits asked for;
the moduli multiply to more. -/
theorem C185_bfv {modBits : Nat} (hb : 0 < modBits) {logQ : Int} (hq : 0 < logQ) :
    (noiseSizes modBits logQ).sum = logQ ∧ (∀ x ∈ noiseSizes modBits logQ, 1 ≤ x ∧ x ≤ modBits) ∧
    ∀ min t k s, getConcrete ((noiseSizes modBits logQ).map (Int.cast : Int → ℚ)) min t k = some s →
      2 ^ logQ.toNat < s.q.prod := by
  obtain ⟨h1, h2, h3⟩ := noiseSizes_spec hb hq
  refine ⟨h1, h3, fun min t k s hs => ?_⟩
  obtain ⟨_, _, _, _, _, c3, _⟩ := C182_bgv hs
  have hp := prod_gt c3 (by
    intro x hx
    obtain ⟨y, hy, rfl⟩ := List.mem_map.1 hx
    have := (h3 y hy).1
    exact_mod_cast (by omega : (0 : Int) ≤ y)) (by simpa using h2)
  have hsum := sum_floor (noiseSizes modBits logQ) fun x hx => by have := (h3 x hx).1; omega
  rw [h1] at hsum
  rwa [← hsum, Int.toNat_natCast]

example : gapSizes [(1, 20), (2, 41/2), (1, 65/3)] [25/2, 10] = some [15, 23, 22] := by decide +kernel

example : gapSizes [(1, 19), (2, 37/2)] [79/4] = some [22, 20, 20] ∧
    ∃ s, getConcrete (([22, 20, 20] : List Int).map (Int.cast : Int → ℚ)) 1024 65537 1 = some s := by
  refine ⟨by decide +kernel, scheme4096, ?_⟩
  rw [show ([22, 20, 20] : List Int).map (Int.cast : Int → ℚ) = sizes4096 by norm_num [sizes4096]]
  exact concrete4096

example : noiseSizes 45 100 = [45, 45, 10] := by decide +kernel

example : (noiseSizes 20 60).map (Int.cast : Int → ℚ) = [20, 20, 20] := by
  rw [show noiseSizes 20 60 = [20, 20, 20] by decide +kernel]; norm_num

/-! ### C186: measured against the first guess -/

/-- C186: with moduli of at most 60 bits the ring dimension is at most the one that was assumed for the
noise analysis, and the parameters have the same number of moduli, special moduli and digits. -/
theorem C186_smaller {logqi : List ℚ} {min t k : Nat} {s : Scheme}
    (h : getConcrete logqi min t k = some s) (hb : ∀ r ∈ s.q ++ s.p, r < 2 ^ 60) {N d n np : Nat}
    (hc : getConservative s.level min = some (N, d, n, np)) :
    s.ringDim ≤ N ∧ s.dnum = d ∧ s.q.length = n ∧ s.p.length = np := by
  obtain ⟨hne, h1, h2, h3, h4⟩ := getConcrete_spec h
  obtain ⟨g1, g2, _⟩ := genRlwe_spec (ringDim_ne h2) h1
  have hpos : 0 < logqi.length := List.length_pos_of_ne_nil hne
  simp only [getConservative, Option.map_eq_some_iff, Prod.mk.injEq] at hc
  obtain ⟨N', c1, rfl, rfl, rfl, rfl⟩ := hc
  have e : s.level + 1 = logqi.length := by omega
  have e2 : computeDnum s.level = computeDnum (logqi.length - 1) := by rw [h3]
  refine ⟨?_, by rw [h4, h3], by omega, by rw [g2, e, e2]⟩
  obtain ⟨M, c2, c3, c4, _⟩ := computeRingDim_iff.1 c1
  obtain ⟨_, _, _, _, hmin⟩ := computeRingDim_iff.1 h2
  refine hmin _ _ c2 c3 ?_
  have hne' : s.q ++ s.p ≠ [] := by
    intro hc
    simp only [List.append_eq_nil_iff] at hc
    rw [hc.1] at g1
    simp at g1
    omega
  have hlt := prod_lt_pow hne' hb
  rw [List.prod_append, List.length_append, g1, g2, ← e2, ← e] at hlt
  have hz : s.q.prod * s.p.prod ≠ 0 := by
    obtain ⟨_, _, _, c, _⟩ := C182_bgv h
    rw [← List.prod_append]
    intro hc
    exact absurd (c 0 (List.prod_eq_zero_iff.1 hc)).1.1 (by norm_num)
  have := (Nat.log_lt_iff_lt_pow (by norm_num) hz).2 hlt
  omega

example : ∀ r ∈ scheme4096.q ++ scheme4096.p, r < 2 ^ 60 := by decide +kernel

example : getConservative scheme4096.level 1024 = some (16384, 2, 3, 2) := by decide +kernel

end Heir.Params
