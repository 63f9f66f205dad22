import Verif.Noise.Bound
import Verif.Noise.Ring
import Mathlib.Tactic.NormNum

/-! # Properties of the noise analysis -/

namespace Heir.Noise

variable {R : Type} [CommRing R] {N : Nat}

/-- Parameters whose number of digits was computed from the level count enough digits. -/
theorem C80_generated_digits (p : Params) (h : p.dnum = computeDnum (p.qi.length - 1)) (lvl : Nat) :
    digits p lvl ≤ numDigits p lvl := by
  unfold digits numDigits
  simp only
  rw [h]
  generalize p.qi.length = L
  unfold computeDnum
  have key : ∀ d, 0 < d → d ≤ 3 → (d = 3 → 4 < L) → (min (lvl + 1) L + (L + d - 1) / d - 1) / ((L + d - 1) / d) ≤
      (lvl + 1 + d - 1) / d + 1 := by
    intro d hd hd3 hL
    rcases Nat.eq_zero_or_pos L with rfl | hpos
    · have : (0 + d - 1) / d = 0 := Nat.div_eq_of_lt (by omega)
      rw [this]; simp
    generalize hα : (L + d - 1) / d = α
    have hαpos : 0 < α := by rw [← hα]; exact Nat.div_pos (by omega) hd
    have hLα : L ≤ d * α := by
      have := Nat.lt_div_mul_add (a := L + d - 1) hd
      rw [hα] at this
      have e1 : d * α = α * d := Nat.mul_comm _ _
      omega
    have hle : (min (lvl + 1) L + α - 1) / α ≤ d := by
      rw [Nat.div_le_iff_le_mul_add_pred hαpos]
      have : min (lvl + 1) L ≤ L := Nat.min_le_right _ _
      have e1 : d * α = α * d := Nat.mul_comm _ _
      omega
    have hone : 1 ≤ (lvl + 1 + d - 1) / d := Nat.div_pos (by omega) hd
    by_cases h3 : d = 3
    · subst h3
      by_cases h2 : (min (lvl + 1) L + α - 1) / α ≤ 2
      · omega
      · have hα2 : 2 ≤ α := by have := hL rfl; omega
        have : 3 * α ≤ min (lvl + 1) L + α - 1 := by
          have := (Nat.le_div_iff_mul_le hαpos).1 (show 3 ≤ (min (lvl + 1) L + α - 1) / α by omega)
          exact this
        have h5 : 5 ≤ lvl + 1 := by
          have : min (lvl + 1) L ≤ lvl + 1 := Nat.min_le_left _ _
          omega
        have : 2 ≤ (lvl + 1 + 3 - 1) / 3 := by omega
        omega
    · omega
  split
  · exact key 3 (by omega) (by omega) (by omega)
  · split
    · exact key 2 (by omega) (by omega) (by omega)
    · exact key 1 (by omega) (by omega) (by omega)

/-- The worst-case bound holds: whatever the program does to ciphertexts, the phase of every secret value is
congruent to something that stands for the message and is at most half a plaintext modulus larger than the plaintext
modulus times the bound.  Missing: the average-case variant, operations that inherit noise from one of several
secret operands, and parameters that count too few digits. -/
theorem C80_noise_bounded_partial (S : Size R N) (p : Params) (s : R) (rot : Nat → R → R) (V : Values R) (g : Prog)
    (hN : N = p.ringDim) (hp : p.Good) (hssa : SSA (· < g.nargs) g.ops)
    (hman : Managed (facts .worst p g) g) (hpick : PicksOne (facts .worst p g) g)
    (hdig : ∀ lvl, digits p lvl ≤ numDigits p lvl) (hrot : Rotations S rot)
    (hrun : Runs S p s rot (facts .worst p g) V g) (v : Nat) (hv : g.Value v)
    (hsec : (facts .worst p g v).sec = true) (e : ℚ) (he : (facts .worst p g v).noise = some e) (i : Nat) :
    ∃ x, Cong (modulus p (facts .worst p g v).lvl) (phase s (V.ct v i)) x ∧ Cong p.t x (V.msg v i) ∧
      (S.nrm x : ℚ) ≤ p.t * (e + 1 / 2) := by
  obtain ⟨x, h1, h2, h3, -⟩ := (noise_bound S p s rot V g hN hp hssa hman hpick hdig hrot hrun false (by simp) v hv
    hsec e he).2 i
  exact ⟨x, h1, h2, h3⟩

theorem modulusAt_eq {p : Params} {lvl q : Nat} (h : modulusAt p lvl = some q) : q = modulus p lvl := by
  unfold modulusAt at h
  split at h
  · cases h; rfl
  · cases h

theorem valid_value {v : Variant} {p : Params} {g : Prog} (h : validate v p g = true) {x : Nat} (hx : g.Value x)
    (hsec : (facts v p g x).sec = true) : ∃ e, (facts v p g x).noise = some e ∧
      e * p.t ≤ (modulus p (facts v p g x).lvl : ℚ) / 2 := by
  have hval : validValue p (facts v p g x) = true := by
    unfold validate at h
    rw [Bool.and_eq_true, List.all_eq_true, List.all_eq_true] at h
    rcases hx with hx | ⟨op, hop, rfl⟩
    · exact h.1 x (List.mem_range.2 hx)
    · exact h.2 op hop
  unfold validValue at hval
  rw [hsec] at hval
  simp only [Bool.not_true, Bool.false_or] at hval
  split at hval
  · rename_i e q he hq
    exact ⟨e, he, by rw [← modulusAt_eq hq]; simpa using hval⟩
  · cases hval

/-- A validated program decrypts correctly: every secret value does, if the moduli are odd and the value was computed
with an addition, a subtraction, a multiplication or an adjustment, or if the bound for fresh ciphertexts has half a
unit to spare.  Missing: fresh ciphertexts without room in the bound, and what `C80_noise_bounded_partial` leaves
out. -/
theorem C81_validated_decrypts_partial (S : Size R N) (p : Params) (s : R) (rot : Nat → R → R) (V : Values R)
    (g : Prog) (hN : N = p.ringDim) (hp : p.Good) (hodd : ∀ q ∈ p.qi, q % 2 = 1) (hssa : SSA (· < g.nargs) g.ops)
    (hman : Managed (facts .worst p g) g) (hpick : PicksOne (facts .worst p g) g)
    (hdig : ∀ lvl, digits p lvl ≤ numDigits p lvl) (hrot : Rotations S rot)
    (hrun : Runs S p s rot (facts .worst p g) V g) (hval : validate .worst p g = true) (v : Nat) (hv : g.Value v)
    (hsec : (facts .worst p g v).sec = true) (hc : p.Slack ∨ computed (facts .worst p g) g v = true) :
    Decrypts S p s (facts .worst p g) V v := by
  classical
  obtain ⟨e, he, hle⟩ := valid_value hval hv hsec
  intro i
  obtain ⟨x, h1, h2, -, h4⟩ := (noise_bound S p s rot V g hN hp hssa hman hpick hdig hrot hrun (decide p.Slack)
    (by simp) v hv hsec e he).2 i
  have h5 : (S.nrm x : ℚ) ≤ p.t * e := h4 (by rcases hc with hc | hc <;> simp [hc])
  generalize hQ : modulus p (facts .worst p g v).lvl = Q at *
  have hQodd : Q % 2 = 1 := by
    rw [← hQ]
    unfold modulus
    have : ∀ l : List Nat, (∀ q ∈ l, q % 2 = 1) → l.prod % 2 = 1 := by
      intro l
      induction l with
      | nil => simp
      | cons a l ih =>
        intro hl
        rw [List.prod_cons, Nat.mul_mod, hl a (by simp), ih fun q hq => hl q (by simp [hq])]
    exact this _ fun q hq => hodd q (List.mem_of_mem_take hq)
  have h6 : 2 * S.nrm x ≤ Q := by
    have : (2 : ℚ) * S.nrm x ≤ Q := by linarith
    exact_mod_cast this
  refine ⟨⟨x, h1, h6⟩, fun y hy hy2 => ?_⟩
  have : x = y := small_unique S (h1.symm.trans hy) (by omega)
  exact this ▸ h2

/-- The bounds of public-key encryption have room with the deviation of the code. -/
theorem slack_public (p : Params) (hN : 2 ≤ p.ringDim) (hs : p.std0 = 32 / 10) (hu : p.usePublicKey = true)
    (hx : p.extended = false) : p.Slack := by
  unfold Params.Slack errLimit
  rw [hs, hx]
  have : (2 : ℚ) ≤ p.ringDim := by exact_mod_cast hN
  exact ⟨hu, 19, by norm_num, by push_cast; linarith⟩

/-! ## A program -/

/-- A fresh ciphertext is multiplied with a plaintext, rotated, reduced and doubled. -/
def sample : Prog where
  nargs := 2
  secArg := fun v => v == 0
  argLvl := fun _ => 1
  argDim := fun _ => 2
  ops := [⟨.mul, [0, 1], 2, 1, 2⟩, ⟨.rotate 1, [2], 3, 1, 2⟩, ⟨.modReduce, [3], 4, 0, 2⟩, ⟨.add, [4, 4], 5, 0, 2⟩]

def sampleParams : Params where
  ringDim := 2
  root := 2
  t := 5
  qi := [43, 1009]
  pi := [2003]
  dnum := 2
  std0 := 32 / 10
  usePublicKey := false
  extended := false

/-- The message is two and the error one; the constants are two and the error of key switching one. -/
def sampleValues (R : Type) [CommRing R] : Values R where
  ct := fun v _ => [((match v with | 0 => 7 | 2 => 14 | 3 => 19 | 4 => 1 | _ => 2 : Nat) : R) - 3, 3]
  pt := fun v _ => if v = 1 then 2 else 0
  msg := fun v _ => ((match v with | 0 => 2 | 1 => 2 | 2 => 4 | 3 => 4 | 4 => 1 | 5 => 2 | _ => 0 : Nat) : R)

theorem nrm_cast (S : Size R N) (h1 : S.nrm 1 = 1) (k : Nat) : S.nrm (k : R) = k := by
  have := nrm_nat S k 1
  rwa [mul_one, h1, Nat.mul_one] at this

theorem phase_pair (a b : R) : phase 1 [a, b] = a + b := by simp [phase]

/-- Congruence of numbers. -/
theorem cong_cast {q a b : Nat} (k : Nat) (h : a = b + q * k) : Cong q (a : R) b := ⟨k, by rw [h]; push_cast; ring⟩

theorem sample_facts : (facts .worst sampleParams sample 0).sec = true ∧
    (facts .worst sampleParams sample 1).sec = false ∧ (facts .worst sampleParams sample 2).sec = true ∧
    (facts .worst sampleParams sample 3).sec = true ∧ (facts .worst sampleParams sample 4).sec = true ∧
    (facts .worst sampleParams sample 0).lvl = 1 ∧ (facts .worst sampleParams sample 2).lvl = 1 ∧
    (facts .worst sampleParams sample 3).lvl = 1 := by
  decide +kernel

theorem sample_plain {x : Nat} (h : (facts .worst sampleParams sample x).sec = false) : x = 1 ∨ 5 < x := by
  by_contra hx
  have : x = 0 ∨ x = 2 ∨ x = 3 ∨ x = 4 ∨ x = 5 := by omega
  have hall : ∀ y ∈ [0, 2, 3, 4, 5], (facts .worst sampleParams sample y).sec = true := by decide +kernel
  have := hall x (by rcases this with h | h | h | h | h <;> simp [h])
  rw [h] at this
  cases this

theorem sample_runs (S : Size R 2) (h1 : S.nrm 1 = 1) :
    Runs S sampleParams 1 (fun _ x => x) (facts .worst sampleParams sample) (sampleValues R) sample := by
  obtain ⟨s0, s1, s2, s3, s4, l0, l2, l3⟩ := sample_facts
  have two : S.nrm (2 : R) = 2 := nrm_cast S h1 2
  refine ⟨h1.le, ?_, ?_, ?_⟩
  · intro x hx hs i
    have : x = 0 := by
      have : x = 0 ∨ x = 1 := by have : x < 2 := hx; omega
      rcases this with h | h
      · exact h
      · rw [h, s1] at hs; cases hs
    subst this
    refine ⟨2, 1, by rw [two]; decide, ?_, Cong.refl _ _, ?_⟩
    · show (S.nrm (1 : R) : ℚ) ≤ errLimit sampleParams
      rw [h1]; norm_num [errLimit, sampleParams]
    · rw [show (sampleValues R).ct 0 i = [((7 : Nat) : R) - 3, 3] from rfl, phase_pair]
      exact ⟨0, by push_cast; simp only [sampleParams]; push_cast; ring⟩
  · intro x i hs
    rcases sample_plain hs with rfl | hx
    · exact ⟨by show 2 * S.nrm (2 : R) ≤ 5; rw [two]; decide, by
        show Cong 5 (2 : R) ((2 : Nat) : R)
        push_cast; exact Cong.refl _ _⟩
    · have e1 : (sampleValues R).pt x i = 0 := by simp [sampleValues, show x ≠ 1 by omega]
      have e2 : (sampleValues R).msg x i = 0 := by
        simp only [sampleValues]
        split <;> first | omega | simp
      rw [e1, e2]
      exact ⟨by rw [nrm_zero]; omega, Cong.refl _ _⟩
  · intro op hop _
    simp only [sample, List.mem_cons, List.not_mem_nil, or_false] at hop
    rcases hop with rfl | rfl | rfl | rfl
    · intro i
      simp only [List.getD_cons_zero, List.getD_cons_succ, Values.at, s0, s1, if_true, Bool.false_eq_true, if_false]
      refine ⟨⟨0, ?_⟩, ⟨0, ?_⟩⟩
      · simp only [sampleValues, phase_pair, if_true]; push_cast; ring
      · simp only [sampleValues]; push_cast; ring
    · intro i
      refine ⟨1, ⟨2, 2, [(1, 2)], 0, by omega, by omega, ?_, ?_, ⟨0, 0, by simp [nrm_zero], by simp [nrm_zero],
        by ring⟩, ?_⟩, ⟨0, ?_⟩, ⟨0, ?_⟩⟩
      · simp only [List.getD_cons_zero, l2, List.length_singleton]
        decide
      · intro d hd
        simp only [List.mem_singleton] at hd
        subst hd
        exact ⟨by rw [h1], by
          show (S.nrm (2 : R) : ℚ) ≤ errLimit sampleParams
          rw [two]; norm_num [errLimit, sampleParams]⟩
      · simp
      · simp only [List.getD_cons_zero, sampleValues, phase_pair, sampleParams]; push_cast; ring
      · simp only [List.getD_cons_zero, sampleValues]; push_cast; ring
    · intro i q hq
      simp only [List.getD_cons_zero] at hq ⊢
      rw [l3] at hq ⊢
      have hq' : q = 1009 := by simpa [sampleParams] using hq.symm
      subst hq'
      have h198 : S.nrm (198 : R) = 198 := nrm_cast S h1 198
      refine ⟨198, ⟨198, 0, by rw [h198]; omega, by simp [nrm_zero], by ring⟩, ⟨0, ?_⟩, ⟨201, ?_⟩⟩
      · simp only [sampleValues, phase_pair, sampleParams]; push_cast; ring
      · simp only [sampleValues, sampleParams]; push_cast; ring
    · intro i
      simp only [List.getD_cons_zero, List.getD_cons_succ, Values.at, s4, if_true]
      refine ⟨⟨0, ?_⟩, ⟨0, ?_⟩⟩
      · simp only [sampleValues, phase_pair]; push_cast; ring
      · simp only [sampleValues]; push_cast; ring

theorem sample_good : sampleParams.Good :=
  ⟨⟨1, rfl⟩, by decide, by norm_num [sampleParams], by decide⟩

theorem sample_ssa : SSA (· < sample.nargs) sample.ops := by simp [sample, SSA]

theorem sample_managed : Managed (facts .worst sampleParams sample) sample := by
  have : ∀ op ∈ sample.ops, (facts .worst sampleParams sample op.res).sec = true → ∀ a ∈ op.args,
      (facts .worst sampleParams sample a).sec = true →
      (if op.kind = .modReduce then (facts .worst sampleParams sample a).lvl = op.lvl + 1
        else (facts .worst sampleParams sample a).lvl = op.lvl) := by decide +kernel
  intro op hop h a ha hs
  have h2 := this op hop h a ha hs
  split at h2
  · rename_i hk; rw [hk]; exact h2
  · rename_i hk
    split
    · rename_i hk'; exact absurd hk' hk
    · exact h2.ge
    · exact h2

theorem sample_picks : PicksOne (facts .worst sampleParams sample) sample := by
  have : ∀ op ∈ sample.ops, op.kind ≠ .pick := by decide +kernel
  exact fun op hop hk => absurd hk (this op hop)

theorem id_rotations (S : Size R N) : Rotations S fun _ x => x := fun _ => ⟨fun _ _ => rfl, fun _ _ => rfl, fun _ => le_rfl⟩

/-- The program validates with the noises one expects, and its result decrypts in the ring of BGV. -/
example : validate .worst sampleParams sample = true ∧
    (facts .worst sampleParams sample 2).noise = some 101 ∧
    (facts .worst sampleParams sample 3).noise = some (1409 / 10) ∧
    Decrypts (rqSize (N := 2) (by omega)) sampleParams 1 (facts .worst sampleParams sample) (sampleValues _) 5 :=
  ⟨by decide +kernel, by decide +kernel, by decide +kernel,
    C81_validated_decrypts_partial _ _ _ _ _ _ rfl sample_good (by decide) sample_ssa sample_managed sample_picks
      (C80_generated_digits _ rfl) (id_rotations _) (sample_runs _ (height_one _)) (by decide +kernel) 5
      (Or.inr ⟨⟨.add, [4, 4], 5, 0, 2⟩, by simp [sample], rfl⟩) (by decide +kernel) (Or.inr (by decide +kernel))⟩

/-! ## Where the analysis is wrong -/

/-- The noise budget ignores the message: a fresh ciphertext, encrypted under the secret key with an error below the
bound, validates but decrypts to something else, in every ring dimension. -/
theorem C81_fresh_violated (N : Nat) (hN : 0 < N) (h2 : 2 ∣ N) : ∃ (p : Params) (g : Prog) (s : Rq N) (V : Values (Rq N)),
    p.ringDim = N ∧ p.std0 = 32 / 10 ∧ p.Good ∧ (∀ q ∈ p.qi, q % 2 = 1) ∧
      (∀ lvl, digits p lvl ≤ numDigits p lvl) ∧ SSA (· < g.nargs) g.ops ∧ g.ops = [] ∧
      Runs (rqSize hN) p s (fun _ x => x) (facts .worst p g) V g ∧ validate .worst p g = true ∧
      g.Value 0 ∧ (facts .worst p g 0).sec = true ∧ ¬ Decrypts (rqSize hN) p s (facts .worst p g) V 0 := by
  have h1 : (rqSize hN).nrm 1 = 1 := height_one hN
  let p : Params := ⟨N, 1, 5, [193], [], 1, 32 / 10, false, false⟩
  let g : Prog := ⟨1, fun _ => true, fun _ => 0, fun _ => 2, []⟩
  have hf : ∀ x, facts .worst p g x = if x < 1 then ⟨true, 0, 2, some (192 / 10)⟩ else {} := by
    intro x
    show entry .worst p g x = _
    simp only [entry, evalEncrypt, evalEncryptSk, boundErr, p, g, if_true, Bool.false_eq_true, if_false]
    norm_num
  refine ⟨p, g, 0, ⟨fun _ _ => [((97 : Nat) : Rq N)], fun _ _ => 0, fun x _ => if x = 0 then ((2 : Nat) : Rq N) else 0⟩,
    rfl, rfl, ⟨h2, by norm_num [p], by norm_num [p], by simp only [p]; decide⟩, by simp only [p]; decide,
    C80_generated_digits _ rfl, trivial, rfl, ⟨?_, ?_, ?_, ?_⟩, ?_, Or.inl (by decide), by rw [hf]; rfl, ?_⟩
  · rw [nrm_zero]; omega
  · intro x hx _ i
    have : x = 0 := by have : x < 1 := hx; omega
    subst this
    refine ⟨((2 : Nat) : Rq N), ((19 : Nat) : Rq N), ?_, ?_, Cong.refl _ _, ⟨0, ?_⟩⟩
    · rw [nrm_cast _ h1]; show 4 ≤ 5; omega
    · show (((rqSize hN).nrm ((19 : Nat) : Rq N) : Nat) : ℚ) ≤ errLimit p
      rw [nrm_cast _ h1]; norm_num [errLimit, p]
    · simp only [phase, p]; push_cast; ring
  · intro x i hs
    rw [hf] at hs
    have : x ≠ 0 := by rintro rfl; simp at hs
    simp only [this, if_false]
    exact ⟨by rw [nrm_zero]; omega, Cong.refl _ _⟩
  · intro op hop
    cases hop
  · have : validate .worst p g = validValue p ⟨true, 0, 2, some (192 / 10)⟩ := by
      unfold validate
      rw [show List.range g.nargs = [0] from rfl]
      simp only [List.all_cons, List.all_nil, hf]
      simp [g]
    rw [this]
    have hm : modulusAt p 0 = some 193 := by simp [modulusAt, p]
    unfold validValue
    simp only [hm, p]
    norm_num
  · intro hd
    obtain ⟨-, h⟩ := hd 0
    have hl : modulus p (facts .worst p g 0).lvl = 193 := by rw [hf]; simp [modulus, p]
    rw [hl] at h
    have h3 := h (-((96 : Nat) : Rq N)) ⟨1, by simp only [phase]; push_cast; ring⟩ (by
      rw [nrm_neg, nrm_cast _ h1]; omega)
    simp only [if_true] at h3
    have h4 : Cong (R := Rq N) 5 ((3 : Nat) : Rq N) 0 := by
      obtain ⟨c, hc⟩ := h3
      refine ⟨-c - 19, ?_⟩
      have : p.t = 5 := rfl
      rw [this] at hc
      push_cast at hc ⊢
      linear_combination (-1) * hc
    have := small_unique (rqSize hN) h4 (by rw [nrm_cast _ h1, nrm_zero]; omega)
    have h5 := nrm_cast _ h1 3
    rw [this, nrm_zero] at h5
    omega

/-- A fresh tile is inserted among squares of it and the result is squared.  The analysis takes the noise of the
tile. -/
def inserted : Prog where
  nargs := 1
  secArg := fun _ => true
  argLvl := fun _ => 0
  argDim := fun _ => 2
  ops := [⟨.mul, [0, 0], 1, 0, 2⟩, ⟨.pick, [0, 1], 2, 0, 2⟩, ⟨.mul, [2, 2], 3, 0, 2⟩]

def insertedParams : Params := ⟨2, 2, 5, [40009], [], 1, 32 / 10, false, false⟩

def insertedValues (R : Type) [CommRing R] : Values R where
  ct := fun v _ => [((match v with | 0 => 97 | 1 => 9409 | 2 => 9409 | _ => 88529281 : Nat) : R)]
  pt := fun _ _ => 0
  msg := fun v _ => ((match v with | 0 => 2 | 1 => 4 | 2 => 4 | 3 => 16 | _ => 0 : Nat) : R)

/-- `tensor.insert_slice` takes the noise of the tile it inserts and forgets the noise of the tensor it inserts it
into: a program that validates decrypts to something else. -/
theorem C80_insert_violated : ∃ (p : Params) (g : Prog) (s : Rq 2) (V : Values (Rq 2)), p.ringDim = 2 ∧ p.Good ∧
    (∀ q ∈ p.qi, q % 2 = 1) ∧ SSA (· < g.nargs) g.ops ∧ Managed (facts .worst p g) g ∧
    (∀ lvl, digits p lvl ≤ numDigits p lvl) ∧
    Runs (rqSize (N := 2) (by omega)) p s (fun _ x => x) (facts .worst p g) V g ∧ validate .worst p g = true ∧
    (∃ v e, g.Value v ∧ (facts .worst p g v).sec = true ∧ (facts .worst p g v).noise = some e ∧
      ¬ ∃ x, Cong (modulus p (facts .worst p g v).lvl) (phase s (V.ct v 0)) x ∧
        ((rqSize (N := 2) (by omega)).nrm x : ℚ) ≤ p.t * (e + 1 / 2)) ∧
    ∃ v, g.Value v ∧ computed (facts .worst p g) g v = true ∧
      ¬ Decrypts (rqSize (N := 2) (by omega)) p s (facts .worst p g) V v := by
  have h1 : (rqSize (N := 2) (by omega)).nrm 1 = 1 := height_one _
  generalize hS : rqSize (N := 2) (by omega) = S at *
  have hsec : ∀ v ∈ [0, 1, 2, 3], (facts .worst insertedParams inserted v).sec = true ∧
      (facts .worst insertedParams inserted v).lvl = 0 := by decide +kernel
  have hlt : ∀ x, (facts .worst insertedParams inserted x).sec = false → 3 < x := by
    intro x hx
    by_contra hc
    have := (hsec x (by
      have : x = 0 ∨ x = 1 ∨ x = 2 ∨ x = 3 := by omega
      rcases this with h | h | h | h <;> simp [h])).1
    rw [hx] at this
    cases this
  have hmod : modulus insertedParams 0 = 40009 := by decide
  refine ⟨insertedParams, inserted, 0, insertedValues _, rfl, ⟨⟨1, rfl⟩, by decide, by norm_num [insertedParams],
    by decide⟩, by decide, by simp [inserted, SSA], ?_, C80_generated_digits _ rfl, ⟨?_, ?_, ?_, ?_⟩,
    by decide +kernel, ?_, ?_⟩
  · have : ∀ op ∈ inserted.ops, op.kind ≠ .modReduce ∧ op.kind ≠ .levelReduce ∧ ∀ a ∈ op.args,
        (facts .worst insertedParams inserted a).lvl = op.lvl := by decide +kernel
    intro op hop _ a ha _
    obtain ⟨k1, k2, h⟩ := this op hop
    split
    · rename_i hk; exact absurd hk k1
    · rename_i hk; exact absurd hk k2
    · exact h a ha
  · rw [nrm_zero]; omega
  · intro x hx _ i
    have : x = 0 := by have : x < 1 := hx; omega
    subst this
    refine ⟨((2 : Nat) : Rq 2), ((19 : Nat) : Rq 2), ?_, ?_, Cong.refl _ _, ⟨0, ?_⟩⟩
    · rw [nrm_cast _ h1]; decide
    · show ((S.nrm ((19 : Nat) : Rq 2) : Nat) : ℚ) ≤ errLimit insertedParams
      rw [nrm_cast _ h1]; norm_num [errLimit, insertedParams]
    · simp only [phase, insertedParams, insertedValues]; push_cast; ring
  · intro x i hs
    have := hlt x hs
    have e2 : (insertedValues (Rq 2)).msg x i = 0 := by
      simp only [insertedValues]
      split <;> first | omega | simp
    rw [e2]
    exact ⟨by rw [show (insertedValues (Rq 2)).pt x i = 0 from rfl, nrm_zero]; omega, Cong.refl _ _⟩
  · intro op hop _
    simp only [inserted, List.mem_cons, List.not_mem_nil, or_false] at hop
    rcases hop with rfl | rfl | rfl
    · intro i
      simp only [List.getD_cons_zero, List.getD_cons_succ, Values.at, (hsec 0 (by simp)).1, if_true]
      refine ⟨⟨0, ?_⟩, ⟨0, ?_⟩⟩
      · simp only [insertedValues, phase]; push_cast; ring
      · simp only [insertedValues]; push_cast; ring
    · intro i
      exact ⟨1, by simp, (hsec 1 (by simp)).1, 0, rfl, rfl⟩
    · intro i
      simp only [List.getD_cons_zero, List.getD_cons_succ, Values.at, (hsec 2 (by simp)).1, if_true]
      refine ⟨⟨0, ?_⟩, ⟨0, ?_⟩⟩
      · simp only [insertedValues, phase]; push_cast; ring
      · simp only [insertedValues]; push_cast; ring
  · refine ⟨2, 192 / 10, Or.inr ⟨⟨.pick, [0, 1], 2, 0, 2⟩, by simp [inserted], rfl⟩, (hsec 2 (by simp)).1,
      by decide +kernel, ?_⟩
    rintro ⟨x, hx, hn⟩
    rw [(hsec 2 (by simp)).2, hmod] at hx
    have e1 : phase 0 ((insertedValues (Rq 2)).ct 2 0) = ((9409 : Nat) : Rq 2) := by simp [insertedValues, phase]
    rw [e1] at hx
    have hn' : S.nrm x ≤ 98 := by
      have : (S.nrm x : ℚ) < 99 := lt_of_le_of_lt hn (by norm_num [insertedParams])
      have : S.nrm x < 99 := by exact_mod_cast this
      omega
    have := small_unique S hx (by rw [nrm_cast _ h1]; omega)
    rw [← this, nrm_cast _ h1] at hn'
    omega
  · refine ⟨3, Or.inr ⟨⟨.mul, [2, 2], 3, 0, 2⟩, by simp [inserted], rfl⟩, by decide +kernel, ?_⟩
    intro hd
    obtain ⟨-, h⟩ := hd 0
    rw [(hsec 3 (by simp)).2, hmod] at h
    have h3 := h (-((10636 : Nat) : Rq 2)) ⟨2213, by simp only [phase, insertedValues]; push_cast; ring⟩ (by
      rw [nrm_neg, nrm_cast _ h1]; omega)
    have h4 : Cong (R := Rq 2) 5 ((2 : Nat) : Rq 2) 0 := by
      obtain ⟨c, hc⟩ := h3
      refine ⟨-c - 2130, ?_⟩
      simp only [insertedValues, insertedParams] at hc
      push_cast at hc ⊢
      linear_combination (-1) * hc
    have := small_unique S h4 (by rw [nrm_cast _ h1, nrm_zero]; omega)
    have h5 := nrm_cast _ h1 2
    rw [this, nrm_zero] at h5
    omega

/-- A rotation of a fresh ciphertext with eight moduli and one special modulus. -/
def switched : Prog where
  nargs := 1
  secArg := fun _ => true
  argLvl := fun _ => 7
  argDim := fun _ => 2
  ops := [⟨.rotate 1, [0], 1, 7, 2⟩]

def switchedParams : Params where
  ringDim := 2
  root := 2
  t := 5
  qi := [101, 103, 107, 109, 113, 127, 131, 137]
  pi := [139]
  dnum := dnumFromAttr [101, 103, 107, 109, 113, 127, 131, 137] [139]
  std0 := 32 / 10
  usePublicKey := false
  extended := false

/-- The number of digits taken from the moduli of the attribute is the number of groups, but the analysis takes it
for the size of a group: with eight moduli and one special modulus key switching has eight digits, the analysis
counts two, and the bound is wrong. -/
theorem C80_digits_violated : ∃ (p : Params) (g : Prog) (s : Rq 2) (V : Values (Rq 2)), p.ringDim = 2 ∧ p.Good ∧
    p.dnum = dnumFromAttr p.qi p.pi ∧ SSA (· < g.nargs) g.ops ∧ Managed (facts .worst p g) g ∧
    PicksOne (facts .worst p g) g ∧
    Runs (rqSize (N := 2) (by omega)) p s (fun _ x => x) (facts .worst p g) V g ∧ validate .worst p g = true ∧
    ∃ v e, g.Value v ∧ (facts .worst p g v).sec = true ∧ (facts .worst p g v).noise = some e ∧
      ¬ ∃ x, Cong (modulus p (facts .worst p g v).lvl) (phase s (V.ct v 0)) x ∧
        ((rqSize (N := 2) (by omega)).nrm x : ℚ) ≤ p.t * (e + 1 / 2) := by
  have h1 : (rqSize (N := 2) (by omega)).nrm 1 = 1 := height_one _
  generalize hS : rqSize (N := 2) (by omega) = S at *
  have hsec : ∀ v ∈ [0, 1], (facts .worst switchedParams switched v).sec = true ∧
      (facts .worst switchedParams switched v).lvl = 7 := by decide +kernel
  have hlt : ∀ x, (facts .worst switchedParams switched x).sec = false → 1 < x := by
    intro x hx
    by_contra hc
    have := (hsec x (by
      have : x = 0 ∨ x = 1 := by omega
      rcases this with h | h <;> simp [h])).1
    rw [hx] at this
    cases this
  refine ⟨switchedParams, switched, 0,
    ⟨fun v _ => [((match v with | 0 => 97 | _ => 477 : Nat) : Rq 2)], fun _ _ => 0, fun v _ => if v ≤ 1 then 2 else 0⟩,
    rfl, ⟨⟨1, rfl⟩, by decide, by norm_num [switchedParams], by decide⟩, rfl, by simp [switched, SSA], ?_, ?_,
    ⟨?_, ?_, ?_, ?_⟩, by decide +kernel, ?_⟩
  · have : ∀ op ∈ switched.ops, op.kind ≠ .modReduce ∧ op.kind ≠ .levelReduce ∧ ∀ a ∈ op.args,
        (facts .worst switchedParams switched a).lvl = op.lvl := by decide +kernel
    intro op hop _ a ha _
    obtain ⟨k1, k2, h⟩ := this op hop
    split
    · rename_i hk; exact absurd hk k1
    · rename_i hk; exact absurd hk k2
    · exact h a ha
  · have : ∀ op ∈ switched.ops, op.kind ≠ .pick := by decide +kernel
    exact fun op hop hk => absurd hk (this op hop)
  · rw [nrm_zero]; omega
  · intro x hx _ i
    have : x = 0 := by have : x < 1 := hx; omega
    subst this
    refine ⟨((2 : Nat) : Rq 2), ((19 : Nat) : Rq 2), ?_, ?_, ⟨0, ?_⟩, ⟨0, ?_⟩⟩
    · rw [nrm_cast _ h1]; decide
    · show ((S.nrm ((19 : Nat) : Rq 2) : Nat) : ℚ) ≤ errLimit switchedParams
      rw [nrm_cast _ h1]; norm_num [errLimit, switchedParams]
    · simp
    · simp only [phase, switchedParams]; push_cast; ring
  · intro x i hs
    have := hlt x hs
    simp only [show ¬ x ≤ 1 by omega, if_false]
    exact ⟨by rw [nrm_zero]; omega, Cong.refl _ _⟩
  · intro op hop _
    simp only [switched, List.mem_cons, List.not_mem_nil, or_false] at hop
    subst hop
    intro i
    refine ⟨((76 : Nat) : Rq 2), ⟨2, 2, List.replicate 8 (1, ((19 : Nat) : Rq 2)), 0, by omega, by omega, ?_, ?_,
      ⟨0, 0, by simp [nrm_zero], by simp [nrm_zero], by ring⟩, ?_⟩, ⟨0, ?_⟩, ⟨0, ?_⟩⟩
    · simp only [List.getD_cons_zero, (hsec 0 (by simp)).2, List.length_replicate]
      decide
    · intro d hd
      rw [List.eq_of_mem_replicate hd]
      exact ⟨by rw [h1], by rw [nrm_cast _ h1]; norm_num [errLimit, switchedParams]⟩
    · simp [List.replicate]; ring
    · simp only [List.getD_cons_zero, phase, switchedParams]; push_cast; ring
    · simp
  · refine ⟨1, 591 / 10, Or.inr ⟨⟨.rotate 1, [0], 1, 7, 2⟩, by simp [switched], rfl⟩, (hsec 1 (by simp)).1,
      by decide +kernel, ?_⟩
    rintro ⟨x, hx, hn⟩
    rw [(hsec 1 (by simp)).2] at hx
    have e1 : phase 0 [((477 : Nat) : Rq 2)] = ((477 : Nat) : Rq 2) := by simp [phase]
    simp only [e1] at hx
    have hn' : S.nrm x ≤ 298 := by
      have : (S.nrm x : ℚ) < 299 := lt_of_le_of_lt hn (by norm_num [switchedParams])
      have : S.nrm x < 299 := by exact_mod_cast this
      omega
    have hbig : 1000 < modulus switchedParams 7 := by decide
    have := small_unique S hx (by rw [nrm_cast _ h1]; omega)
    rw [← this, nrm_cast _ h1] at hn'
    omega

end Heir.Noise
