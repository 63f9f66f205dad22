import Verif.Kernel.Matvec
import Verif.NumTheory.Props

/-! # Bicyclic and tricyclic products: lemmas -/

namespace Heir.Kernel

open Heir.Dag Heir.Layout Heir.NumTheory Finset

/-! ## The rotation of the second operand -/

theorem toNat_ofNat64 {a : Nat} (h : a < 2 ^ 64) : (BitVec.ofNat 64 a).toNat = a := by
  rw [BitVec.toNat_ofNat, Nat.mod_eq_of_lt h]

theorem toInt_ofNat64 {a : Nat} (h : a < 2 ^ 63) : (BitVec.ofNat 64 a).toInt = a := by
  rw [BitVec.toInt_eq_toNat_of_lt] <;> rw [toNat_ofNat64 (by omega)]
  omega

theorem umod_ofNat64 {a b : Nat} (ha : a < 2 ^ 64) (hb : b < 2 ^ 64) :
    (BitVec.ofNat 64 a).umod (BitVec.ofNat 64 b) = BitVec.ofNat 64 (a % b) := by
  apply BitVec.eq_of_toNat_eq
  have h : a % b < 2 ^ 64 := lt_of_le_of_lt (Nat.mod_le _ _) ha
  rw [BitVec.umod_eq, BitVec.toNat_umod, toNat_ofNat64 ha, toNat_ofNat64 hb, toNat_ofNat64 h]

theorem srem_fix {a b M : Nat} (ha : a < 2 ^ 62) (hb : b < 2 ^ 62) (hM : 0 < M) (hM' : M < 2 ^ 62) :
    (if ((BitVec.ofNat 64 a - BitVec.ofNat 64 b).srem (BitVec.ofNat 64 M)).msb then
      (BitVec.ofNat 64 a - BitVec.ofNat 64 b).srem (BitVec.ofNat 64 M) + BitVec.ofNat 64 M
      else (BitVec.ofNat 64 a - BitVec.ofNat 64 b).srem (BitVec.ofNat 64 M)).toInt =
      ((a : Int) - b) % M := by
  have hsub : (BitVec.ofNat 64 a - BitVec.ofNat 64 b).toInt = (a : Int) - b := by
    rw [BitVec.toInt_sub, toInt_ofNat64 (by omega), toInt_ofNat64 (by omega)]
    apply Int.bmod_eq_of_le <;> omega
  have hr : ((BitVec.ofNat 64 a - BitVec.ofNat 64 b).srem (BitVec.ofNat 64 M)).toInt =
      ((a : Int) - b).tmod M := by
    rw [BitVec.toInt_srem, hsub, toInt_ofNat64 (by omega)]
  generalize (BitVec.ofNat 64 a - BitVec.ofNat 64 b).srem (BitVec.ofNat 64 M) = r at hr
  rw [Int.tmod_eq_emod] at hr
  have h0 := Int.emod_nonneg ((a : Int) - b) (show (M : Int) ≠ 0 by omega)
  have h1 := Int.emod_lt_of_pos ((a : Int) - b) (show (0 : Int) < M by omega)
  split at hr
  · rw [BitVec.msb_eq_toInt, hr]
    rw [if_neg (by simp only [decide_eq_true_eq]; push_cast; omega), hr]
    push_cast; omega
  · rw [BitVec.msb_eq_toInt, hr]
    simp only [Int.natAbs_natCast]
    rw [if_pos (by simp only [decide_eq_true_eq]; omega), BitVec.toInt_add, hr,
      toInt_ofNat64 (by omega), Int.natAbs_natCast]
    rw [show ((a : Int) - b) % M - M + M = ((a : Int) - b) % M by omega]
    apply Int.bmod_eq_of_le <;> omega

/-- In the absence of overflow the rotation is the positive representative of the formula. -/
theorem cyclicRot_eq {h m n p q b j i : Nat} (hmod : 0 < h * n * p) (hmod' : h * n * p < 2 ^ 62)
    (hn : n < 2 ^ 62) (hcmq : (j * b + i) * m * q < 2 ^ 62) (hper : h * m * b * j < 2 ^ 62) :
    cyclicRot (BitVec.ofNat 64 h) (BitVec.ofNat 64 m) (BitVec.ofNat 64 n) (BitVec.ofNat 64 p)
      (BitVec.ofNat 64 q) (BitVec.ofNat 64 (h * m)) b j i =
      (((j * b + i) * m * q % n * h * p : Nat) - (h * m * b * j : Nat) : Int) % (h * n * p : Nat) := by
  have hn0 : 0 < n := by
    rcases Nat.eq_zero_or_pos n with h0 | h0
    · subst h0; simp at hmod
    · exact h0
  have hlt : (j * b + i) * m * q % n * h * p < h * n * p := by
    have h1 := Nat.mod_lt ((j * b + i) * m * q) hn0
    have hp0 : 0 < h * p := by
      rcases Nat.eq_zero_or_pos (h * p) with h0 | h0
      · have : h * n * p = n * (h * p) := by ring
        rw [this, h0] at hmod; simp at hmod
      · exact h0
    calc _ = ((j * b + i) * m * q % n) * (h * p) := by ring
      _ < n * (h * p) := Nat.mul_lt_mul_of_pos_right h1 hp0
      _ = _ := by ring
  unfold cyclicRot
  simp only [← BitVec.ofNat_mul]
  rw [umod_ofNat64 (by omega) (by omega)]
  simp only [← BitVec.ofNat_mul]
  rw [umod_ofNat64 (by omega) (by omega), Nat.mod_eq_of_lt hlt]
  exact srem_fix (by omega) hper hmod (by omega)

/-! ## The product -/

variable {R : Type} {N : Nat} [CommRing R] [DecidableEq R] {ok : Int → Bool}

omit [DecidableEq R] in
/-- The sum over all steps at a slot of the valid prefix. -/
theorem cyclic_sum {h m n p q : Nat} (hn : 1 ≤ n) (hh : 1 ≤ h) (hp : 1 ≤ p) (hq : q ≤ n)
    (hcop : Nat.Coprime n (h * m)) (hinv : p * q ≡ 1 [MOD n]) (hN : N ≤ 2 ^ 31)
    (A B : Nat → Nat → Nat → R) (a b : Slots R N)
    (ha : ∀ k, k < N → a (k : ZMod N) = A (k % h) (k % m) (k % n))
    (hb : ∀ k, k < N → b (k : ZMod N) = B (k % h) (k % n) (k % p))
    (g : Nat) (s : Nat) (hs : s + (h * n * p - 1) + h * m * (n - 1) < N) :
    (∑ c ∈ range n,
      rot ((h * m : Nat) * (c / g : Nat) * (g : Int)) (rot (cyclicRot (BitVec.ofNat 64 h)
        (BitVec.ofNat 64 m) (BitVec.ofNat 64 n) (BitVec.ofNat 64 p) (BitVec.ofNat 64 q)
        (BitVec.ofNat 64 (h * m)) g (c / g) (c % g)) b) * rot (c * (h * m : Nat)) a) (s : ZMod N) =
      ∑ y ∈ range n, A (s % h) (s % m) y * B (s % h) y (s % p) := by
  have hmod : 0 < h * n * p := Nat.mul_pos (Nat.mul_pos hh hn) hp
  rw [Finset.sum_apply]
  rw [← sum_steps s hn hcop fun y => A (s % h) (s % m) y * B (s % h) y (s % p)]
  refine sum_congr rfl fun c hc => ?_
  have hc := mem_range.1 hc
  have hcm : c * (h * m) ≤ h * m * (n - 1) := by
    rw [Nat.mul_comm]; exact Nat.mul_le_mul_left _ (by omega)
  have hdm : c / g * g + c % g = c := by rw [Nat.mul_comm]; exact Nat.div_add_mod c g
  have hgj : h * m * g * (c / g) ≤ h * m * (n - 1) := by
    rw [Nat.mul_assoc]
    exact Nat.mul_le_mul_left _ (by rw [Nat.mul_comm]; omega)
  have hnN : n ≤ h * n * p := by
    calc n = 1 * n * 1 := by ring
      _ ≤ h * n * p := by gcongr
  have hcm' : c * m ≤ c * (h * m) := Nat.mul_le_mul_left _ (Nat.le_mul_of_pos_left _ hh)
  have hcmq : (c / g * g + c % g) * m * q < 2 ^ 62 := by
    rw [hdm]
    have h1 : c * m < 2 ^ 31 := by omega
    have h2 : q ≤ 2 ^ 31 := by omega
    calc c * m * q ≤ c * m * 2 ^ 31 := Nat.mul_le_mul_left _ h2
      _ < 2 ^ 31 * 2 ^ 31 := Nat.mul_lt_mul_of_pos_right h1 (by positivity)
      _ = 2 ^ 62 := by norm_num
  have hrot := cyclicRot_eq (h := h) (m := m) (n := n) (p := p) (q := q) (b := g) (j := c / g)
    (i := c % g) hmod (by omega) (by omega) hcmq (by omega)
  rw [hdm] at hrot
  -- the rotation amount as a natural number
  obtain ⟨ρ, hρ⟩ := Int.eq_ofNat_of_zero_le (Int.emod_nonneg
    (((c * m * q % n * h * p : Nat) : Int) - (h * m * g * (c / g) : Nat))
    (show ((h * n * p : Nat) : Int) ≠ 0 by omega))
  have hρlt : ρ < h * n * p := by
    have := Int.emod_lt_of_pos (((c * m * q % n * h * p : Nat) : Int) - (h * m * g * (c / g) : Nat))
      (show (0 : Int) < (h * n * p : Nat) by omega)
    rw [hρ] at this; exact_mod_cast this
  have hcong : ρ + h * m * g * (c / g) ≡ c * m * q % n * h * p [MOD h * n * p] := by
    rw [← Int.natCast_modEq_iff]
    have e : ((ρ : Nat) : Int) ≡ ((c * m * q % n * h * p : Nat) : Int) - (h * m * g * (c / g) : Nat)
        [ZMOD (h * n * p : Nat)] := by
      rw [← hρ]; exact Int.mod_modEq _ _
    have := e.add_right ((h * m * g * (c / g) : Nat) : Int)
    rw [sub_add_cancel] at this
    rw [Nat.cast_add]; exact this
  rw [hrot, hρ, Pi.mul_apply]
  have hA : rot ((c : Int) * (h * m : Nat)) a (s : ZMod N) = A (s % h) (s % m) ((s + c * (h * m)) % n) := by
    have : (c : Int) * (h * m : Nat) = ((c * (h * m) : Nat) : Int) := by push_cast; ring
    rw [this, rot_nat, ha _ (by omega)]
    congr 1
    · rw [show s + c * (h * m) = s + h * (c * m) by ring, Nat.add_mul_mod_self_left]
    · rw [show s + c * (h * m) = s + m * (c * h) by ring, Nat.add_mul_mod_self_left]
  have hB : rot (((h * m : Nat) : Int) * (c / g : Nat) * (g : Int)) (rot (ρ : Int) b) (s : ZMod N) =
      B (s % h) ((s + c * (h * m)) % n) (s % p) := by
    have : ((h * m : Nat) : Int) * (c / g : Nat) * (g : Int) = ((h * m * g * (c / g) : Nat) : Int) := by
      push_cast; ring
    rw [this, rot_nat, rot_nat, hb _ (by omega)]
    have key : ∀ d, d ∣ h * n * p →
        s + h * m * g * (c / g) + ρ ≡ s + c * m * q % n * h * p [MOD d] := by
      intro d hd
      have := (hcong.of_dvd hd).add_left s
      rw [show s + h * m * g * (c / g) + ρ = s + (ρ + h * m * g * (c / g)) by ring]
      exact this
    have e1 : (s + h * m * g * (c / g) + ρ) % h = s % h := by
      rw [key h ⟨n * p, by ring⟩, show s + c * m * q % n * h * p = s + h * (c * m * q % n * p) by ring,
        Nat.add_mul_mod_self_left]
    have e2 : (s + h * m * g * (c / g) + ρ) % p = s % p := by
      rw [key p ⟨h * n, by ring⟩, show s + c * m * q % n * h * p = s + p * (c * m * q % n * h) by ring,
        Nat.add_mul_mod_self_left]
    have e3 : (s + h * m * g * (c / g) + ρ) % n = (s + c * (h * m)) % n := by
      refine (key n ⟨h * p, by ring⟩).trans (Nat.ModEq.add_left s ?_)
      have : c * m * q % n * h * p ≡ c * m * q * h * p [MOD n] :=
        (Nat.ModEq.mul_right _ (Nat.ModEq.mul_right _ (Nat.mod_modEq _ _)))
      refine this.trans ?_
      have h2 : c * m * h * (p * q) ≡ c * m * h * 1 [MOD n] := hinv.mul_left _
      rw [show c * m * q * h * p = c * m * h * (p * q) by ring,
        show c * (h * m) = c * m * h * 1 by ring]
      exact h2
    rw [e1, e2, e3]
  rw [hA, hB, mul_comm]

theorem bsgs_ok {steps : Nat} (hs : 1 ≤ steps) (period : Int) (extr : Nat → KExpr R N)
    (P : Nat → Slots R N) (rotIdx : Nat → Nat → Nat → Int) (ve : KExpr R N) (v : Slots R N)
    {sp : Bool} (hP : ∀ env, ∀ c, c < steps → Ev ok env (extr c) (.vec sp (P c)))
    (hv : ∀ env, EvV ok env ve v) (hok : ∀ a, ok a = true) :
    ∃ e, bsgs steps period (fun _ => false) extr rotIdx ve = some e ∧ ∀ env,
      EvV ok env e (∑ c ∈ range steps,
        rot (period * (c / ceilSqrt steps : Nat) * (ceilSqrt steps : Int))
          (rot (rotIdx (ceilSqrt steps) (c / ceilSqrt steps) (c % ceilSqrt steps)) (P c)) *
        rot (c * period) v) := by
  unfold bsgs
  rw [if_neg (by omega)]
  refine ⟨_, rfl, fun env => ?_⟩
  have h1 := bsgsWith_ok (env := env) (b := ceilSqrt steps) (steps := steps) (period := period)
    (skip := fun _ => false) (P := P) (rotIdx := rotIdx (ceilSqrt steps)) (v := v)
    (extr := extr) (ve := ve) (hP env) (hv env) (fun _ _ _ _ _ => hok _)
    (fun _ _ _ => hok _) (fun _ _ => hok _)
  rw [bsgs_sum (ceilSqrt_pos hs) period _ P _ v (fun c =>
    rot (period * (c / ceilSqrt steps : Nat) * (ceilSqrt steps : Int))
          (rot (rotIdx (ceilSqrt steps) (c / ceilSqrt steps) (c % ceilSqrt steps)) (P c)))
    (fun c _ _ => rfl) (fun c _ h => by simp at h)] at h1
  exact h1

/-- The inverse used by the kernels. -/
theorem inverse_mod {p n : Nat} (hn : 1 ≤ n) (hn' : n < 2 ^ 64) (hp : p < 2 ^ 64)
    (hcop : Nat.Coprime n p) :
    ∃ q, q ≤ n ∧ p * q ≡ 1 [MOD n] ∧
      multiplicativeInverse ((BitVec.ofNat 64 p).umod (BitVec.ofNat 64 n)) (BitVec.ofNat 64 n) =
        some (BitVec.ofNat 64 q) := by
  rw [umod_ofNat64 hp hn']
  obtain h1 | h2 : n = 1 ∨ 2 ≤ n := by omega
  · subst h1
    refine ⟨0, by omega, by rw [Nat.ModEq, Nat.mod_one, Nat.mod_one], ?_⟩
    rw [Nat.mod_one]
    unfold multiplicativeInverse
    rw [invLoop]
    rfl
  · have hm : p % n < n := Nat.mod_lt _ (by omega)
    have e1 := toNat_ofNat64 hn'
    have e2 : (BitVec.ofNat 64 (p % n)).toNat = p % n := toNat_ofNat64 (by omega)
    obtain ⟨r, hr, hc, _⟩ := C01_multiplicativeInverse (x := BitVec.ofNat 64 (p % n))
      (m := BitVec.ofNat 64 n) (by omega) (by omega)
    rw [e1, e2] at hc
    have := hc (by
      rw [Nat.coprime_iff_gcd_eq_one, ← Nat.gcd_rec]
      exact hcop)
    refine ⟨r.toNat, by omega, ?_, by rw [hr]; simp⟩
    have h3 : p * r.toNat ≡ p % n * r.toNat [MOD n] := (Nat.mod_modEq p n).symm.mul_right _
    rw [Nat.mul_comm] at this
    exact h3.trans (by simpa [Nat.mul_comm] using this.2)

end Heir.Kernel
