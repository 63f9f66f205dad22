import Verif.NumTheory.Model
import Mathlib.Data.ZMod.Basic
import Mathlib.FieldTheory.Finite.Basic
import Mathlib.RingTheory.IntegralDomain
import Mathlib.GroupTheory.OrderOfElement
import Mathlib.Tactic.Ring
import Mathlib.Tactic.Linarith
import Mathlib.Tactic.NormNum
import Mathlib.Tactic.NormNum.Prime

/-! Helper lemmas for `APIntUtils` / `MathUtils`. -/

namespace Heir.NumTheory

variable {w : Nat}

theorem ofInt_sub (x y : Int) : BitVec.ofInt w x - BitVec.ofInt w y = BitVec.ofInt w (x - y) := by
  rw [Int.sub_eq_add_neg, BitVec.ofInt_add, BitVec.ofInt_neg, BitVec.sub_eq_add_neg]

theorem ofInt_toNat (a : BitVec w) : BitVec.ofInt w (a.toNat : Int) = a := by
  simp

theorem pos_of_ne {a : BitVec w} (h : a ≠ 0#w) : 0 < a.toNat := by
  rcases Nat.eq_zero_or_pos a.toNat with h0 | h0
  · exact absurd (BitVec.eq_of_toNat_eq (by simpa using h0)) h
  · exact h0

theorem ne_of_pos {a : BitVec w} (h : 0 < a.toNat) : a ≠ 0#w := by rintro rfl; simp at h

/-- Invariant of the extended Euclid loop. -/
theorem invLoop_spec (x m : Nat) (rA rB tA tB : BitVec w) (s : Int) (a b : Nat)
    (hs : s = 1 ∨ s = -1)
    (htA : tA = BitVec.ofInt w (-s * a)) (htB : tB = BitVec.ofInt w (s * b))
    (hm : b * rA.toNat + a * rB.toNat = m) (hlt : rB.toNat < rA.toNat)
    (hab : a ≤ b) (hab2 : rB.toNat = 0 → 2 * a ≤ b)
    (cA : (-s * a) * x ≡ rA.toNat [ZMOD m]) (cB : (s * b) * x ≡ rB.toNat [ZMOD m]) :
    ∃ z : Int, (invLoop rA rB tA tB).2 = BitVec.ofInt w z ∧
      (invLoop rA rB tA tB).1.toNat = Nat.gcd rA.toNat rB.toNat ∧
      z * x ≡ (Nat.gcd rA.toNat rB.toNat : Nat) [ZMOD m] ∧
      2 * |z| * (Nat.gcd rA.toNat rB.toNat : Nat) ≤ m := by
  induction hn : rB.toNat using Nat.strongRecOn generalizing rA rB tA tB s a b with
  | _ n ih =>
    by_cases h0 : rB = 0#w
    · subst h0
      have hz : n = 0 := by simpa using hn.symm
      subst hz
      unfold invLoop
      simp only [BitVec.toNat_ofNat, Nat.zero_mod, Nat.mul_zero, Nat.add_zero, Nat.gcd_zero_right,
        dite_true, true_implies] at *
      refine ⟨-s * a, htA, trivial, cA, ?_⟩
      have habs : |(-s * a : Int)| = a := by
        rcases hs with rfl | rfl <;> simp
      rw [habs, ← hm]
      push_cast
      exact mul_le_mul_of_nonneg_right (by exact_mod_cast hab2) (by positivity)
    · have hpos := pos_of_ne h0
      set q := rA.toNat / rB.toNat with hq
      have hq1 : 1 ≤ q := Nat.div_pos hlt.le hpos
      have hmod := Nat.div_add_mod rA.toNat rB.toNat
      rw [← hq] at hmod
      have hr : (rA % rB).toNat = rA.toNat % rB.toNat := BitVec.toNat_umod
      have hlt' : rA.toNat % rB.toNat < rB.toNat := Nat.mod_lt _ hpos
      have hqw : (rA / rB) = BitVec.ofInt w q := by
        rw [← ofInt_toNat (rA / rB), BitVec.toNat_udiv, ← hq]
      obtain ⟨z, h1, h2, h3, h4⟩ := ih (rA.toNat % rB.toNat) (by omega) rB (rA % rB) tB
        (tA - tB * (rA / rB)) (-s) b (a + q * b) (by rcases hs with rfl | rfl <;> simp)
        (by rw [htB]; congr 1; ring)
        (by
          rw [htA, htB, hqw, ← BitVec.ofInt_mul, ofInt_sub]; congr 1; push_cast; ring)
        (by
          rw [hr, ← hm]
          conv_rhs => rw [← hmod]
          ring)
        (by rw [hr]; exact hlt')
        (by nlinarith)
        (by
          rw [hr]; intro hz
          have hq2 : 2 ≤ q := by
            by_contra hc
            have : q = 1 := by omega
            rw [this, hz] at hmod; omega
          nlinarith)
        (by simpa using cB)
        (by
          rw [hr]
          have e1 : ((rA.toNat % rB.toNat : Nat) : Int) = rA.toNat - rB.toNat * q := by
            have : (rA.toNat : Int) = rB.toNat * q + (rA.toNat % rB.toNat : Nat) := by
              exact_mod_cast hmod.symm
            linarith
          rw [e1]
          have e2 : (-s * ((a + q * b : Nat) : Int)) * x = (-s * a) * x - ((s * b) * x) * q := by
            push_cast; ring
          rw [e2]
          exact cA.sub (cB.mul_right _))
        hr
      have hg : Nat.gcd rB.toNat (rA.toNat % rB.toNat) = Nat.gcd rA.toNat rB.toNat := by
        rw [Nat.gcd_comm rA.toNat, Nat.gcd_rec rB.toNat rA.toNat, Nat.gcd_comm]
      rw [← hn]
      unfold invLoop
      simp only [h0, dite_false]
      rw [hg] at h2 h3 h4
      exact ⟨z, h1, h2, h3, h4⟩

/-! ### modular multiplication / exponentiation -/

theorem setWidth_toNat_of_le' {w' : Nat} (h : w ≤ w') (a : BitVec w) :
    (a.setWidth w').toNat = a.toNat := by
  rw [BitVec.toNat_setWidth]
  exact Nat.mod_eq_of_lt (lt_of_lt_of_le a.isLt (Nat.pow_le_pow_right (by norm_num) h))

theorem modMul_some {a b m : BitVec w} (hm : 0 < m.toNat) :
    ∃ r, modMul a b m = some r ∧ r.toNat = a.toNat * b.toNat % m.toNat := by
  have hw : w ≤ w * 2 := by omega
  refine ⟨_, by rw [modMul, if_neg (ne_of_pos hm)], ?_⟩
  rw [BitVec.toNat_setWidth]
  simp only [BitVec.umod_eq, BitVec.toNat_umod, BitVec.toNat_mul, setWidth_toNat_of_le' hw]
  rw [Nat.mod_eq_of_lt (a := _ * _), Nat.mod_eq_of_lt]
  · exact (Nat.mod_lt _ hm).trans m.isLt
  · rw [Nat.mul_two, pow_add]; exact Nat.mul_lt_mul'' a.isLt b.isLt

theorem modExpLoop_some {we : Nat} {m : BitVec w} (hm : 0 < m.toNat) (res b : BitVec w)
    (e : BitVec we) :
    ∃ r, modExpLoop m res b e = some r ∧ (e.toNat = 0 → r = res) ∧
      (0 < e.toNat → r.toNat = res.toNat * b.toNat ^ e.toNat % m.toNat) := by
  induction hn : e.toNat using Nat.strongRecOn generalizing e res b with
  | _ n ih =>
    unfold modExpLoop
    by_cases h0 : e = 0#we
    · subst h0
      simp only [dite_true]
      have hz : n = 0 := by simpa using hn.symm
      exact ⟨res, rfl, fun _ => rfl, fun h => by omega⟩
    · simp only [h0, dite_false]
      have hpos := pos_of_ne h0
      have hsh : (e >>> 1).toNat = e.toNat / 2 := by
        rw [BitVec.toNat_ushiftRight, Nat.shiftRight_eq_div_pow, pow_one]
      obtain ⟨b', hb', hbv⟩ := modMul_some (a := b) (b := b) hm
      have hbit : e.getLsbD 0 = decide (e.toNat % 2 = 1) := by
        rw [BitVec.getLsbD, Nat.testBit_zero]
      have hres : ∃ r', (if e.getLsbD 0 = true then modMul res b m else some res) = some r' ∧
          (r'.toNat : ZMod m.toNat) = res.toNat * (b.toNat : ZMod m.toNat) ^ (e.toNat % 2) ∧
          (e.toNat % 2 = 1 → r'.toNat < m.toNat) := by
        rw [hbit]
        by_cases h1 : e.toNat % 2 = 1
        · obtain ⟨r', h, hv⟩ := modMul_some (a := res) (b := b) hm
          refine ⟨r', by simp [h1, h], ?_, fun _ => by rw [hv]; exact Nat.mod_lt _ hm⟩
          rw [hv, h1]; simp
        · have h1' : e.toNat % 2 = 0 := by omega
          exact ⟨res, by simp [h1'], by simp [h1'], fun h => absurd h h1⟩
      obtain ⟨r', hr', hrv, hrl⟩ := hres
      obtain ⟨r, h, hz, hp⟩ := ih (e.toNat / 2) (by omega) r' b' (e >>> 1) hsh
      refine ⟨r, by
        by_cases hc : e.getLsbD 0 = true
        · rw [if_pos hc] at hr' ⊢; simp [hr', hb', h]
        · rw [if_neg hc] at hr' ⊢; cases hr'; simp [hb', h], fun h => by omega, fun _ => ?_⟩
      have hcast : (r.toNat : ZMod m.toNat) = res.toNat * (b.toNat : ZMod m.toNat) ^ e.toNat ∧
          r.toNat < m.toNat := by
        rcases Nat.eq_zero_or_pos (e.toNat / 2) with hz2 | hz2
        · have h1 : e.toNat = 1 := by omega
          rw [hz hz2]
          rw [h1] at hrv hrl ⊢
          exact ⟨by simpa using hrv, hrl rfl⟩
        · have := hp hz2
          rw [this]
          refine ⟨?_, Nat.mod_lt _ hm⟩
          rw [ZMod.natCast_mod, Nat.cast_mul, Nat.cast_pow, hrv, hbv, ZMod.natCast_mod,
            Nat.cast_mul, mul_assoc]
          congr 1
          rw [← pow_two, ← pow_mul, ← pow_add]
          congr 1; omega
      have := (ZMod.natCast_eq_natCast_iff' r.toNat (res.toNat * b.toNat ^ e.toNat) m.toNat).1
        (by rw [hcast.1]; push_cast; rfl)
      rw [Nat.mod_eq_of_lt hcast.2] at this
      rw [this, hn]

theorem one_toNat (hw : 0 < w) : (1#w).toNat = 1 := by
  rw [BitVec.toNat_ofNat]; exact Nat.mod_eq_of_lt (Nat.one_lt_two_pow hw.ne')

theorem width_pos_of_pos {a : BitVec w} (h : 0 < a.toNat) : 0 < w := by
  rcases Nat.eq_zero_or_pos w with rfl | h'
  · have := a.isLt; simp at this; omega
  · exact h'

/-- exponentiation with modulus at least two -/
theorem modExp_some {we : Nat} {m : BitVec w} (hm : 2 ≤ m.toNat) (base : BitVec w)
    (e : BitVec we) :
    ∃ r, modExp base e m = some r ∧ r.toNat = base.toNat ^ e.toNat % m.toNat := by
  have hm0 : 0 < m.toNat := by omega
  obtain ⟨r, h, hz, hp⟩ := modExpLoop_some hm0 1#w (base.umod m) e
  refine ⟨r, by rw [modExp, if_neg (ne_of_pos hm0), h], ?_⟩
  have h1 := one_toNat (width_pos_of_pos hm0)
  rcases Nat.eq_zero_or_pos e.toNat with he | he
  · rw [hz he, h1, he, pow_zero, Nat.mod_eq_of_lt (by omega)]
  · rw [hp he, h1, one_mul, BitVec.umod_eq, BitVec.toNat_umod, ← Nat.pow_mod]

/-! ### Miller–Rabin -/

theorem sub_one_toNat {n : BitVec w} (h : 1 ≤ n.toNat) : (n - 1#w).toNat = n.toNat - 1 := by
  have hw := width_pos_of_pos (a := n) (by omega)
  rw [BitVec.toNat_sub, one_toNat hw]
  have := n.isLt
  have e : 2 ^ w - 1 + n.toNat = (n.toNat - 1) + 2 ^ w := by omega
  rw [e, Nat.add_mod_right, Nat.mod_eq_of_lt (by omega)]

theorem cast_inj_of_lt {n a b : Nat} (ha : a < n) (hb : b < n)
    (h : (a : ZMod n) = (b : ZMod n)) : a = b := by
  have := (ZMod.natCast_eq_natCast_iff' _ _ _).1 h
  rwa [Nat.mod_eq_of_lt ha, Nat.mod_eq_of_lt hb] at this

theorem squareLoop_prime {n : BitVec w} (hp : n.toNat.Prime) (x : BitVec w)
    (hx : x.toNat < n.toNat) (k : Nat)
    (h1 : (x.toNat : ZMod n.toNat) ≠ 1) (h2 : (x.toNat : ZMod n.toNat) ≠ -1)
    (h : (x.toNat : ZMod n.toNat) ^ 2 ^ (k + 1) = 1) :
    squareLoop n x k = some false := by
  have := Fact.mk hp
  have hn0 := hp.pos
  induction k generalizing x with
  | zero =>
    rw [zero_add, pow_one] at h
    rcases mul_self_eq_one_iff.1 ((pow_two _).symm.trans h) with h | h
    · exact absurd h h1
    · exact absurd h h2
  | succ k ih =>
    obtain ⟨y, hy, hyv⟩ := modMul_some (a := x) (b := x) hn0
    rw [squareLoop, hy]
    have hyl : y.toNat < n.toNat := by rw [hyv]; exact Nat.mod_lt _ hn0
    have hyc : (y.toNat : ZMod n.toNat) = (x.toNat : ZMod n.toNat) ^ 2 := by
      rw [hyv]; simp [pow_two]
    by_cases hc : y = n - 1#w
    · simp [hc]
    · simp only [Option.bind_eq_bind, Option.bind_some, hc, if_false]
      apply ih y hyl
      · rw [hyc]; intro h3
        rcases mul_self_eq_one_iff.1 ((pow_two _).symm.trans h3) with h | h
        · exact absurd h h1
        · exact absurd h h2
      · intro h3
        apply hc
        apply BitVec.eq_of_toNat_eq
        rw [sub_one_toNat hn0]
        apply cast_inj_of_lt hyl (by omega)
        rw [h3, Nat.cast_sub hn0]; simp
      · rw [hyc, ← pow_mul, ← pow_succ']; exact h

theorem basesLoop_prime {n d : BitVec w} (hp : n.toNat.Prime) (hn : 2 < n.toNat) (s : Nat)
    (hs : 1 ≤ s) (hd : d.toNat * 2 ^ s = n.toNat - 1) (as : List Nat)
    (has : ∀ a ∈ as, 0 < a) :
    basesLoop n d s as = some true := by
  have := Fact.mk hp
  have hn0 := hp.pos
  induction as with
  | nil => rfl
  | cons a as ih =>
    have ih := ih (fun b hb => has b (List.mem_cons_of_mem _ hb))
    rw [basesLoop]
    split
    · rfl
    · rename_i hlt
      have haw : (BitVec.ofNat w a).toNat = a := by
        rw [BitVec.toNat_ofNat]
        exact Nat.mod_eq_of_lt (by have := n.isLt; omega)
      obtain ⟨x, hx, hxv⟩ := modExp_some (m := n) (by omega) (BitVec.ofNat w a) d
      rw [haw] at hxv
      simp only [hx, Option.bind_eq_bind, Option.bind_some]
      split
      · exact ih
      · rename_i hc
        push Not at hc
        have hxl : x.toNat < n.toNat := by rw [hxv]; exact Nat.mod_lt _ hn0
        have hxc : (x.toNat : ZMod n.toNat) = (a : ZMod n.toNat) ^ d.toNat := by rw [hxv]; simp
        have ha0 : (a : ZMod n.toNat) ≠ 0 := by
          intro h
          rw [ZMod.natCast_eq_zero_iff] at h
          have := Nat.le_of_dvd (has a (by simp)) h
          omega
        have hsq : squareLoop n x (s - 1) = some false := by
          apply squareLoop_prime hp x hxl
          · intro h; apply hc.1
            apply BitVec.eq_of_toNat_eq
            rw [one_toNat (width_pos_of_pos hn0)]
            exact cast_inj_of_lt hxl (by omega) (by simpa using h)
          · intro h; apply hc.2
            apply BitVec.eq_of_toNat_eq
            rw [sub_one_toNat hn0]
            apply cast_inj_of_lt hxl (by omega)
            rw [h, Nat.cast_sub hn0]; simp
          · rw [hxc, ← pow_mul, Nat.sub_add_cancel hs, hd]
            exact ZMod.pow_card_sub_one_eq_one ha0
        rw [hsq]
        simpa using ih

theorem ctz_spec {n : Nat} (h : n ≠ 0) : 2 ^ ctz n ∣ n := by
  induction n using Nat.strongRecOn with
  | _ n ih =>
    unfold ctz
    rw [dif_neg h]
    split
    · simp
    · have := ih (n / 2) (by omega) (by omega)
      rw [pow_succ]
      obtain ⟨k, hk⟩ := this
      exact ⟨k, by rw [mul_assoc, mul_comm 2 k, ← mul_assoc, ← hk]; omega⟩

theorem ctz_pos {n : Nat} (h : n ≠ 0) (he : n % 2 = 0) : 1 ≤ ctz n := by
  unfold ctz; rw [dif_neg h, if_neg (by omega)]; omega

/-! ### factorization -/

theorem divOut_spec {n d : Nat} (hn : 0 < n) (hd : 2 ≤ d) :
    0 < divOut n d ∧ divOut n d ∣ n ∧ ¬ d ∣ divOut n d ∧ ∃ k, n = d ^ k * divOut n d := by
  induction n using Nat.strongRecOn with
  | _ n ih =>
    unfold divOut
    split
    · rename_i h
      have hdv : d ∣ n := Nat.dvd_of_mod_eq_zero h.2.2
      have hpos : 0 < n / d := Nat.div_pos (Nat.le_of_dvd hn hdv) (by omega)
      obtain ⟨h1, h2, h3, k, hk⟩ := ih (n / d) (Nat.div_lt_self hn hd) hpos
      refine ⟨h1, h2.trans (Nat.div_dvd_of_dvd hdv), h3, k + 1, ?_⟩
      rw [pow_succ, mul_comm (d ^ k), mul_assoc, ← hk, Nat.mul_div_cancel' hdv]
    · rename_i h
      refine ⟨hn, dvd_rfl, ?_, 0, by simp⟩
      intro hdv; exact h ⟨hd, hn, Nat.mod_eq_zero_of_dvd hdv⟩

/-- `d` dividing `n` without smaller prime factors is prime. -/
theorem prime_of_min {n d : Nat} (hd : 2 ≤ d) (hdv : d ∣ n)
    (hmin : ∀ p, p.Prime → p ∣ n → d ≤ p) : d.Prime := by
  have h1 : d.minFac.Prime := Nat.minFac_prime (by omega)
  have h2 := hmin _ h1 ((Nat.minFac_dvd d).trans hdv)
  have h3 := Nat.minFac_le (n := d) (by omega)
  have : d.minFac = d := le_antisymm h3 h2
  rwa [this] at h1

theorem prime_of_lt_sq {n d : Nat} (hn : 1 < n) (hlt : n < d * d)
    (hmin : ∀ p, p.Prime → p ∣ n → d ≤ p) : n.Prime := by
  by_contra hc
  have h1 := Nat.minFac_sq_le_self (by omega) hc
  have h2 := hmin _ (Nat.minFac_prime (by omega)) (Nat.minFac_dvd n)
  have := Nat.mul_le_mul h2 h2
  rw [pow_two] at h1
  omega

/-- what a factor list has to satisfy -/
def FactorList (n lo : Nat) (L : List Nat) : Prop :=
  (∀ p, p ∈ L ↔ p.Prime ∧ p ∣ n) ∧ L.Pairwise (· < ·) ∧ ∀ p ∈ L, lo ≤ p

/-- the list assembled from a loop result -/
def assemble (r : List Nat × Nat) : List Nat := if r.2 > 1 then r.1 ++ [r.2] else r.1

theorem assemble_cons (d : Nat) (r : List Nat × Nat) :
    assemble (d :: r.1, r.2) = d :: assemble r := by
  unfold assemble; dsimp only; split <;> simp

theorem factorList_base {n d : Nat} (hn : 0 < n) (hlt : n < d * d)
    (hmin : ∀ p, p.Prime → p ∣ n → d ≤ p) : FactorList n d (assemble ([], n)) := by
  unfold assemble
  by_cases h1 : n > 1
  · have hp := prime_of_lt_sq h1 hlt hmin
    simp only [h1, if_true, List.nil_append]
    refine ⟨fun p => ?_, by simp, fun p hp' => ?_⟩
    · rw [List.mem_singleton]
      constructor
      · rintro rfl; exact ⟨hp, dvd_rfl⟩
      · rintro ⟨h, h'⟩; exact (Nat.prime_dvd_prime_iff_eq h hp).1 h'
    · rw [List.mem_singleton] at hp'; subst hp'; exact hmin _ hp dvd_rfl
  · simp only [h1, if_false]
    have : n = 1 := by omega
    subst this
    refine ⟨fun p => ?_, by simp, by simp⟩
    simp only [List.not_mem_nil, Nat.dvd_one, false_iff, not_and]
    rintro h rfl; exact Nat.not_prime_one h

theorem factorList_step {n d : Nat} (hn : 0 < n) (hd : 2 ≤ d) (hdv : d ∣ n)
    (hmin : ∀ p, p.Prime → p ∣ n → d ≤ p) {L : List Nat}
    (hL : FactorList (divOut n d) (d + 1) L) : FactorList n d (d :: L) := by
  have hp := prime_of_min hd hdv hmin
  obtain ⟨h1, h2, h3, k, hk⟩ := divOut_spec hn hd
  refine ⟨fun p => ?_, ?_, ?_⟩
  · rw [List.mem_cons, hL.1]
    constructor
    · rintro (rfl | ⟨h, h'⟩)
      · exact ⟨hp, hdv⟩
      · exact ⟨h, h'.trans h2⟩
    · rintro ⟨h, h'⟩
      rw [hk] at h'
      rcases (Nat.Prime.dvd_mul h).1 h' with h4 | h4
      · exact Or.inl ((Nat.prime_dvd_prime_iff_eq h hp).1 (h.dvd_of_dvd_pow h4))
      · exact Or.inr ⟨h, h4⟩
  · rw [List.pairwise_cons]
    exact ⟨fun a ha => hL.2.2 a ha, hL.2.1⟩
  · intro p hp'
    rcases List.mem_cons.1 hp' with rfl | h
    · exact le_rfl
    · exact (Nat.le_succ d).trans (hL.2.2 p h)

theorem min_succ_of_not_dvd {n d : Nat} (h : ¬ d ∣ n)
    (hmin : ∀ p, p.Prime → p ∣ n → d ≤ p) : ∀ p, p.Prime → p ∣ n → d + 1 ≤ p := by
  intro p hp hd
  have := hmin p hp hd
  rcases Nat.eq_or_lt_of_le this with rfl | h'
  · exact absurd hd h
  · exact h'

theorem min_succ_divOut {n d : Nat} (hn : 0 < n) (hd : 2 ≤ d)
    (hmin : ∀ p, p.Prime → p ∣ n → d ≤ p) : ∀ p, p.Prime → p ∣ divOut n d → d + 1 ≤ p := by
  obtain ⟨_, h2, h3, _⟩ := divOut_spec hn hd
  exact min_succ_of_not_dvd h3 (fun p hp hdv => hmin p hp (hdv.trans h2))

theorem FactorList.mono {n d : Nat} {L : List Nat} (h : FactorList n (d + 1) L) :
    FactorList n d L := ⟨h.1, h.2.1, fun p hp => (Nat.le_succ d).trans (h.2.2 p hp)⟩

theorem slowLoop_spec (n d : Nat) (hn : 0 < n) (hd : 2 ≤ d)
    (hmin : ∀ p, p.Prime → p ∣ n → d ≤ p) : FactorList n d (assemble (slowLoop n d)) := by
  induction hk : n + 1 - d using Nat.strongRecOn generalizing n d with
  | _ k ih =>
    unfold slowLoop
    have hsq : d ≤ d * d := Nat.le_mul_self d
    split
    · rename_i h
      split
      · rename_i h0
        have hdv : d ∣ n := Nat.dvd_of_mod_eq_zero h0
        have hle := divOut_le n d
        have := ih (divOut n d + 1 - (d + 1)) (by omega) (divOut n d) (d + 1)
          (divOut_spec hn hd).1 (by omega) (min_succ_divOut hn hd hmin) rfl
        simp only [assemble_cons]
        exact factorList_step hn hd hdv hmin this
      · rename_i h0
        exact (ih (n + 1 - (d + 1)) (by omega) n (d + 1) hn (by omega)
          (min_succ_of_not_dvd (fun h => h0 (Nat.mod_eq_zero_of_dvd h)) hmin) rfl).mono
    · rename_i h
      exact factorList_base hn (by by_contra hc; exact h ⟨by omega, hd⟩) hmin

theorem fastLoop_one (d : Nat) (hd : 2 ≤ d) (hlt : d ≤ 2 ^ 64 - 2) :
    fastLoop 1 d = some ([], 1) := by
  induction hk : 2 ^ 64 - d using Nat.strongRecOn generalizing d with
  | _ k ih =>
    unfold fastLoop
    rw [dif_pos (by omega)]
    split
    · rename_i h
      rw [if_neg (by rw [Nat.mod_eq_of_lt (by omega)]; omega)]
      have hne : d ≠ 2 ^ 64 - 2 := by
        rintro rfl; norm_num at h
      exact ih (2 ^ 64 - (d + 1)) (by omega) (d + 1) (by omega) (by omega) rfl
    · rfl

theorem fastLoop_spec (n d : Nat) (hn : 1 < n) (hlt : n < 2 ^ 64) (hd : 2 ≤ d)
    (hmin : ∀ p, p.Prime → p ∣ n → d ≤ p) :
    ∃ r, fastLoop n d = some r ∧ FactorList n d (assemble r) := by
  induction hk : 2 ^ 64 - d using Nat.strongRecOn generalizing n d with
  | _ k ih =>
    have hdn : d ≤ n := (hmin _ (Nat.minFac_prime (by omega)) (Nat.minFac_dvd n)).trans
      (Nat.minFac_le (by omega))
    unfold fastLoop
    rw [dif_pos (by omega)]
    split
    · split
      · rename_i h0
        have hdv : d ∣ n := Nat.dvd_of_mod_eq_zero h0
        have hp := prime_of_min hd hdv hmin
        have hle := divOut_le n d
        have hpos := (divOut_spec (n := n) (by omega) hd).1
        rcases Nat.eq_or_lt_of_le (Nat.succ_le_of_lt hpos) with h1 | h1
        · have h1' : divOut n d = 1 := h1.symm
          have hdl : d + 1 ≤ 2 ^ 64 - 2 := by
            by_contra hc
            have : d = 2 ^ 64 - 2 ∨ d = 2 ^ 64 - 1 := by omega
            rcases this with rfl | rfl <;> norm_num at hp
          have hL := factorList_step (n := n) (by omega) hd hdv hmin (L := []) (by
            rw [h1']
            refine ⟨fun p => ?_, by simp, by simp⟩
            simp only [List.not_mem_nil, Nat.dvd_one, false_iff, not_and]
            rintro h rfl; exact Nat.not_prime_one h)
          rw [h1', fastLoop_one (d + 1) (by omega) hdl]
          refine ⟨_, rfl, ?_⟩
          rw [assemble_cons]
          exact hL
        · obtain ⟨r, hr, hL⟩ := ih (2 ^ 64 - (d + 1)) (by omega) (divOut n d) (d + 1) h1
            (by omega) (by omega) (min_succ_divOut (by omega) hd hmin) rfl
          rw [hr]
          refine ⟨_, rfl, ?_⟩
          rw [assemble_cons]
          exact factorList_step (by omega) hd hdv hmin hL
      · rename_i h0
        obtain ⟨r, hr, hL⟩ := ih (2 ^ 64 - (d + 1)) (by omega) n (d + 1) hn hlt (by omega)
          (min_succ_of_not_dvd (fun h => h0 (Nat.mod_eq_zero_of_dvd h)) hmin) rfl
        exact ⟨r, hr, hL.mono⟩
    · rename_i h
      refine ⟨_, rfl, factorList_base (by omega) ?_ hmin⟩
      have := Nat.mod_le (d * d) (2 ^ 64)
      omega

theorem factorize_spec {n : Nat} (hn : 0 < n) :
    ∃ L, factorize n = some L ∧ (∀ p, p ∈ L ↔ p.Prime ∧ p ∣ n) ∧ L.Pairwise (· < ·) := by
  unfold factorize
  split
  · have : n = 1 := by omega
    subst this
    refine ⟨[], rfl, fun p => ?_, by simp⟩
    simp only [List.not_mem_nil, Nat.dvd_one, false_iff, not_and]
    rintro h rfl; exact Nat.not_prime_one h
  · split
    · rename_i h
      rw [Nat.size_le] at h
      obtain ⟨r, hr, hL⟩ := fastLoop_spec n 2 (by omega) h le_rfl (fun p hp _ => hp.two_le)
      rw [hr]
      exact ⟨assemble r, rfl, hL.1, hL.2.1⟩
    · have hL := slowLoop_spec n 2 hn le_rfl (fun p hp _ => hp.two_le)
      exact ⟨assemble (slowLoop n 2), rfl, hL.1, hL.2.1⟩

end Heir.NumTheory
