import Verif.RNS.Model
import Verif.RNS.Spec
import Verif.NumTheory.Props
import Verif.NTT.Emitted
import Mathlib.Data.Nat.ChineseRemainder
import Mathlib.Data.Int.ModEq
import Mathlib.Algebra.BigOperators.Group.List.Basic
import Mathlib.RingTheory.Coprime.Lemmas

/-! # Lemmas for RNS conversion -/

namespace Heir.RNS

open Heir.Arith Heir.Loop Heir.NumTheory Heir.ModArith Heir.NTT

variable {w wo : Nat}

/-! ## Products of pairwise coprime moduli -/

theorem coprime_modProd {q : BitVec w} {qs : List (BitVec w)}
    (h : ∀ a ∈ qs, Nat.gcd q.toNat a.toNat = 1) : Nat.Coprime q.toNat (modProd qs) := by
  induction qs with
  | nil => simp [modProd]
  | cons a qs ih =>
    simp only [modProd, List.map_cons, List.prod_cons]
    exact Nat.Coprime.mul_right (h a (by simp)) (ih fun b hb => h b (by simp [hb]))

theorem modProd_dvd {qs : List (BitVec w)} (h : PC qs) {d : Int}
    (hd : ∀ q ∈ qs, (q.toNat : Int) ∣ d) : (modProd qs : Int) ∣ d := by
  induction qs with
  | nil => simp [modProd]
  | cons a qs ih =>
    have h1 := List.pairwise_cons.1 h
    simp only [modProd, List.map_cons, List.prod_cons, Nat.cast_mul]
    exact IsCoprime.mul_dvd (Nat.isCoprime_iff_coprime.2 (coprime_modProd h1.1)) (hd a (by simp))
      (ih h1.2 fun q hq => hd q (by simp [hq]))

theorem modProd_pos {qs : List (BitVec w)} (h : ∀ q ∈ qs, 0 < q.toNat) : 0 < modProd qs := by
  induction qs with
  | nil => simp [modProd]
  | cons a qs ih =>
    simp only [modProd, List.map_cons, List.prod_cons]
    exact Nat.mul_pos (h a (by simp)) (ih fun b hb => h b (by simp [hb]))

theorem modProd_append (as bs : List (BitVec w)) : modProd (as ++ bs) = modProd as * modProd bs := by
  simp [modProd]

theorem modProd_cons (a : BitVec w) (bs : List (BitVec w)) :
    modProd (a :: bs) = a.toNat * modProd bs := by simp [modProd]

theorem dvd_modProd {q : BitVec w} {qs : List (BitVec w)} (h : q ∈ qs) : q.toNat ∣ modProd qs :=
  List.dvd_prod (List.mem_map_of_mem h)

/-- A modulus is coprime to the product of the others. -/
theorem coprime_div {q : BitVec w} {qs : List (BitVec w)} (hpos : ∀ q ∈ qs, 0 < q.toNat) (h : PC qs)
    (hq : q ∈ qs) : Nat.Coprime (modProd qs / q.toNat) q.toNat := by
  obtain ⟨as, bs, rfl⟩ := List.append_of_mem hq
  have h1 := List.pairwise_append.1 h
  have h2 := List.pairwise_cons.1 h1.2.1
  have e : modProd (as ++ q :: bs) = q.toNat * (modProd as * modProd bs) := by
    rw [modProd_append, modProd_cons]; ring
  rw [e, Nat.mul_div_cancel_left _ (hpos q hq)]
  refine Nat.Coprime.mul_left ?_ ?_
  · refine (coprime_modProd fun a ha => ?_).symm
    rw [Nat.gcd_comm]; exact h1.2.2 a ha q (by simp)
  · exact (coprime_modProd h2.1).symm

/-- A modulus divides the cofactor of every other one. -/
theorem dvd_div {a b : BitVec w} {qs : List (BitVec w)} (ha : a ∈ qs) (hb : b ∈ qs)
    (hab : Nat.gcd a.toNat b.toNat = 1) : a.toNat ∣ modProd qs / b.toNat := by
  apply Nat.dvd_div_of_mul_dvd
  rw [mul_comm]
  exact Nat.Coprime.mul_dvd_of_dvd_of_dvd hab (dvd_modProd ha) (dvd_modProd hb)

/-- Uniqueness of the residue. -/
theorem crt_unique {qs : List (BitVec w)} (h : PC qs) {x y : Nat} (hx : x < modProd qs)
    (hy : y < modProd qs) (he : ∀ q ∈ qs, x ≡ y [MOD q.toNat]) : x = y := by
  have : (modProd qs : Int) ∣ (x : Int) - y := modProd_dvd h fun q hq => by
    have := (Nat.modEq_iff_dvd.1 (he q hq).symm)
    exact this
  have h2 : x ≡ y [MOD modProd qs] := (Nat.modEq_iff_dvd.2 this).symm
  have := h2
  rw [Nat.ModEq, Nat.mod_eq_of_lt hx, Nat.mod_eq_of_lt hy] at this
  exact this

/-! ## Interpolation -/

theorem inv_one {W : Nat} {x m : BitVec W} (hm : m.toNat = 1) (hx : x.toNat = 0) :
    multiplicativeInverse x m = some 0#W := by
  have hw := width_pos_of_pos (a := m) (by omega)
  have h1 := one_toNat hw
  have e1 : m = 1#W := BitVec.eq_of_toNat_eq (by rw [hm, h1])
  have e2 : x = 0#W := BitVec.eq_of_toNat_eq (by simp [hx])
  subst e1 e2
  rw [multiplicativeInverse, if_pos (by simp [BitVec.ult, h1])]
  unfold invLoop
  simp

/-- The constant of one limb. -/
theorem fromCoeff_spec {W : Nat} {Q q : BitVec W} (hq : 0 < q.toNat)
    (hc : Nat.Coprime (Q.toNat / q.toNat) q.toNat) :
    ∃ (c : BitVec W) (inv : Nat), fromCoeff Q q = some c ∧ inv ≤ q.toNat ∧
      Q.toNat / q.toNat * inv ≡ 1 [MOD q.toNat] ∧ c.toNat = (Q.toNat / q.toNat * inv) % 2 ^ W := by
  have hx : (((Q.udiv q).umod q)).toNat = Q.toNat / q.toNat % q.toNat := by
    simp [BitVec.toNat_umod, BitVec.toNat_udiv]
  have hne : ¬ q = 0#W := Heir.NumTheory.ne_of_pos hq
  have hud : (Q.udiv q).toNat = Q.toNat / q.toNat := by simp [BitVec.toNat_udiv]
  rcases Nat.lt_or_ge 1 q.toNat with h | h
  · obtain ⟨r, hr, hr1, _⟩ := C01_multiplicativeInverse (x := (Q.udiv q).umod q) (m := q) h
      (by rw [hx]; exact Nat.mod_lt _ hq)
    rw [hx] at hr1
    obtain ⟨h3, h4⟩ := hr1 (by rw [Nat.coprime_iff_gcd_eq_one, ← Nat.gcd_rec, Nat.gcd_comm]; exact hc)
    refine ⟨Q.udiv q * r, r.toNat, ?_, h3.le, ?_, ?_⟩
    · simp only [fromCoeff, if_neg hne]
      show (multiplicativeInverse ((Q.udiv q).umod q) q).bind _ = _
      rw [hr]; rfl
    · refine Nat.ModEq.trans ?_ h4
      rw [mul_comm r.toNat]
      exact Nat.ModEq.mul_right _ (Nat.mod_modEq _ _).symm
    · rw [BitVec.toNat_mul, hud]
  · have h1 : q.toNat = 1 := by omega
    have hr := inv_one (x := (Q.udiv q).umod q) (m := q) h1 (by rw [hx, h1, Nat.mod_one])
    refine ⟨Q.udiv q * 0#W, 0, ?_, by omega, by rw [h1]; exact Nat.modEq_one, ?_⟩
    · simp only [fromCoeff, if_neg hne]
      show (multiplicativeInverse ((Q.udiv q).umod q) q).bind _ = _
      rw [hr]; rfl
    · simp

/-- The numeric constant of one limb. -/
def cf {W : Nat} (Q : BitVec W) (q : BitVec w) : Nat := ((fromCoeff Q (q.setWidth W)).getD 0#W).toNat

theorem cf_spec {W : Nat} {Q : BitVec W} {q : BitVec w} (hW : wo + w ≤ W) (hQ : Q.toNat < 2 ^ wo)
    (hq : 0 < q.toNat) (hc : Nat.Coprime (Q.toNat / q.toNat) q.toNat) :
    (∃ c, fromCoeff Q (q.setWidth W) = some c ∧ c.toNat = cf Q q) ∧ cf Q q < 2 ^ (wo + w) ∧
      cf Q q ≡ 1 [MOD q.toNat] ∧ Q.toNat / q.toNat ∣ cf Q q := by
  have hqs : (q.setWidth W).toNat = q.toNat := setWidth_toNat_of_le (by omega) q
  obtain ⟨c, inv, h1, h2, h3, h4⟩ := fromCoeff_spec (Q := Q) (q := q.setWidth W) (by omega)
    (by rw [hqs]; exact hc)
  rw [hqs] at h2 h3 h4
  have hlt : Q.toNat / q.toNat * inv < 2 ^ (wo + w) := by
    rw [pow_add]
    have := q.isLt
    exact Nat.mul_lt_mul'' (lt_of_le_of_lt (Nat.div_le_self _ _) hQ) (by omega)
  have hlt' : Q.toNat / q.toNat * inv < 2 ^ W :=
    lt_of_lt_of_le hlt (Nat.pow_le_pow_right (by norm_num) hW)
  have e : cf Q q = Q.toNat / q.toNat * inv := by
    rw [cf, h1]; simp only [Option.getD_some]; rw [h4, Nat.mod_eq_of_lt hlt']
  refine ⟨⟨c, h1, by rw [e, h4, Nat.mod_eq_of_lt hlt']⟩, by rw [e]; exact hlt, by rw [e]; exact h3, ?_⟩
  rw [e]; exact Nat.dvd_mul_right _ _

theorem fromSum_spec {W : Nat} {Q : BitVec W} (hW : wo + w ≤ W) (hQ : Q.toNat < 2 ^ wo) :
    ∀ (ps : List (BitVec w × BitVec w)) (acc : BitVec W),
    (∀ x ∈ ps, 0 < x.1.toNat ∧ Nat.Coprime (Q.toNat / x.1.toNat) x.1.toNat) →
    acc.toNat + ps.length * 2 ^ (wo + 2 * w) ≤ 2 ^ W →
    ∃ s, fromSum Q ps acc = some s ∧
      s.toNat = acc.toNat + (ps.map fun x => x.2.toNat * cf Q x.1).sum := by
  intro ps
  induction ps with
  | nil => intro acc _ _; exact ⟨acc, rfl, by simp⟩
  | cons x ps ih =>
    intro acc hps hb
    obtain ⟨q, l⟩ := x
    obtain ⟨h1, h2⟩ := hps (q, l) (by simp)
    obtain ⟨⟨c, hc, hce⟩, hlt, _, _⟩ := cf_spec hW hQ h1 h2
    have hl : (l.setWidth W).toNat = l.toNat := setWidth_toNat_of_le (by omega) l
    have hterm : l.toNat * cf Q q < 2 ^ (wo + 2 * w) := by
      rw [show wo + 2 * w = w + (wo + w) by ring, pow_add]
      exact Nat.mul_lt_mul'' l.isLt hlt
    rw [List.length_cons, Nat.add_mul, one_mul] at hb
    have hT : 2 ^ (wo + 2 * w) ≤ 2 ^ W := by omega
    have hval : (acc + l.setWidth W * c).toNat = acc.toNat + l.toNat * cf Q q := by
      rw [BitVec.toNat_add, BitVec.toNat_mul, hl, hce, Nat.mod_eq_of_lt (a := l.toNat * cf Q q) (by omega),
        Nat.mod_eq_of_lt (by omega)]
    obtain ⟨s, hs, hse⟩ := ih (acc + l.setWidth W * c) (fun y hy => hps y (by simp [hy]))
      (by rw [hval]; omega)
    refine ⟨s, by simp [fromSum, hc, hs], ?_⟩
    rw [hse, hval, List.map_cons, List.sum_cons]; ring

theorem sum_zero_mod (m : Nat) (l : List Nat) (h : ∀ x ∈ l, m ∣ x) : m ∣ l.sum := by
  induction l with
  | nil => simp
  | cons a l ih => rw [List.sum_cons]; exact Nat.dvd_add (h a (by simp)) (ih fun x hx => h x (by simp [hx]))

/-- The interpolation sum has the given residues. -/
theorem sum_residue {W : Nat} {Q : BitVec W} (hW : wo + w ≤ W) (hQ : Q.toNat < 2 ^ wo)
    {qs limbs : List (BitVec w)} (hpos : ∀ q ∈ qs, 0 < q.toNat) (hpc : PC qs) (hp : Q.toNat = modProd qs)
    (hl : limbs.length = qs.length) {i : Nat} {q l : BitVec w} (hqi : qs[i]? = some q)
    (hli : limbs[i]? = some l) :
    (((qs.zip limbs).map fun x => x.2.toNat * cf Q x.1).sum) ≡ l.toNat [MOD q.toNat] := by
  have hi : i < qs.length := (List.getElem?_eq_some_iff.1 hqi).1
  have hz : (qs.zip limbs)[i]? = some (q, l) := by
    rw [List.getElem?_zip_eq_some]; exact ⟨hqi, hli⟩
  have hzl : i < (qs.zip limbs).length := (List.getElem?_eq_some_iff.1 hz).1
  have hsplit : qs.zip limbs = (qs.zip limbs).take i ++ (q, l) :: (qs.zip limbs).drop (i + 1) := by
    conv_lhs => rw [← List.take_append_drop i (qs.zip limbs)]
    rw [List.drop_eq_getElem_cons hzl, (List.getElem?_eq_some_iff.1 hz).2]
  have hfst : (qs.zip limbs).map Prod.fst = qs := List.map_fst_zip (by omega)
  have hsq : qs = ((qs.zip limbs).take i).map Prod.fst ++ q :: ((qs.zip limbs).drop (i + 1)).map Prod.fst := by
    conv_lhs => rw [← hfst, hsplit]
    simp
  have hqmem : q ∈ qs := List.mem_of_getElem? hqi
  have hcf := fun (x : BitVec w) (hx : x ∈ qs) => cf_spec (wo := wo) hW hQ (hpos x hx)
    (by rw [hp]; exact coprime_div hpos hpc hx)
  have hpc' := hpc
  rw [PC, hsq, List.pairwise_append, List.pairwise_cons] at hpc'
  have hother : ∀ x : BitVec w × BitVec w, x.1 ∈ qs → Nat.gcd q.toNat x.1.toNat = 1 →
      q.toNat ∣ x.2.toNat * cf Q x.1 := by
    intro x hx hg
    obtain ⟨_, _, _, hd⟩ := hcf x.1 hx
    rw [hp] at hd
    exact ((dvd_div hqmem hx hg).trans hd).trans (Nat.dvd_mul_left _ _)
  rw [hsplit, List.map_append, List.map_cons, List.sum_append, List.sum_cons]
  have h1 : q.toNat ∣ (((qs.zip limbs).take i).map fun x => x.2.toNat * cf Q x.1).sum := by
    apply sum_zero_mod
    intro y hy
    obtain ⟨x, hx, rfl⟩ := List.mem_map.1 hy
    have hm : x.1 ∈ ((qs.zip limbs).take i).map Prod.fst := List.mem_map_of_mem hx
    refine hother x (by rw [hsq]; exact List.mem_append_left _ hm) ?_
    rw [Nat.gcd_comm]; exact hpc'.2.2 _ hm q (by simp)
  have h2 : q.toNat ∣ (((qs.zip limbs).drop (i + 1)).map fun x => x.2.toNat * cf Q x.1).sum := by
    apply sum_zero_mod
    intro y hy
    obtain ⟨x, hx, rfl⟩ := List.mem_map.1 hy
    have hm : x.1 ∈ ((qs.zip limbs).drop (i + 1)).map Prod.fst := List.mem_map_of_mem hx
    refine hother x (by rw [hsq]; simp only [List.mem_append, List.mem_cons]; exact Or.inr (Or.inr hm)) ?_
    exact hpc'.2.1.1 _ hm
  obtain ⟨_, _, hone, _⟩ := hcf q hqmem
  have e1 : l.toNat * cf Q q ≡ l.toNat * 1 [MOD q.toNat] := Nat.ModEq.mul_left _ hone
  rw [mul_one] at e1
  have e2 := (Nat.modEq_zero_iff_dvd.2 h1).add (e1.add (Nat.modEq_zero_iff_dvd.2 h2))
  simpa using e2

end Heir.RNS
