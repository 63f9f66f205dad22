import Verif.NumTheory.Lemmas
import Mathlib.Data.Nat.Log

namespace Heir.NumTheory

variable {w : Nat}

/-! ### primitive roots -/

theorem isPrimitiveCand_some {q g phi : BitVec w} (hq : 2 ≤ q.toNat) (hphi : 0 < phi.toNat)
    (ps : List Nat) (hps : ∀ p ∈ ps, 0 < p ∧ p < 2 ^ w) :
    ∃ b, isPrimitiveCand q g phi ps = some b ∧
      (b = true ↔ ∀ p ∈ ps, (g.toNat : ZMod q.toNat) ^ (phi.toNat / p) ≠ 1) := by
  induction ps with
  | nil => exact ⟨true, rfl, by simp⟩
  | cons p ps ih =>
    obtain ⟨b, hb, hbi⟩ := ih (fun a ha => hps a (List.mem_cons_of_mem _ ha))
    obtain ⟨hp0, hpw⟩ := hps p (by simp)
    obtain ⟨x, hx, hxv⟩ := modExp_some hq g (phi.udiv (BitVec.ofNat w p))
    have hdiv : (phi.udiv (BitVec.ofNat w p)).toNat = phi.toNat / p := by
      rw [BitVec.udiv_eq, BitVec.toNat_udiv, BitVec.toNat_ofNat, Nat.mod_eq_of_lt hpw]
    rw [hdiv] at hxv
    rw [isPrimitiveCand, if_neg (by rw [Nat.mod_eq_of_lt hpw]; omega)]
    simp only [Option.bind_eq_bind, hx, Option.bind_some]
    have hxl : x.toNat < q.toNat := by rw [hxv]; exact Nat.mod_lt _ (by omega)
    have hone : x = 1#w ↔ (g.toNat : ZMod q.toNat) ^ (phi.toNat / p) = 1 := by
      have hc : (x.toNat : ZMod q.toNat) = (g.toNat : ZMod q.toNat) ^ (phi.toNat / p) := by
        rw [hxv]; simp
      rw [← hc]
      have h1 := one_toNat (width_pos_of_pos hphi)
      constructor
      · rintro rfl; rw [h1]; simp
      · intro h
        apply BitVec.eq_of_toNat_eq
        rw [h1]
        exact cast_inj_of_lt hxl (by omega) (by simpa using h)
    by_cases hc : x = 1#w
    · refine ⟨false, by simp [hc], ?_⟩
      simp only [Bool.false_eq_true, false_iff]
      intro h
      exact h p (by simp) (hone.1 hc)
    · refine ⟨b, by simp [hc, hb], ?_⟩
      rw [hbi]
      constructor
      · intro h a ha
        rcases List.mem_cons.1 ha with rfl | ha
        · exact fun h => hc (hone.2 h)
        · exact h a ha
      · intro h a ha; exact h a (List.mem_cons_of_mem _ ha)

/-- the candidate test decides having order `q - 1` -/
theorem isPrimitiveCand_iff {q : BitVec w} (hp : q.toNat.Prime) {ps : List Nat}
    (hps : ∀ p, p ∈ ps ↔ p.Prime ∧ p ∣ q.toNat - 1) {g : Nat} (hg0 : 0 < g) (hg : g < q.toNat) :
    ∃ b, isPrimitiveCand q (BitVec.ofNat w g) (q - 1#w) ps = some b ∧
      (b = true ↔ orderOf (g : ZMod q.toNat) = q.toNat - 1) := by
  have := Fact.mk hp
  have h1 := sub_one_toNat (n := q) hp.pos
  have hq1 : 0 < q.toNat - 1 := by have := hp.two_le; omega
  have hgw : (BitVec.ofNat w g).toNat = g := by
    rw [BitVec.toNat_ofNat]; exact Nat.mod_eq_of_lt (hg.trans q.isLt)
  obtain ⟨b, hb, hbi⟩ := isPrimitiveCand_some (g := BitVec.ofNat w g) (phi := q - 1#w) hp.two_le
    (by rw [h1]; exact hq1) ps (fun p hp' => by
      have := (hps p).1 hp'
      refine ⟨this.1.pos, ?_⟩
      have := Nat.le_of_dvd hq1 this.2
      have := q.isLt
      omega)
  refine ⟨b, hb, ?_⟩
  rw [hbi, hgw, h1]
  have hg' : (g : ZMod q.toNat) ≠ 0 := by
    intro h
    rw [ZMod.natCast_eq_zero_iff] at h
    have := Nat.le_of_dvd hg0 h
    omega
  constructor
  · intro h
    exact orderOf_eq_of_pow_and_pow_div_prime hq1 (ZMod.pow_card_sub_one_eq_one hg')
      (fun p hpp hpd => h p ((hps p).2 ⟨hpp, hpd⟩))
  · intro h p hp' hc
    obtain ⟨hpp, hpd⟩ := (hps p).1 hp'
    have hdv := orderOf_dvd_of_pow_eq_one hc
    rw [h] at hdv
    have hpos : 0 < (q.toNat - 1) / p := Nat.div_pos (Nat.le_of_dvd hq1 hpd) hpp.pos
    have := Nat.le_of_dvd hpos hdv
    have := Nat.div_lt_self hq1 hpp.one_lt
    omega

theorem exists_primitive {q : Nat} (hp : q.Prime) :
    ∃ g, 0 < g ∧ g < q ∧ orderOf (g : ZMod q) = q - 1 := by
  have := Fact.mk hp
  obtain ⟨u, hu⟩ := IsCyclic.exists_generator (α := (ZMod q)ˣ)
  have ho : orderOf u = q - 1 := by
    rw [orderOf_eq_card_of_forall_mem_zpowers hu, Nat.card_eq_fintype_card,
      ZMod.card_units_eq_totient, Nat.totient_prime hp]
  refine ⟨(u : ZMod q).val, ?_, ZMod.val_lt _, ?_⟩
  · rw [Nat.pos_iff_ne_zero, Ne, ZMod.val_eq_zero]; exact u.ne_zero
  · rw [ZMod.natCast_zmod_val, orderOf_units, ho]

theorem rootLoop_spec {q : BitVec w} (hp : q.toNat.Prime) {ps : List Nat}
    (hps : ∀ p, p ∈ ps ↔ p.Prime ∧ p ∣ q.toNat - 1) (g : Nat) (hg0 : 0 < g) :
    (∀ o, rootLoop q (q - 1#w) ps g = some o →
      (∃ r, o = some r ∧ r.toNat < q.toNat ∧ orderOf (r.toNat : ZMod q.toNat) = q.toNat - 1) ∨
      (o = none ∧ ∀ g', g ≤ g' → g' < q.toNat → orderOf (g' : ZMod q.toNat) ≠ q.toNat - 1)) ∧
    (q.toNat ≤ 2 ^ 64 → ∃ o, rootLoop q (q - 1#w) ps g = some o) := by
  induction hk : q.toNat - g using Nat.strongRecOn generalizing g with
  | _ k ih =>
    unfold rootLoop
    by_cases hlt : g < q.toNat
    · rw [dif_pos hlt]
      by_cases h64 : 2 ^ 64 ≤ g
      · rw [if_pos h64]
        exact ⟨fun o h => by simp at h, fun h => by omega⟩
      · rw [if_neg h64]
        obtain ⟨b, hb, hbi⟩ := isPrimitiveCand_iff hp hps hg0 hlt
        rw [hb]
        cases b with
        | true =>
          refine ⟨fun o h => Or.inl ?_, fun _ => ⟨_, rfl⟩⟩
          have hgw : (BitVec.ofNat w g).toNat = g := by
            rw [BitVec.toNat_ofNat]; exact Nat.mod_eq_of_lt (hlt.trans q.isLt)
          refine ⟨BitVec.ofNat w g, (Option.some.inj h).symm, by rw [hgw]; exact hlt, ?_⟩
          rw [hgw]; exact hbi.1 rfl
        | false =>
          obtain ⟨h1, h2⟩ := ih (q.toNat - (g + 1)) (by omega) (g + 1) (by omega) rfl
          refine ⟨fun o h => ?_, h2⟩
          rcases h1 o h with h3 | ⟨h3, h4⟩
          · exact Or.inl h3
          · refine Or.inr ⟨h3, fun g' hg1 hg2 => ?_⟩
            rcases Nat.eq_or_lt_of_le hg1 with rfl | h5
            · intro hc; have := hbi.2 hc; simp at this
            · exact h4 g' h5 hg2
    · rw [dif_neg hlt]
      refine ⟨fun o h => Or.inr ⟨(Option.some.inj h).symm, fun g' h1 h2 => by omega⟩,
        fun _ => ⟨_, rfl⟩⟩

theorem getLsbD_zero_of_odd {q : BitVec w} (h : q.toNat % 2 = 1) : ¬ q.getLsbD 0 = false := by
  rw [BitVec.getLsbD, Nat.testBit_zero]; simp [h]

theorem findPrimitiveRoot_spec {q : BitVec w} (hp : q.toNat.Prime) :
    (∀ o, findPrimitiveRoot q = some o →
      ∃ r, o = some r ∧ r.toNat < q.toNat ∧ orderOf (r.toNat : ZMod q.toNat) = q.toNat - 1) ∧
    (q.toNat ≤ 2 ^ 64 → ∃ o, findPrimitiveRoot q = some o) := by
  unfold findPrimitiveRoot
  rw [if_neg (by have := hp.two_le; omega)]
  rcases hp.eq_two_or_odd with h2 | hodd
  · have : q.getLsbD 0 = false := by rw [BitVec.getLsbD, Nat.testBit_zero, h2]; rfl
    rw [if_pos this, if_pos h2]
    refine ⟨fun o h => ⟨1#w, (Option.some.inj h).symm, ?_, ?_⟩, fun _ => ⟨_, rfl⟩⟩
    · rw [one_toNat (width_pos_of_pos hp.pos)]; omega
    · rw [one_toNat (width_pos_of_pos hp.pos), h2]; simp
  · rw [if_neg (getLsbD_zero_of_odd hodd)]
    have h3 : 3 ≤ q.toNat := by have := hp.two_le; omega
    have h1 := sub_one_toNat (n := q) hp.pos
    obtain ⟨L, hL, hLm, _⟩ := factorize_spec (n := q.toNat - 1) (by omega)
    simp only [h1, hL, Option.bind_eq_bind, Option.bind_some]
    obtain ⟨h4, h5⟩ := rootLoop_spec hp hLm 2 (by omega)
    refine ⟨fun o h => ?_, h5⟩
    rcases h4 o h with h6 | ⟨_, h6⟩
    · exact h6
    · exfalso
      obtain ⟨g, hg0, hg, ho⟩ := exists_primitive hp
      by_cases hg2 : 2 ≤ g
      · exact h6 g hg2 hg ho
      · have : g = 1 := by omega
        subst this
        simp at ho; omega

/-! ### powers of two -/

theorem smear_step (v u : BitVec 64) (s k : Nat) (hk : k = s)
    (h : ∀ i, v.getLsbD i = true ↔ ∃ j, j < s ∧ u.getLsbD (i + j) = true) :
    ∀ i, (v ||| v >>> k).getLsbD i = true ↔ ∃ j, j < 2 * s ∧ u.getLsbD (i + j) = true := by
  subst hk
  intro i
  rw [BitVec.getLsbD_or, BitVec.getLsbD_ushiftRight, Bool.or_eq_true, h, h]
  constructor
  · rintro (⟨j, hj, hb⟩ | ⟨j, hj, hb⟩)
    · exact ⟨j, by omega, hb⟩
    · exact ⟨k + j, by omega, by rw [← hb]; congr 1; omega⟩
  · rintro ⟨j, hj, hb⟩
    by_cases hjk : j < k
    · exact Or.inl ⟨j, hjk, hb⟩
    · exact Or.inr ⟨j - k, by omega, by rw [← hb]; congr 1; omega⟩

theorem nextPowerOfTwo_smear (v : BitVec 64) :
    ∃ s : BitVec 64, nextPowerOfTwo v = s + 1#64 ∧
      ∀ i, s.getLsbD i = true ↔ ∃ j, (v - 1#64).getLsbD (i + j) = true := by
  refine ⟨_, rfl, fun i => ?_⟩
  have h0 : ∀ i, (v - 1#64).getLsbD i = true ↔ ∃ j, j < 1 ∧ (v - 1#64).getLsbD (i + j) = true := by
    intro i; constructor
    · intro h; exact ⟨0, by omega, h⟩
    · rintro ⟨j, hj, h⟩
      have : j = 0 := by omega
      subst this; exact h
  have h1 := smear_step _ _ 1 1 rfl h0
  have h2 := smear_step _ _ (2 * 1) 2 rfl h1
  have h3 := smear_step _ _ (2 * (2 * 1)) 4 rfl h2
  have h4 := smear_step _ _ (2 * (2 * (2 * 1))) 8 rfl h3
  have h5 := smear_step _ _ (2 * (2 * (2 * (2 * 1)))) 16 rfl h4
  have h6 := smear_step _ _ (2 * (2 * (2 * (2 * (2 * 1))))) 32 rfl h5
  rw [h6 i]
  constructor
  · rintro ⟨j, _, h⟩; exact ⟨j, h⟩
  · rintro ⟨j, h⟩
    refine ⟨j, ?_, h⟩
    by_contra hc
    rw [BitVec.getLsbD_of_ge _ _ (by omega)] at h
    exact absurd h (by simp)

theorem testBit_ge_iff (u i : Nat) (hu : u ≠ 0) :
    (∃ j, u.testBit (i + j) = true) ↔ i < Nat.log2 u + 1 := by
  constructor
  · rintro ⟨j, h⟩
    have := Nat.ge_two_pow_of_testBit h
    have h2 : u < 2 ^ (Nat.log2 u + 1) := Nat.lt_log2_self
    have := (Nat.pow_lt_pow_iff_right (a := 2) (by norm_num)).1 (lt_of_le_of_lt this h2)
    omega
  · intro h
    refine ⟨Nat.log2 u - i, ?_⟩
    rw [show i + (Nat.log2 u - i) = Nat.log2 u by omega]
    exact Nat.testBit_log2 hu

/-- value on the whole defined range -/
theorem nextPowerOfTwo_val (v : BitVec 64) (h1 : 1 ≤ v.toNat) (h2 : v.toNat ≤ 2 ^ 63) :
    ∃ k, (nextPowerOfTwo v).toNat = 2 ^ k ∧ v.toNat ≤ 2 ^ k ∧ ∀ j, v.toNat ≤ 2 ^ j → k ≤ j := by
  obtain ⟨s, hs, hb⟩ := nextPowerOfTwo_smear v
  have hu := sub_one_toNat (n := v) h1
  rw [hs]
  rcases Nat.eq_or_lt_of_le h1 with h1' | h1'
  · have hu0 : v - 1#64 = 0#64 := BitVec.eq_of_toNat_eq (by rw [hu]; simp; omega)
    have hs0 : s = 0#64 := by
      apply BitVec.eq_of_getLsbD_eq
      intro i _
      have := hb i
      rw [hu0] at this
      simpa using this
    rw [hs0]
    exact ⟨0, by simp, by omega, fun j _ => by omega⟩
  · set u := v.toNat - 1 with hudef
    have hu0 : u ≠ 0 := by omega
    have hl : u.log2 + 1 ≤ 63 := by
      rw [Nat.succ_le_iff, Nat.log2_lt hu0]; omega
    have hst : s.toNat = 2 ^ (u.log2 + 1) - 1 := by
      apply Nat.eq_of_testBit_eq
      intro i
      rw [Nat.testBit_two_pow_sub_one, ← BitVec.getLsbD]
      have : s.getLsbD i = true ↔ i < u.log2 + 1 := by
        rw [hb i, ← testBit_ge_iff u i hu0]
        simp only [BitVec.getLsbD, hu]
      rw [Bool.eq_iff_iff, this]; simp
    have hp : 2 ^ (u.log2 + 1) ≤ 2 ^ 63 := Nat.pow_le_pow_right (by norm_num) hl
    have hpos : 0 < 2 ^ (u.log2 + 1) := Nat.two_pow_pos _
    refine ⟨u.log2 + 1, ?_, ?_, ?_⟩
    · rw [BitVec.toNat_add, hst, BitVec.toNat_ofNat]; omega
    · have : u < 2 ^ (u.log2 + 1) := Nat.lt_log2_self
      omega
    · intro j hj
      have : u < 2 ^ j := by omega
      exact (Nat.log2_lt hu0).2 this

end Heir.NumTheory
