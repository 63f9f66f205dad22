import Verif.Lwe.Model
import Verif.Lwe.Spec
import Verif.NumTheory.Props
import Mathlib.RingTheory.Coprime.Basic
import Mathlib.RingTheory.Coprime.Lemmas
import Mathlib.Data.Nat.GCD.BigOperators
import Mathlib.Algebra.BigOperators.Group.Finset.Basic
import Mathlib.Algebra.BigOperators.Ring.Finset
import Mathlib.Tactic.Ring
import Mathlib.Tactic.LinearCombination

/-! # Congruences, centred lifts and mod-down -/

namespace Heir.Lwe

open Heir.NumTheory

variable {A : Type} [CommRing A] {n w : Nat}

/-! ## Congruences -/

theorem natCast_dvd_iff (C : A ≃+ (Fin n → ℤ)) {q : Nat} {a : A} :
    (q : A) ∣ a ↔ ∀ i, (q : ℤ) ∣ C a i := by
  constructor
  · rintro ⟨b, rfl⟩ i
    rw [← nsmul_eq_mul, map_nsmul]
    exact ⟨C b i, by simp⟩
  · intro h
    choose f hf using h
    refine ⟨C.symm f, ?_⟩
    rw [← nsmul_eq_mul]
    apply C.injective
    rw [map_nsmul, C.apply_symm_apply]
    funext i
    rw [hf i]
    simp

theorem Cong.refl (q : Nat) (a : A) : Cong q a a := by
  unfold Cong
  rw [sub_self]
  exact dvd_zero _

theorem Cong.symm {q : Nat} {a b : A} (h : Cong q a b) : Cong q b a := by
  unfold Cong at *
  rw [← neg_sub]
  exact (dvd_neg).2 h

theorem Cong.trans {q : Nat} {a b c : A} (h : Cong q a b) (h' : Cong q b c) : Cong q a c := by
  unfold Cong at *
  have := dvd_add h h'
  rwa [sub_add_sub_cancel] at this

theorem Cong.add {q : Nat} {a a' b b' : A} (h : Cong q a a') (h' : Cong q b b') :
    Cong q (a + b) (a' + b') := by
  unfold Cong at *
  have := dvd_add h h'
  rwa [show a - a' + (b - b') = a + b - (a' + b') by ring] at this

theorem Cong.sub {q : Nat} {a a' b b' : A} (h : Cong q a a') (h' : Cong q b b') :
    Cong q (a - b) (a' - b') := by
  unfold Cong at *
  have := dvd_sub h h'
  rwa [show a - a' - (b - b') = a - b - (a' - b') by ring] at this

theorem Cong.mul {q : Nat} {a a' b b' : A} (h : Cong q a a') (h' : Cong q b b') :
    Cong q (a * b) (a' * b') := by
  unfold Cong at *
  have := dvd_add (dvd_mul_of_dvd_left h b) (dvd_mul_of_dvd_right h' a')
  rwa [show (a - a') * b + a' * (b - b') = a * b - a' * b' by ring] at this

theorem Cong.of_int {q : Nat} {x y : ℤ} (h : (q : ℤ) ∣ x - y) : Cong q (x : A) (y : A) := by
  obtain ⟨k, hk⟩ := h
  refine ⟨(k : A), ?_⟩
  rw [← Int.cast_sub, hk]
  push_cast
  rfl

theorem Cong.sum {q N : Nat} {f g : Nat → A} (h : ∀ j < N, Cong q (f j) (g j)) :
    Cong q (∑ j ∈ Finset.range N, f j) (∑ j ∈ Finset.range N, g j) := by
  induction N with
  | zero => exact Cong.refl _ _
  | succ N ih =>
    rw [Finset.sum_range_succ, Finset.sum_range_succ]
    exact (ih fun j hj => h j (by omega)).add (h N (by omega))

theorem red_cong (C : A ≃+ (Fin n → ℤ)) (q : Nat) (a : A) : Cong q (red C q a) a := by
  unfold Cong
  rw [natCast_dvd_iff C]
  intro i
  rw [map_sub, red, C.apply_symm_apply]
  exact ⟨-(C a i / q), by
    have := Int.mul_ediv_add_emod (C a i) q
    simp only [Pi.sub_apply]
    linarith⟩

theorem red_reduced (C : A ≃+ (Fin n → ℤ)) {q : Nat} (hq : 0 < q) (a : A) : Reduced C q (red C q a) := by
  intro i
  rw [red, C.apply_symm_apply]
  exact ⟨Int.emod_nonneg _ (by omega), Int.emod_lt_of_pos _ (by omega)⟩

theorem red_eq (C : A ≃+ (Fin n → ℤ)) {q : Nat} {a b : A} (h : Cong q a b) : red C q a = red C q b := by
  unfold red
  congr 1
  funext i
  unfold Cong at h
  rw [natCast_dvd_iff C] at h
  have := h i
  rw [map_sub, Pi.sub_apply] at this
  exact Int.emod_eq_emod_iff_emod_sub_eq_zero.2 (Int.emod_eq_zero_of_dvd this)

theorem reduced_unique (C : A ≃+ (Fin n → ℤ)) {q : Nat} {a b : A} (h : Cong q a b) (ha : Reduced C q a)
    (hb : Reduced C q b) : a = b := by
  have e : ∀ {x : A}, Reduced C q x → red C q x = x := fun {x} hx => by
    unfold red
    apply C.injective
    rw [C.apply_symm_apply]
    funext i
    exact Int.emod_eq_of_lt (hx i).1 (hx i).2
  rw [← e ha, ← e hb, red_eq C h]

theorem coprime_modulus {q : BitVec w} {ps : List (BitVec w)}
    (h : ∀ p ∈ ps, Nat.Coprime q.toNat p.toNat) : Nat.Coprime q.toNat (modulus ps) := by
  unfold modulus
  rw [Nat.coprime_list_prod_right_iff]
  intro m hm
  obtain ⟨p, hp, rfl⟩ := List.mem_map.1 hm
  exact h p hp

/-- Divisibility by coprime integers. -/
theorem prod_dvd {a : A} : ∀ {ps : List (BitVec w)},
    (ps.Pairwise fun a b => Nat.Coprime a.toNat b.toNat) → (∀ p ∈ ps, (p.toNat : A) ∣ a) →
    ((modulus ps : Nat) : A) ∣ a
  | [], _, _ => by simp [modulus]
  | p :: ps, hpc, h => by
    have ih := prod_dvd (List.pairwise_cons.1 hpc).2 fun x hx => h x (List.mem_cons_of_mem _ hx)
    have hp := h p (List.mem_cons_self ..)
    rw [show modulus (p :: ps) = p.toNat * modulus ps from by simp [modulus]]
    push_cast
    refine IsCoprime.mul_dvd ?_ hp ih
    have hc : Nat.Coprime p.toNat (modulus ps) := coprime_modulus (List.pairwise_cons.1 hpc).1
    have := (Nat.isCoprime_iff_coprime.2 hc).map (Int.castRingHom A)
    simpa using this

/-- A factor coprime to the modulus can be cancelled. -/
theorem Cong.cancel {q P : Nat} {a b : A} (hc : Nat.Coprime q P) (h : Cong q ((P : A) * a) ((P : A) * b)) :
    Cong q a b := by
  unfold Cong at *
  rw [← mul_sub] at h
  have := (Nat.isCoprime_iff_coprime.2 hc).map (Int.castRingHom A)
  refine IsCoprime.dvd_of_dvd_mul_left ?_ h
  simpa using this

/-! ## Centred lifts -/

theorem crt_spec : ∀ {l : List (Nat × ℤ)}, (l.Pairwise fun a b => Nat.Coprime a.1 b.1) →
    ∀ p ∈ l, (p.1 : ℤ) ∣ crt l - p.2
  | [], _, p, hp => absurd hp (by simp)
  | (q, r) :: rest, hpc, p, hp => by
    obtain ⟨h1, h2⟩ := List.pairwise_cons.1 hpc
    rw [crt]
    rcases List.mem_cons.1 hp with rfl | hp
    · have hc : Nat.Coprime (rest.map (·.1)).prod q := by
        rw [Nat.coprime_list_prod_left_iff]
        intro m hm
        obtain ⟨x, hx, rfl⟩ := List.mem_map.1 hm
        exact (h1 x hx).symm
      have hb := Nat.gcd_eq_gcd_ab (rest.map (·.1)).prod q
      rw [Nat.coprime_iff_gcd_eq_one.1 hc] at hb
      refine ⟨(crt rest - r) * Nat.gcdB (rest.map (·.1)).prod q, ?_⟩
      rw [Nat.cast_one] at hb
      linear_combination (crt rest - r) * hb
    · have hd : (p.1 : ℤ) ∣ (((rest.map (·.1)).prod : Nat) : ℤ) := by
        exact_mod_cast List.dvd_prod (List.mem_map_of_mem hp)
      have := dvd_add (crt_spec h2 p hp) (dvd_mul_of_dvd_left hd ((r - crt rest) *
        Nat.gcdA (rest.map (·.1)).prod q))
      rwa [show ∀ x y z : ℤ, x - y + z = x + z - y from fun x y z => by ring] at this

theorem center_spec {Q : Nat} (hQ : 0 < Q) (z : ℤ) :
    (Q : ℤ) ∣ center Q z - z ∧ -(Q : ℤ) ≤ 2 * center Q z ∧ 2 * center Q z < Q := by
  have h1 := Int.emod_nonneg z (b := (Q : ℤ)) (by omega)
  have h2 := Int.emod_lt_of_pos z (b := (Q : ℤ)) (by omega)
  have h3 := Int.mul_ediv_add_emod z Q
  unfold center
  split
  · refine ⟨⟨-(z / Q), by linarith⟩, by omega, by omega⟩
  · refine ⟨⟨-(z / Q) - 1, by linarith⟩, by omega, by omega⟩

theorem GoodBasis.pos {basis : List (BitVec w)} (h : GoodBasis basis) : 0 < modulus basis := by
  unfold modulus
  refine List.prod_pos fun a ha => ?_
  obtain ⟨q, hq, rfl⟩ := List.mem_map.1 ha
  have := h.two q hq
  omega

theorem GoodBasis.sublist {b b' : List (BitVec w)} (h : GoodBasis b) (hs : b'.Sublist b) :
    GoodBasis b' := ⟨fun q hq => h.two q (hs.subset hq), h.pc.sublist hs⟩

theorem lift_spec (C : A ≃+ (Fin n → ℤ)) {x : Elt w A} (hg : GoodBasis (x.map (·.1))) :
    Represents x (lift C x) ∧ Centered C (modulus (x.map (·.1))) (lift C x) := by
  have hm : (x.map (·.1.toNat)).prod = modulus (x.map (·.1)) := by
    unfold modulus
    rw [List.map_map]
    rfl
  constructor
  · intro l hl
    refine Cong.symm ?_
    unfold Cong
    rw [natCast_dvd_iff C]
    intro i
    rw [map_sub, lift, C.apply_symm_apply, Pi.sub_apply]
    have hpc : (x.map fun l => (l.1.toNat, C l.2 i)).Pairwise fun a b => Nat.Coprime a.1 b.1 := by
      have := hg.pc
      rw [List.pairwise_map] at this ⊢
      exact this
    have h1 := crt_spec hpc (l.1.toNat, C l.2 i) (List.mem_map.2 ⟨l, hl, rfl⟩)
    have h2 := (center_spec (hm ▸ hg.pos) (crt (x.map fun l => (l.1.toNat, C l.2 i)))).1
    have h3 : (l.1.toNat : ℤ) ∣ (((x.map (·.1.toNat)).prod : Nat) : ℤ) := by
      exact_mod_cast List.dvd_prod (List.mem_map.2 ⟨l, hl, rfl⟩)
    have := dvd_add (h3.trans h2) h1
    rwa [sub_add_sub_cancel] at this
  · intro i
    rw [lift, C.apply_symm_apply, hm]
    exact (center_spec hg.pos _).2

theorem convertBasis_spec (C : A ≃+ (Fin n → ℤ)) (target : List (BitVec w)) (x : Elt w A) :
    Represents (convertBasis C target x) (lift C x) ∧ (convertBasis C target x).map (·.1) = target := by
  constructor
  · intro l hl
    obtain ⟨p, _, rfl⟩ := List.mem_map.1 hl
    exact red_cong C _ _
  · unfold convertBasis
    rw [List.map_map]
    exact List.map_id _

/-! ## Element-wise ops -/

theorem eltBin_spec (C : A ≃+ (Fin n → ℤ)) {f : A → A → A}
    (hf : ∀ {q a a' b b'}, Cong q a a' → Cong q b b' → Cong q (f a b) (f a' b')) {a b : A} :
    ∀ {x y : Elt w A}, x.map (·.1) = y.map (·.1) → Represents x a → Represents y b →
      Represents (eltBin C f x y) (f a b) ∧ (eltBin C f x y).map (·.1) = x.map (·.1)
  | [], [], _, _, _ => ⟨fun l hl => absurd hl (by simp [eltBin]), rfl⟩
  | [], _ :: _, h, _, _ => absurd h (by simp)
  | _ :: _, [], h, _, _ => absurd h (by simp)
  | l :: x, m :: y, h, hx, hy => by
    rw [List.map_cons, List.map_cons, List.cons_eq_cons] at h
    obtain ⟨h1, h2⟩ := eltBin_spec C hf h.2 (fun l hl => hx l (List.mem_cons_of_mem _ hl))
      fun l hl => hy l (List.mem_cons_of_mem _ hl)
    constructor
    · intro k hk
      rcases List.mem_cons.1 hk with rfl | hk
      · refine (red_cong C _ _).trans (hf (hx l (List.mem_cons_self ..)) ?_)
        have := hy m (List.mem_cons_self ..)
        rw [← h.1] at this
        exact this
      · exact h1 k hk
    · show l.1 :: (eltBin C f x y).map (·.1) = l.1 :: x.map (·.1)
      rw [h2]

/-! ## The inverse of the product of the key-switch primes -/

theorem pModQ_spec {q : BitVec w} (hq : 0 < q.toNat) : ∀ (ps : List (BitVec w)) (acc : BitVec w),
    acc.toNat < q.toNat → ∃ r, pModQ q ps acc = .ok r ∧ r.toNat < q.toNat ∧
      r.toNat ≡ acc.toNat * modulus ps [MOD q.toNat]
  | [], acc, h => ⟨acc, rfl, h, by simp [modulus, Nat.ModEq]⟩
  | p :: ps, acc, h => by
    have h0 : q ≠ 0#w := fun h => by
      rw [h] at hq
      simp at hq
    obtain ⟨r, e1, e2⟩ := modMul_some (a := acc) (b := p.umod q) hq
    obtain ⟨r', h1, h2, h3⟩ := pModQ_spec hq ps r (e2 ▸ Nat.mod_lt _ hq)
    refine ⟨r', ?_, h2, h3.trans ?_⟩
    · rw [pModQ, if_neg h0, e1]
      exact h1
    · rw [show modulus (p :: ps) = p.toNat * modulus ps from by simp [modulus], ← Nat.mul_assoc]
      refine Nat.ModEq.mul_right _ ?_
      rw [e2]
      refine (Nat.mod_modEq _ _).trans (Nat.ModEq.mul_left _ ?_)
      simp [Nat.ModEq]

theorem pInv_spec {q : BitVec w} {ps : List (BitVec w)} (hq : 2 ≤ q.toNat)
    (hc : Nat.Coprime q.toNat (modulus ps)) :
    ∃ k, pInv ps q = .ok k ∧ k.toNat * modulus ps ≡ 1 [MOD q.toNat] := by
  have hw : 0 < w := width_pos_of_pos (a := q) (by omega)
  have h1 := one_toNat hw
  obtain ⟨r, e1, e2, e3⟩ := pModQ_spec (q := q) (by omega) ps 1#w (by rw [h1]; omega)
  rw [h1, Nat.one_mul] at e3
  obtain ⟨k, e4, e5, _⟩ := C01_multiplicativeInverse hq e2
  have hrc : Nat.Coprime r.toNat q.toNat := by
    rw [Nat.Coprime, e3.gcd_eq]
    exact hc.symm
  obtain ⟨_, e6⟩ := e5 hrc
  have e7 : k.toNat * modulus ps ≡ 1 [MOD q.toNat] := (Nat.ModEq.mul_left _ e3.symm).trans e6
  have hk : k ≠ 0#w := fun hk => by
    rw [hk] at e7
    simp only [BitVec.toNat_ofNat, Nat.zero_mod, Nat.zero_mul, Nat.ModEq] at e7
    rw [Nat.mod_eq_of_lt hq] at e7
    exact absurd e7 (by omega)
  exact ⟨k, by rw [pInv, e1]; simp only [e4]; rw [if_neg hk], e7⟩

theorem pInvs_spec {ps : List (BitVec w)} : ∀ {qs : List (BitVec w)}, (∀ q ∈ qs, 2 ≤ q.toNat) →
    (∀ q ∈ qs, Nat.Coprime q.toNat (modulus ps)) →
    ∃ ks, pInvs ps qs = .ok ks ∧
      List.Forall₂ (fun (q k : BitVec w) => k.toNat * modulus ps ≡ 1 [MOD q.toNat]) qs ks
  | [], _, _ => ⟨[], rfl, .nil⟩
  | q :: qs, h2, hc => by
    obtain ⟨k, e1, e2⟩ := pInv_spec (h2 q (List.mem_cons_self ..)) (hc q (List.mem_cons_self ..))
    obtain ⟨ks, e3, e4⟩ := pInvs_spec (fun q hq => h2 q (List.mem_cons_of_mem _ hq))
      fun q hq => hc q (List.mem_cons_of_mem _ hq)
    exact ⟨k :: ks, by rw [pInvs, e1]; simp only [e3], .cons e2 e4⟩

/-! ## Mod-down -/

theorem scale_spec (C : A ≃+ (Fin n → ℤ)) {P : Nat} {o : A} : ∀ {x : Elt w A} {ks : List (BitVec w)},
    List.Forall₂ (fun (q k : BitVec w) => k.toNat * P ≡ 1 [MOD q.toNat]) (x.map (·.1)) ks →
    Represents x ((P : A) * o) →
    let out := List.zipWith (fun l k => (l.1, red C l.1.toNat ((k.toNat : ℤ) * l.2))) x ks
    Represents out o ∧ out.map (·.1) = x.map (·.1) ∧ ∀ l ∈ out, ∃ a, l.2 = red C l.1.toNat a
  | [], _, h, _ => by
    cases h
    exact ⟨fun l hl => absurd hl (by simp), rfl, fun l hl => absurd hl (by simp)⟩
  | l :: x, ks, h, hr => by
    rw [List.map_cons] at h
    cases h with
    | @cons _ k _ ks h1 h2 =>
    obtain ⟨i1, i2, i3⟩ := scale_spec C h2 fun l hl => hr l (List.mem_cons_of_mem _ hl)
    refine ⟨?_, ?_, ?_⟩
    · intro m hm
      rcases List.mem_cons.1 hm with rfl | hm
      · refine (red_cong C _ _).trans ?_
        have e1 := (Cong.refl l.1.toNat ((k.toNat : ℤ) : A)).mul (hr l (List.mem_cons_self ..))
        refine e1.trans ?_
        have e2 : Cong l.1.toNat (((k.toNat * P : Nat) : ℤ) : A) (((1 : Nat) : ℤ) : A) := by
          refine Cong.of_int ?_
          exact (Int.natCast_modEq_iff.2 h1).symm.dvd
        have := e2.mul (Cong.refl _ o)
        push_cast at this ⊢
        rwa [one_mul, mul_assoc] at this
      · exact i1 m hm
    · show l.1 :: _ = l.1 :: x.map (·.1)
      rw [← i2]
    · intro m hm
      rcases List.mem_cons.1 hm with rfl | hm
      · exact ⟨_, rfl⟩
      · exact i3 m hm

theorem modDownElt_spec (C : A ≃+ (Fin n → ℤ)) {qs ps ks : List (BitVec w)} {x : Elt w A} {z : A}
    (hx : x.map (·.1) = qs ++ ps) (hg : GoodBasis (qs ++ ps)) (hz : Represents x z)
    (hk : List.Forall₂ (fun (q k : BitVec w) => k.toNat * modulus ps ≡ 1 [MOD q.toNat]) qs ks) :
    ∃ o r, z = (modulus ps : A) * o + r ∧ Centered C (modulus ps) r ∧
      Represents (modDownElt C qs.length ks x) o ∧ (modDownElt C qs.length ks x).map (·.1) = qs ∧
      ∀ l ∈ modDownElt C qs.length ks x, ∃ a, l.2 = red C l.1.toNat a := by
  have hb : (x.take qs.length).map (·.1) = qs := by
    rw [List.map_take, hx, List.take_left']
    rfl
  have hp : (x.drop qs.length).map (·.1) = ps := by
    rw [List.map_drop, hx, List.drop_left']
    rfl
  have hgp : GoodBasis ((x.drop qs.length).map (·.1)) := by
    rw [hp]
    exact hg.sublist (List.sublist_append_right ..)
  obtain ⟨l1, l2⟩ := lift_spec C hgp
  set r := lift C (x.drop qs.length) with hr
  have hd : ((modulus ps : Nat) : A) ∣ z - r := by
    have hpp : ∀ p ∈ ps, (p.toNat : A) ∣ z - r := by
      intro p hpm
      rw [← hp] at hpm
      obtain ⟨l, hl, rfl⟩ := List.mem_map.1 hpm
      exact (hz l (List.mem_of_mem_drop hl)).symm.trans (l1 l hl)
    exact prod_dvd (hg.sublist (List.sublist_append_right ..)).pc hpp
  obtain ⟨o, ho⟩ := hd
  refine ⟨o, r, by rw [← ho]; ring, hp ▸ l2, ?_⟩
  obtain ⟨c1, c2⟩ := convertBasis_spec C ((x.take qs.length).map (·.1)) (x.drop qs.length)
  obtain ⟨s1, s2⟩ := eltBin_spec C (fun h h' => Cong.sub h h') (x := x.take qs.length)
    (y := convertBasis C ((x.take qs.length).map (·.1)) (x.drop qs.length)) c2.symm
    (fun l hl => hz l (List.mem_of_mem_take hl)) c1
  rw [← hr, ho] at s1
  have := scale_spec C (P := modulus ps) (o := o) (ks := ks) (by rw [s2, hb]; exact hk) s1
  obtain ⟨t1, t2, t3⟩ := this
  refine ⟨t1, ?_, t3⟩
  rw [modDownElt, t2, s2, hb]

end Heir.Lwe
