import Verif.Lwe.KeySwitch
import Verif.ModArith.Props
import Mathlib.Algebra.Group.Pi.Units
import Mathlib.Logic.Equiv.Fin.Basic
import Mathlib.Algebra.Group.Equiv.Finite

/-! # Properties C70, C71 and C72 -/

namespace Heir.Lwe

open Heir.NumTheory Heir.ModArith

variable {A : Type} [CommRing A] {n w : Nat}

/-- The integers as polynomials modulo `X`, for the examples. -/
def intC : ℤ ≃+ (Fin 1 → ℤ) where
  toFun a _ := a
  invFun f := f 0
  left_inv _ := rfl
  right_inv f := by funext i; rw [Subsingleton.elim i 0]
  map_add' _ _ := rfl

/-! ## C70 -/

/-- The representative with coefficients in `[t/2 - t, t/2)` of a reduced polynomial. -/
theorem small_exists (C : A ≃+ (Fin n → ℤ)) {t : Nat} {m : A} (hm : Reduced C t m) :
    ∃ m', Small C t m' ∧ Cong t m' m := by
  refine ⟨C.symm fun i => if C m i < ((t / 2 : Nat) : ℤ) then C m i else C m i - t, ?_, ?_⟩
  · intro i
    rw [C.apply_symm_apply]
    have := hm i
    split <;> omega
  · unfold Cong
    rw [natCast_dvd_iff C]
    intro i
    rw [map_sub, Pi.sub_apply, C.apply_symm_apply]
    split
    · simp
    · exact ⟨-1, by ring⟩

theorem small_unique (C : A ≃+ (Fin n → ℤ)) {t : Nat} {a b : A} (ha : Small C t a) (hb : Small C t b)
    (h : Cong t a b) : a = b := by
  apply C.injective
  funext i
  unfold Cong at h
  rw [natCast_dvd_iff C] at h
  obtain ⟨k, hk⟩ := h i
  rw [map_sub, Pi.sub_apply] at hk
  have h1 := ha i
  have h2 := hb i
  have : k = 0 := by
    by_contra hne
    rcases (by omega : k ≤ -1 ∨ 1 ≤ k) with hl | hl
    · have : (t : ℤ) * k ≤ t * (-1) := mul_le_mul_of_nonneg_left hl (by omega)
      omega
    · have : (t : ℤ) * 1 ≤ t * k := mul_le_mul_of_nonneg_left hl (by omega)
      omega
  rw [this, mul_zero] at hk
  omega

/-- `mod_switch` from `Z/q` to `Z/t` of the residue of a polynomial in the window. -/
theorem modSwitch_red (C : A ≃+ (Fin n → ℤ)) {q t : Nat} {a b : A} (h : Cong q a b)
    (hb : Small C q b) : modSwitch C q t (red C q a) = red C t b := by
  rw [red_eq C h]
  unfold modSwitch red
  congr 1
  funext i
  rw [C.apply_symm_apply]
  have h1 := hb i
  have : (if C b i % (q : ℤ) < ((q / 2 : Nat) : ℤ) then C b i % (q : ℤ) else C b i % (q : ℤ) - q) = C b i := by
    rcases lt_or_ge (C b i) 0 with hn | hn
    · have e : C b i % (q : ℤ) = C b i + q := by
        rw [← Int.add_emod_right, Int.emod_eq_of_lt (by omega) (by omega)]
      rw [e, if_neg (by omega)]
      omega
    · have e : C b i % (q : ℤ) = C b i := Int.emod_eq_of_lt (by omega) (by omega)
      rw [e, if_pos (by omega)]
  rw [this]

/-- The plaintext cast to the ciphertext ring. -/
theorem modSwitch_cast (C : A ≃+ (Fin n → ℤ)) {q t : Nat} {m m' : A} (hm : Reduced C t m)
    (h' : Small C t m') (hc : Cong t m' m) : Cong q (modSwitch C t q m) m' := by
  have h := modSwitch_red C (q := t) (t := q) hc.symm h'
  have e : red C t m = m := by
    rcases Nat.eq_zero_or_pos t with rfl | ht
    · refine C.injective (funext fun i => ?_)
      have := hm i
      omega
    · exact reduced_unique C (red_cong C t m) (red_reduced C ht m) hm
  rw [e] at h
  rw [h]
  exact red_cong C q m'

theorem red_of_small (C : A ≃+ (Fin n → ℤ)) {t : Nat} {m x : A} (hm : Reduced C t m) (hc : Cong t x m) :
    red C t x = m := by
  rcases Nat.eq_zero_or_pos t with rfl | ht
  · refine C.injective (funext fun i => ?_)
    have := hm i
    omega
  · exact reduced_unique C ((red_cong C t x).trans hc) (red_reduced C ht x) hm

/-- C70; missing: decryption multiplies the *first* polynomial with the secret key, encryption adds the
message to the first polynomial, see `C70_violated_pk`. For the ciphertext with its polynomials
exchanged, a public key `[pk0, pk1]` with `pk0 + s * pk1 = t * e`, and a noise factor that is a
multiple of `t`, decryption returns the message whenever message and noise together do not wrap
around. -/
theorem C70_pk_partial (C : A ≃+ (Fin n → ℤ)) {q t : Nat} {k : ℤ} {pk0 pk1 s e u e0 e1 m m' : A}
    (hm : Reduced C t m) (hm' : Small C t m') (hc : Cong t m' m) (hk : (t : ℤ) ∣ k)
    (hpk : Cong q (phase s [pk0, pk1]) (t * e))
    (hs : Small C q (m' + t * (e * u) + k * (e0 + s * e1))) :
    decrypt C q t s (encryptPk C q t k (pk0, pk1) u e0 e1 m).swap = m := by
  have hcast := modSwitch_cast C (q := q) hm hm' hc
  have r := fun a => red_cong C q a
  have h0 : Cong q (encryptPk C q t k (pk0, pk1) u e0 e1 m).1 (pk0 * u + k * e0 + m') :=
    (r _).trans (((r _).trans ((r _).add (r _))).add hcast)
  have h1 : Cong q (encryptPk C q t k (pk0, pk1) u e0 e1 m).2 (pk1 * u + k * e1) :=
    (r _).trans ((r _).add (r _))
  have htot : Cong q (red C q (s * (encryptPk C q t k (pk0, pk1) u e0 e1 m).2)
      + (encryptPk C q t k (pk0, pk1) u e0 e1 m).1) (m' + t * (e * u) + k * (e0 + s * e1)) := by
    refine (((r _).trans ((Cong.refl q s).mul h1)).add h0).trans ?_
    have := (hpk.mul (Cong.refl q u)).add (Cong.refl q (m' + k * (e0 + s * e1)))
    simp only [phase, mul_zero, add_zero] at this
    convert this using 1 <;> ring
  rw [decrypt, Prod.fst_swap, Prod.snd_swap, modSwitch_red C htot hs]
  refine red_of_small C hm (Cong.trans ?_ hc)
  obtain ⟨k', rfl⟩ := hk
  exact ⟨e * u + k' * (e0 + s * e1), by push_cast; ring⟩

example : Reduced intC 4 3 ∧ Small intC 4 (-1) ∧ Cong 4 (-1 : ℤ) 3 ∧
    Cong 97 (phase (5 : ℤ) [-11, 3]) (4 * 1) ∧
    Small intC 97 ((-1 : ℤ) + 4 * (1 * 2) + 4 * (1 + 5 * -1)) ∧
    decrypt intC 97 4 5 (encryptPk intC 97 4 4 (-11, 3) 2 1 (-1) 3).swap = 3 := by
  refine ⟨fun i => ?_, fun i => ?_, ⟨-1, by norm_num⟩, ⟨0, by norm_num [phase]⟩, fun i => ?_, by decide⟩ <;>
    simp [intC]

/-- C70; missing: encryption computes `u * s + m + e` where decryption expects `m + e - u * s`, and does
not multiply the noise with `t`, see `C70_violated_sk`. Decryption with the negated key returns the
message when the noise is a multiple of `t` and does not wrap around. -/
theorem C70_sk_partial (C : A ≃+ (Fin n → ℤ)) {q t : Nat} {s u e m m' : A}
    (hm : Reduced C t m) (hm' : Small C t m') (hc : Cong t m' m) (hs : Small C q (m' + t * e)) :
    decrypt C q t (-s) (encryptSk C q t s u (t * e) m) = m := by
  have hcast := modSwitch_cast C (q := q) hm hm' hc
  have r := fun a => red_cong C q a
  have htot : Cong q (red C q (-s * (encryptSk C q t s u (t * e) m).1)
      + (encryptSk C q t s u (t * e) m).2) (m' + t * e) := by
    have h2 : Cong q (encryptSk C q t s u (t * e) m).2 (u * s + m' + t * e) :=
      (r _).trans (((r _).trans ((r _).add hcast)).add (Cong.refl _ _))
    have := (r (-s * u)).add h2
    refine Cong.trans this ?_
    rw [show -s * u + (u * s + m' + t * e) = m' + t * e by ring]
    exact Cong.refl _ _
  rw [decrypt, modSwitch_red C htot hs]
  exact red_of_small C hm (Cong.trans ⟨e, by ring⟩ hc)

example : Reduced intC 4 3 ∧ Small intC 4 (-1) ∧ Cong 4 (-1 : ℤ) 3 ∧ Small intC 97 ((-1 : ℤ) + 4 * 2) ∧
    decrypt intC 97 4 (-5) (encryptSk intC 97 4 5 13 (4 * 2) 3) = 3 := by
  refine ⟨fun i => ?_, fun i => ?_, ⟨-1, by norm_num⟩, fun i => ?_, by decide⟩ <;> simp [intC]

/-- C70 violated: with the secret key it was encrypted with, and without any noise, a ciphertext decrypts
to `2 * u * s + m`: here message 1 decrypts to 3. With the negated key a noise of 1 changes the
message. -/
theorem C70_violated_sk :
    decrypt intC 97 4 1 (encryptSk intC 97 4 1 3 0 1) = 3 ∧
    decrypt intC 97 4 (-1) (encryptSk intC 97 4 1 3 1 1) = 2 := by decide

/-- C70 violated: a public-key encryption decrypts to `s * m` instead of `m`, without any noise and
whichever component of the public key the secret key belongs to. -/
theorem C70_violated_pk :
    (Cong 97 (phase (3 : ℤ) [-6, 2]) 0 ∧
      decrypt intC 97 4 3 (encryptPk intC 97 4 4 (-6, 2) 0 0 0 1) = 3) ∧
    (Cong 97 (phase (3 : ℤ) [2, -6].reverse) 0 ∧
      decrypt intC 97 4 3 (encryptPk intC 97 4 4 (2, -6) 5 0 0 1) = 3) := by
  refine ⟨⟨⟨0, by norm_num [phase]⟩, by decide⟩, ⟨0, by norm_num [phase]⟩, by decide⟩

/-- C70 violated: the scalar the noise is multiplied with is 0 and not the plaintext modulus, so a
public-key encryption contains no noise at all: the constant `T` of `Z/T` is 0. -/
theorem C70_violated_noise {wt wq : Nat} {T : BitVec wt} {q : BitVec wq} (hT : 2 ≤ T.toNat)
    (hq : typeVerify q = true) (hq0 : 0 < q.toNat) (folded : Bool) : constantT T q folded = some 0#wq := by
  obtain ⟨r, h, hv⟩ := C16_exact (qo := T) (if folded then foldConstant T T else T) hq hq0
  rw [constantT, h]
  congr 1
  apply BitVec.eq_of_toNat_eq
  have h0 : (r.toNat : ℤ) = 0 := by
    rw [hv]
    cases folded
    · rw [if_neg (by simp only [Bool.false_eq_true, if_false]; omega)]
      simp
    · have : (foldConstant T T).toNat = 0 := by simp [foldConstant]
      simp only [if_true, this]
      rw [if_pos (by omega)]
      simp
  rw [BitVec.toNat_ofNat, Nat.zero_mod]
  omega

example : 2 ≤ (65537#32).toNat ∧ typeVerify 161729713#32 = true ∧
    constantT 65537#32 161729713#32 false = some 0#32 := by decide

/-! ## C71 -/

theorem phase_zipWith (C : A ≃+ (Fin n → ℤ)) {q : Nat} {f : A → A → A} (s : A)
    (hf : ∀ {a b c d : A}, f (a + s * c) (b + s * d) = f a b + s * f c d) (h0 : f 0 0 = 0) :
    ∀ {x y : List A}, x.length = y.length →
      Cong q (phase s (List.zipWith (fun a b => red C q (f a b)) x y)) (f (phase s x) (phase s y))
  | [], [], _ => by simp only [List.zipWith_nil_left, phase, h0]; exact Cong.refl _ _
  | [], _ :: _, h => absurd h (by simp)
  | _ :: _, [], h => absurd h (by simp)
  | a :: x, b :: y, h => by
    have ih := phase_zipWith C (q := q) s hf h0 (x := x) (y := y) (by simpa using h)
    rw [List.zipWith_cons_cons, phase, phase, phase, hf]
    exact (red_cong C q _).add ((Cong.refl q s).mul ih)

/-- C71: ciphertexts of the same size are added and subtracted. -/
theorem C71_add_partial (C : A ≃+ (Fin n → ℤ)) {q : Nat} {x y : List A} (h : x.length = y.length) :
    (∃ z, rAdd C q (.tensor x) (.tensor y) = some (.tensor z) ∧ z.length = x.length ∧
      ∀ s, Cong q (phase s z) (phase s x + phase s y) ∧
        Cong q (phase s z.reverse) (phase s x.reverse + phase s y.reverse)) ∧
    (∃ z, rSub C q (.tensor x) (.tensor y) = some (.tensor z) ∧ z.length = x.length ∧
      ∀ s, Cong q (phase s z) (phase s x - phase s y) ∧
        Cong q (phase s z.reverse) (phase s x.reverse - phase s y.reverse)) := by
  have hr : x.reverse.length = y.reverse.length := by simpa using h
  refine ⟨⟨_, by rw [rAdd, binop, if_pos h], by simp [h], fun s => ⟨?_, ?_⟩⟩,
    ⟨_, by rw [rSub, binop, if_pos h], by simp [h], fun s => ⟨?_, ?_⟩⟩⟩
  · exact phase_zipWith C s (f := (· + ·)) (by intros; ring) (by simp) h
  · rw [List.reverse_zipWith h]
    exact phase_zipWith C s (f := (· + ·)) (by intros; ring) (by simp) hr
  · exact phase_zipWith C s (f := (· - ·)) (by intros; ring) (by simp) h
  · rw [List.reverse_zipWith h]
    exact phase_zipWith C s (f := (· - ·)) (by intros; ring) (by simp) hr

example : ∃ z, rAdd intC 7 (.tensor [1, 5]) (.tensor [4, 6]) = some (.tensor z) ∧ z = [5, 4] :=
  ⟨_, rfl, by decide⟩

/-- C71 violated: `lwe.radd` accepts ciphertexts of different sizes (the result has the larger one), and
`lwe.radd_plain` a ciphertext and a plaintext; the ops they are lowered to are invalid. -/
theorem C71_violated_sizes (C : A ≃+ (Fin n → ℤ)) (q : Nat) :
    (∀ x y : List A, x.length ≠ y.length → rAdd C q (.tensor x) (.tensor y) = none ∧
      rSub C q (.tensor x) (.tensor y) = none) ∧
    (∀ (x : List A) (p : A), rAdd C q (.tensor x) (.poly p) = none ∧
      rSub C q (.tensor x) (.poly p) = none) ∧
    ∀ x p : PVal A, rMulPlain C q x p = none := by
  refine ⟨fun x y h => ⟨?_, ?_⟩, fun x p => ⟨rfl, rfl⟩, fun x p => ?_⟩
  · rw [rAdd, binop, if_neg h]
  · rw [rSub, binop, if_neg h]
  · unfold rMulPlain
    split <;> rfl

theorem phase_map (C : A ≃+ (Fin n → ℤ)) (q : Nat) (k s : A) : ∀ x : List A,
    Cong q (phase s (x.map fun a => red C q (k * a))) (k * phase s x)
  | [] => by simp only [List.map_nil, phase, mul_zero]; exact Cong.refl _ _
  | a :: x => by
    rw [List.map_cons, phase, phase, mul_add, mul_left_comm]
    exact (red_cong C q _).add ((Cong.refl q s).mul (phase_map C q k s x))

/-- C71: multiplication by a scalar. -/
theorem C71_mulScalar (C : A ≃+ (Fin n → ℤ)) {q : Nat} {k : ℤ} (x : List A) :
    ∃ z, mulScalar C q k (.tensor x) = .tensor z ∧ z.length = x.length ∧
      ∀ s, Cong q (phase s z) (k * phase s x) ∧ Cong q (phase s z.reverse) (k * phase s x.reverse) := by
  refine ⟨_, rfl, by simp, fun s => ⟨phase_map C q k s x, ?_⟩⟩
  rw [← List.map_reverse]
  exact phase_map C q k s _

example : mulScalar intC 7 3 (.tensor [1, 5]) = .tensor [3, 1] := rfl

/-- C71: what negation computes. -/
theorem C71_negate_exact (C : A ≃+ (Fin n → ℤ)) (q : BitVec w) (x : List A) :
    ∃ z, rNegate C q (.tensor x) = .tensor z ∧ z.length = x.length ∧
      ∀ s, Cong q.toNat (phase s z) (((2 ^ w - 1 : ℤ) : A) * phase s x) := by
  obtain ⟨z, h1, h2, h3⟩ := C71_mulScalar C (q := q.toNat)
    (k := ((foldConstant q (BitVec.allOnes w)).toNat : ℤ)) x
  refine ⟨z, h1, h2, fun s => (h3 s).1.trans ?_⟩
  refine Cong.mul (Cong.of_int ?_) (Cong.refl _ _)
  rw [foldConstant, BitVec.umod_eq, BitVec.toNat_umod, BitVec.toNat_allOnes]
  have hp := Nat.two_pow_pos w
  have := Int.mul_ediv_add_emod ((2 ^ w - 1 : Nat) : ℤ) q.toNat
  refine ⟨-(((2 ^ w - 1 : Nat) : ℤ) / q.toNat), ?_⟩
  have e : ((2 ^ w - 1 : Nat) : ℤ) = 2 ^ w - 1 := by push_cast [Nat.cast_sub hp]; rfl
  rw [e] at this ⊢
  push_cast [Nat.cast_sub hp]
  linarith

/-- C71; missing: negation for moduli that do not divide `2^w`, see `C71_violated_negate`. -/
theorem C71_negate_partial (C : A ≃+ (Fin n → ℤ)) {q : BitVec w} (h : q.toNat ∣ 2 ^ w) (x : List A) :
    ∃ z, rNegate C q (.tensor x) = .tensor z ∧ z.length = x.length ∧
      ∀ s, Cong q.toNat (phase s z) (-phase s x) := by
  obtain ⟨z, h1, h2, h3⟩ := C71_negate_exact C q x
  refine ⟨z, h1, h2, fun s => (h3 s).trans ?_⟩
  have : Cong q.toNat (((2 ^ w - 1 : ℤ) : A)) ((-1 : ℤ) : A) := Cong.of_int (by
    rw [sub_neg_eq_add, sub_add_cancel]
    exact_mod_cast h)
  have := this.mul (Cong.refl q.toNat (phase s x))
  rwa [Int.cast_neg, Int.cast_one, neg_one_mul] at this

example : (16#8).toNat ∣ 2 ^ 8 ∧ rNegate intC 16#8 (.tensor [1, 5]) = .tensor [15, 11] := by
  refine ⟨by decide, rfl⟩

/-- C71 violated: modulo 7 in 8-bit words `lwe.rnegate` multiplies with 3; modulo 65537 in 32-bit words it
multiplies with 0. -/
theorem C71_violated_negate : rNegate intC 7#8 (.tensor [1, 5]) = .tensor [3, 1] ∧
    rNegate intC 65537#32 (.tensor [1, 5]) = .tensor [0, 0] := by
  constructor <;> rfl

/-- C71: the product of two ciphertexts has three polynomials and decrypts to the product, with either
end of the list as the constant term. -/
theorem C71_mul (C : A ≃+ (Fin n → ℤ)) {q : Nat} {x y : List A} (hx : x.length = 2) (hy : y.length = 2) :
    ∃ z, rMul C q x y = some z ∧ z.length = 3 ∧
      ∀ s, Cong q (phase s z) (phase s x * phase s y) ∧
        Cong q (phase s z.reverse) (phase s x.reverse * phase s y.reverse) := by
  match x, hx, y, hy with
  | [x0, x1], _, [y0, y1], _ =>
    have r := fun a => red_cong C q a
    refine ⟨_, rfl, rfl, fun s => ⟨?_, ?_⟩⟩
    · have := (r (x0 * y0)).add ((Cong.refl q s).mul
        (((r _).trans ((r (x0 * y1)).add (r (x1 * y0)))).add ((Cong.refl q s).mul (r (x1 * y1)))))
      simp only [phase, mul_zero, add_zero]
      convert this using 1
      ring
    · have := (r (x1 * y1)).add ((Cong.refl q s).mul
        (((r _).trans ((r (x0 * y1)).add (r (x1 * y0)))).add ((Cong.refl q s).mul (r (x0 * y0)))))
      simp only [List.reverse_cons, List.reverse_nil, List.nil_append, List.cons_append, phase, mul_zero,
        add_zero]
      convert this using 1
      ring

example : rMul intC 97 [1, 5] [4, 6] = some [4, 26, 30] := rfl

/-- C71: multiplication by a ring element. -/
theorem C71_mulRingElt (C : A ≃+ (Fin n → ℤ)) {q : Nat} {x : A} {y : List A} (hy : y.length = 2) :
    ∃ z, rMulRingElt C q (.poly x) (.tensor y) = some (.tensor z) ∧ z.length = 2 ∧
      ∀ s, Cong q (phase s z) (x * phase s y) ∧ Cong q (phase s z.reverse) (x * phase s y.reverse) := by
  match y, hy with
  | [y0, y1], _ =>
    refine ⟨[y0, y1].map fun a => red C q (x * a), rfl, rfl, fun s => ⟨phase_map C q x s _, ?_⟩⟩
    rw [← List.map_reverse]
    exact phase_map C q x s _

example : rMulRingElt intC 7 (.poly 3) (.tensor [1, 5]) = some (.tensor [3, 1]) := rfl

/-! ## C72 -/

/-- C72: mod-down divides every component by the product `P` of the dropped moduli, rounding to a
nearest integer polynomial: `z = P * o + r` with `r` in `[-P/2, P/2)`. The results are reduced. -/
theorem C72_mod_down (C : A ≃+ (Fin n → ℤ)) {qs ps : List (BitVec w)} (hg : GoodBasis (qs ++ ps))
    {ct : List (Elt w A)} (hct : ∀ x ∈ ct, x.map (·.1) = qs ++ ps) :
    ∃ out, modDown C (qs ++ ps) qs.length ct = .ok out ∧
      List.Forall₂ (fun x y => y.map (·.1) = qs ∧ (∀ l ∈ y, Reduced C l.1.toNat l.2) ∧
        ∀ z, Represents x z → ∃ o r, z = (modulus ps : A) * o + r ∧ Centered C (modulus ps) r ∧
          Represents y o) ct out := by
  obtain ⟨ks, hks, h⟩ := modDown_ok (A := A) C hg
  refine ⟨_, h ct, ?_⟩
  rw [List.forall₂_map_right_iff, List.forall₂_same]
  intro x hx
  have hlift : Represents x (lift C x) := (lift_spec C (by rw [hct x hx]; exact hg)).1
  obtain ⟨_, _, -, -, -, hb, hr⟩ := modDownElt_spec C (hct x hx) hg hlift hks
  refine ⟨hb, fun l hl => ?_, fun z hz => ?_⟩
  · obtain ⟨a, ha⟩ := hr l hl
    rw [ha]
    refine red_reduced C ?_ a
    have : l.1 ∈ qs := by
      rw [← hb]
      exact List.mem_map_of_mem hl
    have := hg.two l.1 (List.mem_append_left _ this)
    omega
  · obtain ⟨o, r, h1, h2, h3, -, -⟩ := modDownElt_spec C (hct x hx) hg hz hks
    exact ⟨o, r, h1, h2, h3⟩

theorem example_basis : GoodBasis ([3#8, 5#8] ++ [7#8]) :=
  ⟨by decide, by decide⟩

example : GoodBasis ([3#8, 5#8] ++ [7#8]) ∧ Represents (A := ℤ) [(3#8, 2), (5#8, 3), (7#8, 1)] 8 := by
  refine ⟨example_basis, fun l hl => ?_⟩
  simp only [List.mem_cons, List.not_mem_nil, or_false] at hl
  rcases hl with rfl | rfl | rfl
  · exact ⟨-2, by norm_num⟩
  · exact ⟨-1, by norm_num⟩
  · exact ⟨-1, by norm_num⟩

/-- C72: the key switch. The ring element `value`, with residues of `v`, is split into `N` parts of as
many moduli as there are key-switch primes (the last part may be shorter). If the key consists of `N`
encryptions of `P * g_j * sIn` under `s` with noise `e_j`, the result decrypts to `v * sIn + ν` under
`s`, where `P * ν = Σ_j d_j * e_j - (r0 + s * r1)` with `d_j` bounded by half the product of the moduli of
part `j` and the rounding errors `r0`, `r1` by half of `P`. -/
theorem C72_key_switch (C : A ≃+ (Fin n → ℤ)) {primes : List (BitVec w)} {value : Elt w A} {v sIn s : A}
    (hg : GoodBasis (value.map (·.1) ++ primes)) (hp : primes ≠ []) (hne : value ≠ [])
    (hv : Represents value v) {N : Nat} (hN : N = (value.length + primes.length - 1) / primes.length)
    {key : Nat → Elt w A × Elt w A} {e : Nat → A}
    (hkey : ∀ j < N, IsKey (value.map (·.1)) primes
      (((value.map (·.1)).drop (j * primes.length)).take primes.length) sIn s (e j) (key j)) :
    ∃ out ν r0 r1 o0 o1, ∃ d : Nat → A,
      keySwitch C (value.map (·.1) ++ primes) value ((List.range N).map key) = .ok out ∧
      out.1.map (·.1) = value.map (·.1) ∧ out.2.map (·.1) = value.map (·.1) ∧
      Represents out.1 o0 ∧ Represents out.2 o1 ∧
      (∀ q ∈ value.map (·.1), Cong q.toNat (phase s [o0, o1]) (v * sIn + ν)) ∧
      (modulus primes : A) * ν = ∑ j ∈ Finset.range N, d j * e j - (r0 + s * r1) ∧
      (∀ j < N, Centered C
        (modulus (((value.map (·.1)).drop (j * primes.length)).take primes.length)) (d j)) ∧
      Centered C (modulus primes) r0 ∧ Centered C (modulus primes) r1 :=
  keySwitch_spec C hg hp hne hv hN hkey

/-- The keys of the example: `g_0 = 10`, `g_1 = 6`, from key 4 to key 2, with noises 1 and -1. -/
def exKey (j : Nat) : Elt 8 ℤ × Elt 8 ℤ :=
  if j = 0 then ([(3#8, 0), (5#8, 4), (7#8, 6)], [(3#8, 1), (5#8, 1), (7#8, 1)])
  else ([(3#8, 0), (5#8, 0), (7#8, 4)], [(3#8, 1), (5#8, 1), (7#8, 1)])

theorem exKey_isKey : ∀ j < 2, IsKey [3#8, 5#8] [7#8] (([3#8, 5#8].drop (j * 1)).take 1) (4 : ℤ) 2
    (if j = 0 then 1 else -1) (exKey j) := by
  intro j hj
  have h2 : ∀ {x : Elt 8 ℤ} {a : ℤ}, (∀ l ∈ x, (l.1.toNat : ℤ) ∣ l.2 - a) → Represents x a := fun h => by
    intro l hl
    unfold Cong
    simpa using h l hl
  rcases (by omega : j = 0 ∨ j = 1) with rfl | rfl
  · refine ⟨rfl, rfl, 10, 279, 1, h2 (by decide), h2 (by decide), by decide, by decide, ?_⟩
    intro q hq
    refine ⟨0, ?_⟩
    norm_num [phase, modulus]
  · refine ⟨rfl, rfl, 6, 165, 1, h2 (by decide), h2 (by decide), by decide, by decide, ?_⟩
    intro q hq
    refine ⟨0, ?_⟩
    norm_num [phase, modulus]

example : 2 = (([(3#8, 2), (5#8, 3)] : Elt 8 ℤ).length + [7#8].length - 1) / [7#8].length ∧
    GoodBasis ([3#8, 5#8] ++ [7#8]) ∧ ∀ j < 2, IsKey [3#8, 5#8] [7#8] (([3#8, 5#8].drop (j * 1)).take 1)
      (4 : ℤ) 2 (if j = 0 then 1 else -1) (exKey j) := ⟨rfl, example_basis, exKey_isKey⟩

/-- C72: relinearization of `[c0, c1, c2]` with a key from `s²` to `s` decrypts to the same value up to
the noise of the key switch. -/
theorem C72_relinearize (C : A ≃+ (Fin n → ℤ)) {primes : List (BitVec w)} {c0 c1 c2 : Elt w A}
    {a0 a1 a2 s : A} (hg : GoodBasis (c2.map (·.1) ++ primes)) (hp : primes ≠ []) (hne : c2 ≠ [])
    (hb0 : c0.map (·.1) = c2.map (·.1)) (hb1 : c1.map (·.1) = c2.map (·.1))
    (h0 : Represents c0 a0) (h1 : Represents c1 a1) (h2 : Represents c2 a2) {N : Nat}
    (hN : N = (c2.length + primes.length - 1) / primes.length)
    {key : Nat → Elt w A × Elt w A} {e : Nat → A}
    (hkey : ∀ j < N, IsKey (c2.map (·.1)) primes
      (((c2.map (·.1)).drop (j * primes.length)).take primes.length) (s * s) s (e j) (key j)) :
    ∃ out ν r0 r1 o0 o1, ∃ d : Nat → A,
      relinearize C (c2.map (·.1) ++ primes) ((List.range N).map key) [c0, c1, c2] = .ok out ∧
      Represents out.1 o0 ∧ Represents out.2 o1 ∧
      out.1.map (·.1) = c2.map (·.1) ∧ out.2.map (·.1) = c2.map (·.1) ∧
      (∀ q ∈ c2.map (·.1), Cong q.toNat (phase s [o0, o1]) (phase s [a0, a1, a2] + ν)) ∧
      (modulus primes : A) * ν = ∑ j ∈ Finset.range N, d j * e j - (r0 + s * r1) ∧
      (∀ j < N, Centered C
        (modulus (((c2.map (·.1)).drop (j * primes.length)).take primes.length)) (d j)) ∧
      Centered C (modulus primes) r0 ∧ Centered C (modulus primes) r1 := by
  obtain ⟨out, ν, r0, r1, o0, o1, d, k1, b0, b1, k2, k3, k4, k5, k6, k7, k8⟩ :=
    keySwitch_spec C hg hp hne h2 hN hkey
  obtain ⟨x1, x2⟩ := eltBin_spec C (f := (· + ·)) (fun h h' => Cong.add h h') (b0.trans hb0.symm) k2 h0
  obtain ⟨y1, y2⟩ := eltBin_spec C (f := (· + ·)) (fun h h' => Cong.add h h') (b1.trans hb1.symm) k3 h1
  refine ⟨addCt C out (c0, c1), ν, r0, r1, o0 + a0, o1 + a1, d, by rw [relinearize, k1], x1, y1,
    x2.trans b0, y2.trans b1, fun q hq => ?_, k5, k6, k7, k8⟩
  have := (k4 q hq).add (Cong.refl q.toNat (a0 + s * a1))
  simp only [phase, mul_zero, add_zero] at this ⊢
  convert this using 1 <;> ring

/-- C72: a key whose basis does not properly extend the basis of the value, or with a wrong number of
components, is rejected; so is the relinearization of a ciphertext without exactly three components. -/
theorem C72_rejects (C : A ≃+ (Fin n → ℤ)) {keyBasis : List (BitVec w)} {value : Elt w A}
    {ksk : List (Elt w A × Elt w A)} :
    ((¬ ∃ p ps, keyBasis = value.map (·.1) ++ p :: ps) → keySwitch C keyBasis value ksk = .error .error) ∧
    (∀ p ps, keyBasis = value.map (·.1) ++ p :: ps →
      ksk.length ≠ (value.length + ps.length) / (ps.length + 1) →
      keySwitch C keyBasis value ksk = .error .error) ∧
    ∀ ct : List (Elt w A), ct.length ≠ 3 → relinearize C keyBasis ksk ct = .error .error := by
  refine ⟨fun h => ?_, fun p ps hb hl => ?_, fun ct h => ?_⟩
  · rw [keySwitch]
    split
    · rfl
    split
    · rfl
    rename_i h1 h2
    rw [ne_eq, not_not] at h2
    exfalso
    apply h
    have h3 := List.take_append_drop (value.map (·.1)).length keyBasis
    rw [h2] at h3
    cases hd : keyBasis.drop (value.map (·.1)).length with
    | nil =>
      have := List.drop_eq_nil_iff.1 hd
      omega
    | cons p ps => exact ⟨p, ps, by rw [← h3, hd]⟩
  · subst hb
    rw [keySwitch]
    simp only [List.take_left, List.drop_left, ne_eq, not_true_eq_false, if_false]
    split
    · rfl
    rw [if_pos]
    rw [partitions_eq (by simp)]
    simpa using hl
  · unfold relinearize
    split
    · simp at h
    · rfl

end Heir.Lwe
