import Verif.Noise.Lemmas
import Mathlib.Tactic.Positivity
import Mathlib.Algebra.Order.Field.Basic

/-! # The worst-case model bounds the noise -/

namespace Heir.Noise

variable {R : Type} [CommRing R] {N : Nat}

theorem errLimit_eq (p : Params) : errLimit p = boundErr p := by unfold errLimit boundErr; ring

/-- The phase `ph` has a representative that stands for the message `m` with the noise `e`; the half is for the
message itself. -/
def Fits (S : Size R N) (p : Params) (Q : Nat) (e : ℚ) (c : Bool) (ph m : R) : Prop :=
  ∃ x, Cong Q ph x ∧ Cong p.t x m ∧ (S.nrm x : ℚ) ≤ p.t * (e + 1 / 2) ∧ (c = true → (S.nrm x : ℚ) ≤ p.t * e)

section
variable {S : Size R N} {p : Params} {Q : Nat} {s : R}

theorem Fits.weaken {e : ℚ} {c : Bool} {ph m : R} (h : Fits S p Q e c ph m) : Fits S p Q e false ph m := by
  obtain ⟨x, h1, h2, h3, -⟩ := h
  exact ⟨x, h1, h2, h3, by simp⟩

theorem fits_add {e e' : ℚ} {a b ma mb r mr : R} (ha : Fits S p Q e false a ma) (hb : Fits S p Q e' false b mb)
    (hr : Cong Q r (a + b)) (hm : Cong p.t mr (ma + mb)) : Fits S p Q (evalAdd e e') true r mr := by
  obtain ⟨x, h1, h2, h3, -⟩ := ha
  obtain ⟨y, k1, k2, k3, -⟩ := hb
  have hn : (S.nrm (x + y) : ℚ) ≤ p.t * evalAdd e e' := by
    have : (S.nrm (x + y) : ℚ) ≤ S.nrm x + S.nrm y := by exact_mod_cast S.add_le x y
    unfold evalAdd
    nlinarith
  have ht : (0 : ℚ) ≤ p.t := by positivity
  exact ⟨x + y, hr.trans (h1.add k1), (h2.add k2).trans hm.symm, by nlinarith, fun _ => hn⟩

theorem fits_sub {e e' : ℚ} {a b ma mb r mr : R} (ha : Fits S p Q e false a ma) (hb : Fits S p Q e' false b mb)
    (hr : Cong Q r (a - b)) (hm : Cong p.t mr (ma - mb)) : Fits S p Q (evalAdd e e') true r mr := by
  obtain ⟨x, h1, h2, h3, -⟩ := ha
  obtain ⟨y, k1, k2, k3, -⟩ := hb
  have hn : (S.nrm (x - y) : ℚ) ≤ p.t * evalAdd e e' := by
    have : (S.nrm (x - y) : ℚ) ≤ S.nrm x + S.nrm y := by exact_mod_cast nrm_sub_le S x y
    unfold evalAdd
    nlinarith
  have ht : (0 : ℚ) ≤ p.t := by positivity
  exact ⟨x - y, hr.trans (h1.sub k1), (h2.sub k2).trans hm.symm, by nlinarith, fun _ => hn⟩

theorem evalMul_eq {e e' r : ℚ} (hp : p.Good) (h : evalMul .worst p e e' = some r) :
    r = p.ringDim * p.t * (e * e' + (e + e' + 1) / 2) := by
  unfold evalMul at h
  split at h
  · obtain ⟨k, hk⟩ := hp.even
    have hd : p.ringDim * p.t / 2 = k * p.t := by
      rw [hk, Nat.mul_assoc, Nat.mul_div_cancel_left _ (by norm_num)]
    simp only [Option.some.injEq] at h
    rw [← h, hd, expansion, hk]
    push_cast
    ring
  · cases h

theorem evalMul_nonneg {e e' r : ℚ} (hp : p.Good) (h : evalMul .worst p e e' = some r) (he : 0 ≤ e) (he' : 0 ≤ e') :
    0 ≤ r := by
  rw [evalMul_eq hp h]
  positivity

theorem fits_mul {e e' er : ℚ} {a b ma mb r mr : R} (hp : p.Good) (hN : N = p.ringDim) (he : 0 ≤ e) (he' : 0 ≤ e')
    (ha : Fits S p Q e false a ma) (hb : Fits S p Q e' false b mb) (hr : Cong Q r (a * b))
    (hm : Cong p.t mr (ma * mb)) (hmul : evalMul .worst p e e' = some er) : Fits S p Q er true r mr := by
  obtain ⟨x, h1, h2, h3, -⟩ := ha
  obtain ⟨y, k1, k2, k3, -⟩ := hb
  have ht : (0 : ℚ) ≤ p.t := by positivity
  have hn : (S.nrm (x * y) : ℚ) ≤ p.t * er := by
    have h0 : (S.nrm (x * y) : ℚ) ≤ N * S.nrm x * S.nrm y := by exact_mod_cast S.mul_le x y
    rw [evalMul_eq hp hmul]
    have h4 : (S.nrm x : ℚ) * S.nrm y ≤ p.t * (e + 1 / 2) * (p.t * (e' + 1 / 2)) :=
      mul_le_mul h3 k3 (by positivity) (by positivity)
    have h5 : (N : ℚ) * (S.nrm x * S.nrm y) ≤ N * (p.t * (e + 1 / 2) * (p.t * (e' + 1 / 2))) :=
      mul_le_mul_of_nonneg_left h4 (by positivity)
    have h6 : (0 : ℚ) ≤ p.ringDim * (p.t * p.t) := by positivity
    have hN' : (N : ℚ) = p.ringDim := by rw [hN]
    rw [hN'] at h0 h5
    nlinarith
  exact ⟨x * y, hr.trans (h1.mul k1), (h2.mul k2).trans hm.symm, by nlinarith, fun _ => hn⟩

theorem rounding_le {P : Nat} {r : R} (hs : S.nrm s ≤ 1) (h : Rounding S s P r) :
    (S.nrm r : ℚ) ≤ P * ((1 + N) / 2) := by
  obtain ⟨r₀, r₁, h0, h1, rfl⟩ := h
  have a1 : (S.nrm (r₀ + r₁ * s) : ℚ) ≤ S.nrm r₀ + S.nrm (r₁ * s) := by exact_mod_cast S.add_le _ _
  have a2 : S.nrm (r₁ * s) ≤ N * S.nrm r₁ := by
    refine le_trans (S.mul_le _ _) ?_
    calc N * S.nrm r₁ * S.nrm s ≤ N * S.nrm r₁ * 1 := Nat.mul_le_mul_left _ hs
      _ = _ := Nat.mul_one _
  have a2' : (S.nrm (r₁ * s) : ℚ) ≤ N * S.nrm r₁ := by exact_mod_cast a2
  have h0' : (2 : ℚ) * S.nrm r₀ ≤ P := by exact_mod_cast h0
  have h1' : (2 : ℚ) * S.nrm r₁ ≤ P := by exact_mod_cast h1
  have hN : (0 : ℚ) ≤ N := by positivity
  have : (N : ℚ) * (2 * S.nrm r₁) ≤ N * P := mul_le_mul_of_nonneg_left h1' hN
  nlinarith

/-- Dividing by `q` exactly. -/
theorem fits_modReduce {q : Nat} {e er : ℚ} {c : Bool} {a ma r mr ρ : R} (hq : 0 < q) (hqt : Nat.Coprime q p.t)
    (hs : S.nrm s ≤ 1) (ha : Fits S p (Q * q) e c a ma) (hρ : Rounding S s q ρ)
    (hr : Cong (Q * q) (q * r) (a + p.t * ρ)) (hm : Cong p.t (q * mr) ma)
    (her : er = e * (1 / q) + (1 + N) / 2) : Fits S p Q er c r mr := by
  obtain ⟨x, h1, h2, h3, h4⟩ := ha
  obtain ⟨u, hu⟩ := hr
  obtain ⟨w, hw⟩ := h1
  have hx : (q : R) * (r - Q * (u + w)) = x + p.t * ρ := by
    rw [hw] at hu
    push_cast at hu
    linear_combination hu
  have ht : (0 : ℚ) ≤ p.t := by positivity
  have hq' : (0 : ℚ) < q := by exact_mod_cast hq
  have hρ' := rounding_le hs hρ
  have hn : (q : ℚ) * S.nrm (r - Q * (u + w)) ≤ S.nrm x + p.t * (q * ((1 + N) / 2)) := by
    have e1 : S.nrm ((q : R) * (r - Q * (u + w))) = q * S.nrm (r - Q * (u + w)) := nrm_nat S _ _
    have e2 : S.nrm ((q : R) * (r - Q * (u + w))) ≤ S.nrm x + p.t * S.nrm ρ := by
      rw [hx]
      exact le_trans (S.add_le _ _) (by rw [nrm_nat])
    rw [e1] at e2
    have e3 : (q : ℚ) * S.nrm (r - Q * (u + w)) ≤ S.nrm x + p.t * S.nrm ρ := by exact_mod_cast e2
    have e4 : (p.t : ℚ) * S.nrm ρ ≤ p.t * (q * ((1 + N) / 2)) := mul_le_mul_of_nonneg_left hρ' ht
    linarith
  have hdiv : ∀ B : ℚ, (S.nrm x : ℚ) ≤ p.t * B → (S.nrm (r - Q * (u + w)) : ℚ) ≤ p.t * (B * (1 / q) + (1 + N) / 2) := by
    intro B hB
    rw [← mul_le_mul_iff_right₀ hq']
    have : (q : ℚ) * (p.t * (B * (1 / q) + (1 + N) / 2)) = p.t * B + p.t * (q * ((1 + N) / 2)) := by
      field_simp
    rw [this]
    linarith
  refine ⟨r - Q * (u + w), ⟨u + w, by ring⟩, ?_, ?_, ?_⟩
  · apply Cong.cancel hqt
    rw [hx]
    exact (Cong.mul_right_self _ _ _).trans (h2.trans hm.symm)
  · refine le_trans (hdiv _ h3) ?_
    rw [her]
    apply mul_le_mul_of_nonneg_left _ ht
    have : (1 : ℚ) / q ≤ 1 := by
      rw [div_le_one hq']
      exact_mod_cast hq
    nlinarith
  · intro hc
    rw [her]
    exact hdiv _ (h4 hc)

theorem switch_le {lvl : Nat} {k : R} (hs : S.nrm s ≤ 1) (hstd : 0 ≤ p.std0) (hd : digits p lvl ≤ numDigits p lvl)
    (h : SwitchError S p s lvl k) :
    (S.nrm k : ℚ) ≤ numDigits p lvl * N * boundErr p / 2 + (1 + N) / 2 := by
  obtain ⟨P, D, ds, r, hP, hDP, hlen, hds, hr, hk⟩ := h
  rw [errLimit_eq] at hds
  have hP' : (0 : ℚ) < P := by exact_mod_cast hP
  have hB : 0 ≤ boundErr p := by unfold boundErr; positivity
  have hsum : ∀ l : List (R × R), (∀ d ∈ l, 2 * S.nrm d.1 ≤ D ∧ (S.nrm d.2 : ℚ) ≤ boundErr p) →
      (S.nrm (l.map fun d => d.1 * d.2).sum : ℚ) ≤ l.length * (N * (D / 2) * boundErr p) := by
    intro l
    induction l with
    | nil => simp [nrm_zero S]
    | cons d l ih =>
      intro hl
      rw [List.map_cons, List.sum_cons, List.length_cons]
      have a1 : (S.nrm (d.1 * d.2 + (l.map fun d => d.1 * d.2).sum) : ℚ) ≤
          S.nrm (d.1 * d.2) + S.nrm (l.map fun d => d.1 * d.2).sum := by exact_mod_cast S.add_le _ _
      have a2 : (S.nrm (d.1 * d.2) : ℚ) ≤ N * S.nrm d.1 * S.nrm d.2 := by exact_mod_cast S.mul_le _ _
      obtain ⟨b1, b2⟩ := hl d (by simp)
      have b1' : (S.nrm d.1 : ℚ) ≤ D / 2 := by
        have : (2 : ℚ) * S.nrm d.1 ≤ D := by exact_mod_cast b1
        linarith
      have a3 : (N : ℚ) * S.nrm d.1 * S.nrm d.2 ≤ N * (D / 2) * boundErr p :=
        mul_le_mul (mul_le_mul_of_nonneg_left b1' (by positivity)) b2 (by positivity) (by positivity)
      have := ih fun d hd => hl d (by simp [hd])
      push_cast
      linarith
  have h1 : (P : ℚ) * S.nrm k ≤ S.nrm (ds.map fun d => d.1 * d.2).sum + S.nrm r := by
    have e1 := nrm_nat S P k
    have e2 : S.nrm ((P : R) * k) ≤ S.nrm (ds.map fun d => d.1 * d.2).sum + S.nrm r := by
      rw [hk]; exact S.add_le _ _
    rw [e1] at e2
    exact_mod_cast e2
  have h2 := hsum ds hds
  have h3 := rounding_le hs hr
  have h4 : (ds.length : ℚ) * (N * (D / 2) * boundErr p) ≤ numDigits p lvl * (N * (P / 2) * boundErr p) := by
    have : (ds.length : ℚ) ≤ numDigits p lvl := by exact_mod_cast le_trans hlen hd
    have hD : (D : ℚ) / 2 ≤ P / 2 := by
      have : (D : ℚ) ≤ P := by exact_mod_cast hDP
      linarith
    refine mul_le_mul this ?_ (by positivity) (by positivity)
    exact mul_le_mul_of_nonneg_right (mul_le_mul_of_nonneg_left hD (by positivity)) hB
  rw [← mul_le_mul_iff_right₀ hP']
  nlinarith

theorem fits_switch {lvl : Nat} {e : ℚ} {c : Bool} {a ma r mr k : R} (hN : N = p.ringDim) (hs : S.nrm s ≤ 1)
    (hstd : 0 ≤ p.std0) (hd : digits p lvl ≤ numDigits p lvl) (hk : SwitchError S p s lvl k)
    (ha : Fits S p Q e c a ma) (hr : Cong Q r (a + p.t * k)) (hm : Cong p.t mr ma) :
    Fits S p Q (evalRelinearize .worst p lvl e) c r mr := by
  obtain ⟨x, h1, h2, h3, h4⟩ := ha
  have hk' := switch_le hs hstd hd hk
  have ht : (0 : ℚ) ≤ p.t := by positivity
  have hn : (S.nrm (x + p.t * k) : ℚ) ≤ S.nrm x + p.t * S.nrm k := by
    have := S.add_le x (p.t * k)
    rw [nrm_nat] at this
    exact_mod_cast this
  have hb : ∀ B : ℚ, (S.nrm x : ℚ) ≤ p.t * B → (S.nrm (x + p.t * k) : ℚ) ≤
      p.t * (B + numDigits p lvl * expansion p .worst * boundErr p / 2 + addedMS .worst p) := by
    intro B hB
    have e1 : numDigits p lvl * N * boundErr p / 2 + (1 + N) / 2 =
        numDigits p lvl * expansion p .worst * boundErr p / 2 + addedMS .worst p := by
      unfold addedMS expansion expansionMS boundKey
      rw [hN]; ring
    rw [e1] at hk'
    have := mul_le_mul_of_nonneg_left hk' ht
    linarith
  refine ⟨x + p.t * k, hr.trans (h1.add (Cong.refl _ _)), ((Cong.mul_right_self _ _ _).trans h2).trans hm.symm, ?_, ?_⟩
  · refine le_trans (hb _ h3) (le_of_eq ?_)
    unfold evalRelinearize; ring
  · intro hc
    exact hb _ (h4 hc)

theorem pkError_le_of {f : R} {B : ℚ} (hs : S.nrm s ≤ 1) (hB : ∀ x : R, (S.nrm x : ℚ) ≤ boundErr p → (S.nrm x : ℚ) ≤ B)
    (h : PkError S p s f) : (S.nrm f : ℚ) ≤ B * (1 + 2 * N) := by
  obtain ⟨u, e, e₀, e₁, hu, he, he0, he1, rfl⟩ := h
  rw [errLimit_eq] at he he0 he1
  have a1 : S.nrm (u * e) ≤ N * S.nrm e := by
    refine le_trans (S.mul_le _ _) ?_
    calc N * S.nrm u * S.nrm e ≤ N * 1 * S.nrm e := Nat.mul_le_mul_right _ (Nat.mul_le_mul_left _ hu)
      _ = _ := by rw [Nat.mul_one]
  have a2 : S.nrm (e₁ * s) ≤ N * S.nrm e₁ := by
    refine le_trans (S.mul_le _ _) ?_
    calc N * S.nrm e₁ * S.nrm s ≤ N * S.nrm e₁ * 1 := Nat.mul_le_mul_left _ hs
      _ = _ := Nat.mul_one _
  have a3 : S.nrm (u * e + e₁ * s + e₀) ≤ N * S.nrm e + N * S.nrm e₁ + S.nrm e₀ :=
    le_trans (S.add_le _ _) (Nat.add_le_add_right (le_trans (S.add_le _ _) (Nat.add_le_add a1 a2)) _)
  have a4 : (S.nrm (u * e + e₁ * s + e₀) : ℚ) ≤ N * S.nrm e + N * S.nrm e₁ + S.nrm e₀ := by exact_mod_cast a3
  have hN : (0 : ℚ) ≤ N := by positivity
  have h0 := hB _ he0
  nlinarith [mul_le_mul_of_nonneg_left (hB _ he) hN, mul_le_mul_of_nonneg_left (hB _ he1) hN]

theorem pkError_le {f : R} (hs : S.nrm s ≤ 1) (h : PkError S p s f) :
    (S.nrm f : ℚ) ≤ boundErr p * (1 + 2 * N) := pkError_le_of hs (fun _ h => h) h

theorem freshError_le {lvl dim : Nat} {f : R} {e : ℚ} (hN : N = p.ringDim) (hs : S.nrm s ≤ 1) (hp : p.Good)
    (h : FreshError S p s lvl f) (he : evalEncrypt .worst p lvl dim = some e) : (S.nrm f : ℚ) ≤ e := by
  have hpk : evalEncryptPk .worst p = boundErr p * (1 + 2 * N) := by
    unfold evalEncryptPk expansion boundKey; rw [hN]; ring
  unfold FreshError at h
  unfold evalEncrypt at he
  split at h
  · rename_i hx
    rw [if_pos hx] at he
    unfold evalModReduce at he
    split at he
    · obtain ⟨q, hq, rfl⟩ := Option.map_eq_some_iff.1 he
      obtain ⟨P, r, g, hg, hP, hqP, hr, hf⟩ := h
      have hqP' : q ≤ P := hqP q hq
      have hq0 : 0 < q := (hp.qi q (List.mem_of_getElem? hq)).1
      have hg' := pkError_le hs hg
      have hr' := rounding_le hs hr
      have hP' : (0 : ℚ) < P := by exact_mod_cast hP
      have hq0' : (0 : ℚ) < q := by exact_mod_cast hq0
      have hqPq : (q : ℚ) ≤ P := by exact_mod_cast hqP'
      have e1 : (P : ℚ) * S.nrm f ≤ S.nrm g + S.nrm r := by
        have := S.add_le g r
        rw [← hf, nrm_nat] at this
        exact_mod_cast this
      rw [hpk]
      have hB : 0 ≤ boundErr p := by unfold boundErr; have := hp.std0; positivity
      have e2 : addedMS .worst p = (1 + N) / 2 := by
        unfold addedMS expansionMS boundKey; rw [hN]; ring
      rw [e2, ← mul_le_mul_iff_right₀ hP']
      have e3 : boundErr p * (1 + 2 * N) ≤ P * (boundErr p * (1 + 2 * N) * (1 / q)) := by
        have hb : 0 ≤ boundErr p * (1 + 2 * (N : ℚ)) := by positivity
        have : (1 : ℚ) ≤ P * (1 / q) := by
          rw [mul_one_div, le_div_iff₀ hq0']; linarith
        nlinarith [mul_le_mul_of_nonneg_left this hb]
      linarith
    · cases he
  · rename_i hx
    rw [if_neg hx] at he
    split at h
    · rename_i hu
      rw [if_pos hu] at he
      cases he
      rw [hpk]
      exact pkError_le hs h
    · rename_i hu
      rw [if_neg hu] at he
      cases he
      rw [errLimit_eq] at h
      exact h

theorem freshError_slack {lvl dim : Nat} {f : R} {e : ℚ} (hN : N = p.ringDim) (hs : S.nrm s ≤ 1) (hp : p.Good)
    (hsl : p.Slack) (h : FreshError S p s lvl f) (he : evalEncrypt .worst p lvl dim = some e) :
    (S.nrm f : ℚ) + 1 / 2 ≤ e := by
  have hN' : (N : ℚ) = p.ringDim := by rw [hN]
  unfold FreshError at h
  unfold evalEncrypt at he
  unfold Params.Slack at hsl
  rw [errLimit_eq] at hsl
  split at h
  · rename_i hx
    rw [if_pos hx] at he hsl
    unfold evalModReduce at he
    split at he
    · obtain ⟨q, hq, rfl⟩ := Option.map_eq_some_iff.1 he
      obtain ⟨P, r, g, hg, hP, hqP, hr, hf⟩ := h
      have hqP' : q ≤ P := hqP q hq
      have hqPq : (q : ℚ) ≤ P := by exact_mod_cast hqP'
      have hsl' := hsl q (List.mem_of_getElem? hq)
      rw [← hN'] at hsl'
      have hg' := pkError_le hs hg
      have hr' := rounding_le hs hr
      have hP' : (0 : ℚ) < P := by exact_mod_cast hP
      have e1 : (P : ℚ) * S.nrm f ≤ S.nrm g + S.nrm r := by
        have := S.add_le g r
        rw [← hf, nrm_nat] at this
        exact_mod_cast this
      obtain ⟨k, hk⟩ := hp.even
      rw [← hN] at hk
      have hk' : (N : ℚ) = 2 * k := by exact_mod_cast hk
      have e2 : (P : ℚ) * S.nrm f < P * (k + 1) := by
        rw [hk'] at hr' hsl' hg'
        nlinarith
      have e3 : (S.nrm f : ℚ) < k + 1 := lt_of_mul_lt_mul_left e2 hP'.le
      have e4 : S.nrm f ≤ k := by
        have : S.nrm f < k + 1 := by exact_mod_cast e3
        omega
      have e5 : (S.nrm f : ℚ) ≤ k := by exact_mod_cast e4
      have hB : 0 ≤ boundErr p := by unfold boundErr; have := hp.std0; positivity
      have e6 : 0 ≤ evalEncryptPk .worst p * (1 / (q : ℚ)) := by unfold evalEncryptPk expansion boundKey; positivity
      have e7 : addedMS .worst p = (1 + 2 * k) / 2 := by
        unfold addedMS expansionMS boundKey; rw [← hk', hN']; ring
      rw [e7]
      linarith
    · cases he
  · rename_i hx
    rw [if_neg hx] at he hsl
    obtain ⟨hu, b, hb1, hb2⟩ := hsl
    rw [if_pos hu] at h he
    cases he
    have hpk : evalEncryptPk .worst p = boundErr p * (1 + 2 * N) := by
      unfold evalEncryptPk expansion boundKey; rw [hN]; ring
    have := pkError_le_of (B := b) hs (fun x hx => by
      have : (S.nrm x : ℚ) < b + 1 := lt_of_le_of_lt hx hb1
      have : S.nrm x < b + 1 := by exact_mod_cast this
      exact_mod_cast Nat.lt_succ_iff.1 this) h
    rw [← hN'] at hb2
    rw [hpk]
    linarith

theorem evalEncrypt_nonneg {lvl dim : Nat} {e : ℚ} (hp : p.Good) (he : evalEncrypt .worst p lvl dim = some e) :
    0 ≤ e := by
  have hB : 0 ≤ boundErr p := by unfold boundErr; have := hp.std0; positivity
  have hpk : 0 ≤ evalEncryptPk .worst p := by unfold evalEncryptPk expansion boundKey; positivity
  unfold evalEncrypt at he
  split at he
  · unfold evalModReduce at he
    split at he
    · obtain ⟨q, hq, rfl⟩ := Option.map_eq_some_iff.1 he
      unfold addedMS expansionMS boundKey
      positivity
    · cases he
  · split at he
    · cases he; exact hpk
    · cases he; exact hB

end

/-! ## The analysis -/

/-- The noise of an operand. -/
def operandNoise (t : Nat → Fact) (a : Nat) : Option ℚ := if (t a).sec then (t a).noise else some evalConstant

theorem pair_noises (t : Nat → Fact) (a b : Nat) :
    operandNoises t [a, b] = [operandNoise t a, operandNoise t b] ∨
      operandNoises t [a, b] = [operandNoise t b, operandNoise t a] := by
  unfold operandNoises operandNoise
  cases ha : (t a).sec <;> cases hb : (t b).sec <;> simp [ha, hb]

theorem evalMul_comm (v : Variant) (p : Params) (a b : ℚ) : evalMul v p a b = evalMul v p b a := by
  unfold evalMul
  split
  · congr 1; ring
  · rfl

theorem evalAdd_comm (a b : ℚ) : evalAdd a b = evalAdd b a := by unfold evalAdd; ring

theorem take_prod_succ (l : List Nat) (n q : Nat) (h : l[n + 1]? = some q) :
    (l.take (n + 2)).prod = (l.take (n + 1)).prod * q := by
  rw [List.take_add_one, h]
  simp

theorem modulus_dvd (p : Params) {m n : Nat} (h : m ≤ n) : modulus p m ∣ modulus p n := by
  unfold modulus
  have : p.qi.take (m + 1) = (p.qi.take (n + 1)).take (m + 1) := by
    rw [List.take_take, Nat.min_eq_left (by omega)]
  rw [this]
  conv_rhs => rw [← List.take_append_drop (m + 1) (p.qi.take (n + 1)), List.prod_append]
  exact Dvd.intro _ rfl

theorem noise_bound (S : Size R N) (p : Params) (s : R) (rot : Nat → R → R) (V : Values R) (g : Prog)
    (hN : N = p.ringDim) (hp : p.Good) (hssa : SSA (· < g.nargs) g.ops)
    (hman : Managed (facts .worst p g) g) (hpick : PicksOne (facts .worst p g) g)
    (hdig : ∀ lvl, digits p lvl ≤ numDigits p lvl) (hrot : Rotations S rot)
    (hrun : Runs S p s rot (facts .worst p g) V g) (base : Bool) (hbase : base = true → p.Slack) (v : Nat)
    (hv : g.Value v) :
    (facts .worst p g v).sec = true → ∀ e, (facts .worst p g v).noise = some e →
      0 ≤ e ∧ ∀ i, Fits S p (modulus p (facts .worst p g v).lvl) e (base || computed (facts .worst p g) g v)
        (phase s (V.ct v i)) (V.msg v i) := by
  have hfix := run_fix _ (step .worst p) (step_local _ _) g.ops (entry .worst p g) hssa
  change ∀ o ∈ g.ops, facts .worst p g o.res = step .worst p (facts .worst p g) o at hfix
  have hent : ∀ x, x < g.nargs → facts .worst p g x = entry .worst p g x := fun x hx =>
    run_of_defined _ _ _ _ hssa x hx
  generalize facts .worst p g = t at *
  have hcfix := run_fix _ (computedStep t) (computedStep_local t) g.ops (fun _ => false) hssa
  change ∀ o ∈ g.ops, computed t g o.res = computedStep t (computed t g) o at hcfix
  have hcent : ∀ x, x < g.nargs → computed t g x = false := fun x hx => run_of_defined _ _ _ _ hssa x hx
  generalize computed t g = c at *
  have h0 : ∀ x, x < g.nargs → (t x).sec = true → ∀ e, (t x).noise = some e →
      0 ≤ e ∧ ∀ i, Fits S p (modulus p (t x).lvl) e (base || c x) (phase s (V.ct x i)) (V.msg x i) := by
    intro x hx hsec e he
    have hsa : g.secArg x = true := by
      have := hent x hx
      rw [this] at hsec
      simpa [entry, hx] using hsec
    have hen : evalEncrypt .worst p (t x).lvl (g.argDim x) = some e := by
      have := hent x hx
      rw [this] at he
      rw [this]
      simpa [entry, hx, hsa] using he
    refine ⟨evalEncrypt_nonneg hp hen, fun i => ?_⟩
    obtain ⟨m, f, hm, hf, hmm, hc⟩ := hrun.fresh x hx hsec i
    have hfe := freshError_le hN hrun.key hp hf hen
    have ht : (0 : ℚ) ≤ p.t := by positivity
    have a1 := S.add_le m (p.t * f)
    rw [nrm_nat] at a1
    have a2 : (S.nrm (m + p.t * f) : ℚ) ≤ S.nrm m + p.t * S.nrm f := by exact_mod_cast a1
    have a3 : (2 : ℚ) * S.nrm m ≤ p.t := by exact_mod_cast hm
    refine ⟨m + p.t * f, hc, (Cong.mul_right_self _ _ _).trans hmm, ?_, fun hb => ?_⟩
    · have a4 := mul_le_mul_of_nonneg_left hfe ht
      linarith
    · have hb' : base = true := by simpa [hcent x hx] using hb
      have a4 := mul_le_mul_of_nonneg_left (freshError_slack hN hrun.key hp (hbase hb') hf hen) ht
      linarith
  have hall := ssa_induction (fun v => (t v).sec = true → ∀ e, (t v).noise = some e →
      0 ≤ e ∧ ∀ i, Fits S p (modulus p (t v).lvl) e (base || c v) (phase s (V.ct v i)) (V.msg v i)) g.ops _ hssa h0 (by
    intro op hop ih hsec e he
    have fx := hfix op hop
    have cx := hcfix op hop
    have hA := ssa_mem _ _ hssa op hop
    have hperf := hrun.ops op hop hsec
    have hm := hman op hop hsec
    have hlvl : (t op.res).lvl = op.lvl := by rw [fx]; rfl
    have hany : (op.args.any fun a => (t a).sec) = true := by rw [← hsec, fx]; rfl
    have hns : noiseStep .worst p t op = some e := by
      rw [← he, fx]
      simp only [step, hany, if_true]
    rw [hlvl, cx]
    -- operands of binary operations
    have hop2 : op.kind = .add ∨ op.kind = .sub ∨ op.kind = .mul → ∀ a ∈ op.args, ∀ ea, operandNoise t a = some ea →
        0 ≤ ea ∧ ∀ i, Fits S p (modulus p op.lvl) ea false (V.at s t a i) (V.msg a i) := by
      intro hk a ha ea hea
      unfold operandNoise at hea
      unfold Values.at
      split at hea
      · rename_i hs
        have hl : (t a).lvl = op.lvl := by
          have := hm a ha hs
          rcases hk with hk | hk | hk <;> simpa [hk] using this
        obtain ⟨h1, h2⟩ := ih a ha hs ea hea
        refine ⟨h1, fun i => ?_⟩
        rw [if_pos hs, ← hl]
        exact (h2 i).weaken
      · rename_i hs
        cases hea
        refine ⟨le_rfl, fun i => ?_⟩
        rw [if_neg hs]
        obtain ⟨h1, h2⟩ := hrun.plain a i (by simpa using hs)
        refine ⟨V.pt a i, Cong.refl _ _, h2, ?_, by simp⟩
        have : (2 : ℚ) * S.nrm (V.pt a i) ≤ p.t := by exact_mod_cast h1
        unfold evalConstant
        linarith
    have hbin : op.kind = .add ∨ op.kind = .sub ∨ op.kind = .mul → ∃ a b, op.args = [a, b] := by
      intro hk
      have := hA.1 hk
      match hq : op.args, this with
      | [a, b], _ => exact ⟨a, b, rfl⟩
    have hun : op.kind ≠ .add ∧ op.kind ≠ .sub ∧ op.kind ≠ .mul ∧ op.kind ≠ .pick → ∃ a, op.args = [a] ∧
        (t a).sec = true := by
      intro hk
      have := hA.2 hk
      match hq : op.args, this with
      | [a], _ =>
        rw [hq] at hany
        exact ⟨a, rfl, by simpa using hany⟩
    unfold noiseStep at hns
    unfold Performs at hperf
    cases hk : op.kind with
    | add =>
      obtain ⟨a, b, hab⟩ := hbin (by simp [hk])
      have hcs : (base || computedStep t c op) = true := by simp [computedStep, hk]
      have hops := hop2 (by simp [hk])
      simp only [hk, hab, List.getD_cons_zero, List.getD_cons_succ] at hperf hns hops
      obtain ⟨ea, eb, h1, h2, h3⟩ : ∃ ea eb, operandNoise t a = some ea ∧ operandNoise t b = some eb ∧
          evalAdd ea eb = e := by
        rcases pair_noises t a b with hp2 | hp2 <;> rw [hp2] at hns <;>
          simp only [List.getD_cons_zero, List.getD_cons_succ, Option.bind_eq_bind, Option.bind_eq_some_iff] at hns
        · obtain ⟨x, hx, y, hy, hxy⟩ := hns
          exact ⟨x, y, hx, hy, by simpa using hxy⟩
        · obtain ⟨x, hx, y, hy, hxy⟩ := hns
          exact ⟨y, x, hy, hx, by rw [evalAdd_comm]; simpa using hxy⟩
      obtain ⟨n1, f1⟩ := hops a (by simp) ea h1
      obtain ⟨n2, f2⟩ := hops b (by simp) eb h2
      rw [hcs, ← h3]
      refine ⟨by unfold evalAdd; linarith, fun i => ?_⟩
      exact fits_add (f1 i) (f2 i) (hperf i).1 (hperf i).2
    | sub =>
      obtain ⟨a, b, hab⟩ := hbin (by simp [hk])
      have hcs : (base || computedStep t c op) = true := by simp [computedStep, hk]
      have hops := hop2 (by simp [hk])
      simp only [hk, hab, List.getD_cons_zero, List.getD_cons_succ] at hperf hns hops
      obtain ⟨ea, eb, h1, h2, h3⟩ : ∃ ea eb, operandNoise t a = some ea ∧ operandNoise t b = some eb ∧
          evalAdd ea eb = e := by
        rcases pair_noises t a b with hp2 | hp2 <;> rw [hp2] at hns <;>
          simp only [List.getD_cons_zero, List.getD_cons_succ, Option.bind_eq_bind, Option.bind_eq_some_iff] at hns
        · obtain ⟨x, hx, y, hy, hxy⟩ := hns
          exact ⟨x, y, hx, hy, by simpa using hxy⟩
        · obtain ⟨x, hx, y, hy, hxy⟩ := hns
          exact ⟨y, x, hy, hx, by rw [evalAdd_comm]; simpa using hxy⟩
      obtain ⟨n1, f1⟩ := hops a (by simp) ea h1
      obtain ⟨n2, f2⟩ := hops b (by simp) eb h2
      rw [hcs, ← h3]
      refine ⟨by unfold evalAdd; linarith, fun i => ?_⟩
      exact fits_sub (f1 i) (f2 i) (hperf i).1 (hperf i).2
    | mul =>
      obtain ⟨a, b, hab⟩ := hbin (by simp [hk])
      have hcs : (base || computedStep t c op) = true := by simp [computedStep, hk]
      have hops := hop2 (by simp [hk])
      simp only [hk, hab, List.getD_cons_zero, List.getD_cons_succ] at hperf hns hops
      obtain ⟨ea, eb, h1, h2, h3⟩ : ∃ ea eb, operandNoise t a = some ea ∧ operandNoise t b = some eb ∧
          evalMul .worst p ea eb = some e := by
        rcases pair_noises t a b with hp2 | hp2 <;> rw [hp2] at hns <;>
          simp only [List.getD_cons_zero, List.getD_cons_succ, Option.bind_eq_bind, Option.bind_eq_some_iff] at hns
        · obtain ⟨x, hx, y, hy, hxy⟩ := hns
          exact ⟨x, y, hx, hy, by simpa using hxy⟩
        · obtain ⟨x, hx, y, hy, hxy⟩ := hns
          exact ⟨y, x, hy, hx, by rw [evalMul_comm]; simpa using hxy⟩
      obtain ⟨n1, f1⟩ := hops a (by simp) ea h1
      obtain ⟨n2, f2⟩ := hops b (by simp) eb h2
      rw [hcs]
      refine ⟨evalMul_nonneg hp h3 n1 n2, fun i => ?_⟩
      exact fits_mul hp hN n1 n2 (f1 i) (f2 i) (hperf i).1 (hperf i).2 h3
    | rotate k =>
      obtain ⟨a, ha, hs⟩ := hun (by simp [hk])
      have hm := hm a (by simp [ha]) hs
      have hcs : (base || computedStep t c op) = (base || c a) := by simp [computedStep, hk, ha, hs]
      simp only [hk, ha, List.headD_cons, Option.map_eq_some_iff, List.getD_cons_zero] at hm hns hperf
      obtain ⟨ea, h1, rfl⟩ := hns
      obtain ⟨n1, f1⟩ := ih a (by simp [ha]) hs ea h1
      rw [hcs]
      refine ⟨?_, fun i => ?_⟩
      · have := hp.std0
        unfold evalRelinearize addedMS boundErr expansion expansionMS boundKey
        positivity
      · obtain ⟨κ, hκ, hr, hmsg⟩ := hperf i
        have f2 : Fits S p (modulus p op.lvl) ea (base || c a) (rot k (phase s (V.ct a i))) (rot k (V.msg a i)) := by
          obtain ⟨x, ⟨z, hz⟩, ⟨w, hw⟩, x3, x4⟩ := f1 i
          obtain ⟨r1, r2, r3⟩ := hrot k
          have hle : (S.nrm (rot k x) : ℚ) ≤ S.nrm x := by exact_mod_cast r3 x
          refine ⟨rot k x, ⟨rot k z, ?_⟩, ⟨rot k w, ?_⟩, le_trans hle x3, fun hc => le_trans hle (x4 hc)⟩
          · rw [hz, r1, r2, hm]
          · rw [hw, r1, r2]
        exact fits_switch hN hrun.key hp.std0 (hdig _) hκ f2 hr hmsg
    | relinearize =>
      obtain ⟨a, ha, hs⟩ := hun (by simp [hk])
      have hm := hm a (by simp [ha]) hs
      have hcs : (base || computedStep t c op) = (base || c a) := by simp [computedStep, hk, ha, hs]
      simp only [hk, ha, List.headD_cons, Option.map_eq_some_iff, List.getD_cons_zero] at hm hns hperf
      obtain ⟨ea, h1, rfl⟩ := hns
      obtain ⟨n1, f1⟩ := ih a (by simp [ha]) hs ea h1
      rw [hcs]
      refine ⟨?_, fun i => ?_⟩
      · have := hp.std0
        unfold evalRelinearize addedMS boundErr expansion expansionMS boundKey
        positivity
      · obtain ⟨κ, hκ, hr, hmsg⟩ := hperf i
        have f2 := f1 i
        rw [hm] at f2
        exact fits_switch hN hrun.key hp.std0 (hdig _) hκ f2 hr hmsg
    | adjust =>
      obtain ⟨a, ha, hs⟩ := hun (by simp [hk])
      have hm := hm a (by simp [ha]) hs
      have hcs : (base || computedStep t c op) = true := by simp [computedStep, hk]
      simp only [hk, ha, List.headD_cons, Option.bind_eq_some_iff, List.getD_cons_zero] at hm hns hperf
      obtain ⟨ea, h1, h2⟩ := hns
      obtain ⟨n1, f1⟩ := ih a (by simp [ha]) hs ea h1
      rw [hcs]
      refine ⟨evalMul_nonneg hp h2 n1 le_rfl, fun i => ?_⟩
      obtain ⟨d, hd, hr, hmsg⟩ := hperf i
      have f2 := (f1 i).weaken
      rw [hm] at f2
      have f3 : Fits S p (modulus p op.lvl) evalConstant false d d := by
        refine ⟨d, Cong.refl _ _, Cong.refl _ _, ?_, by simp⟩
        have : (2 : ℚ) * S.nrm d ≤ p.t := by exact_mod_cast hd
        unfold evalConstant
        linarith
      exact fits_mul hp hN n1 le_rfl f2 f3 hr hmsg h2
    | modReduce =>
      obtain ⟨a, ha, hs⟩ := hun (by simp [hk])
      have hm := hm a (by simp [ha]) hs
      have hcs : (base || computedStep t c op) = (base || c a) := by simp [computedStep, hk, ha, hs]
      simp only [hk, ha, List.headD_cons, Option.bind_eq_some_iff, List.getD_cons_zero] at hm hns hperf
      obtain ⟨ea, h1, h2⟩ := hns
      obtain ⟨n1, f1⟩ := ih a (by simp [ha]) hs ea h1
      unfold evalModReduce at h2
      split at h2
      · obtain ⟨q, hq, rfl⟩ := Option.map_eq_some_iff.1 h2
        obtain ⟨hq0, hqt⟩ := hp.qi q (List.mem_of_getElem? hq)
        rw [hcs]
        refine ⟨by unfold addedMS expansionMS boundKey; positivity, fun i => ?_⟩
        obtain ⟨ρ, hρ, hr, hmsg⟩ := hperf i q hq
        have hmod : modulus p (t a).lvl = modulus p op.lvl * q := by
          rw [hm] at hq ⊢
          exact take_prod_succ _ _ _ hq
        have f2 := f1 i
        rw [hmod] at f2 hr
        refine fits_modReduce hq0 hqt hrun.key f2 hρ hr hmsg ?_
        unfold addedMS expansionMS boundKey
        rw [hN, mul_one]
      · cases h2
    | levelReduce =>
      obtain ⟨a, ha, hs⟩ := hun (by simp [hk])
      have hm := hm a (by simp [ha]) hs
      have hcs : (base || computedStep t c op) = (base || c a) := by simp [computedStep, hk, ha, hs]
      simp only [hk, ha, List.headD_cons, List.getD_cons_zero] at hm hns hperf
      obtain ⟨n1, f1⟩ := ih a (by simp [ha]) hs e hns
      rw [hcs]
      refine ⟨n1, fun i => ?_⟩
      obtain ⟨x, h1, h2, h3, h4⟩ := f1 i
      exact ⟨x, (hperf i).1.trans (h1.of_dvd (modulus_dvd p hm)), h2.trans (hperf i).2.symm, h3, h4⟩
    | pick =>
      simp only [hk] at hns hperf
      obtain ⟨a, ha, hs⟩ := List.any_eq_true.1 hany
      have huniq : ∀ b ∈ op.args, (t b).sec = true → b = a := fun b hb hsb => hpick op hop hk b hb a ha hsb hs
      have hm' := hm a ha hs
      simp only [hk] at hm'
      have hna : (t a).noise = some e := by
        have hmem : a ∈ op.args.filter fun a => (t a).sec := List.mem_filter.2 ⟨ha, hs⟩
        unfold operandNoises at hns
        cases hq : op.args.filter fun a => (t a).sec with
        | nil => rw [hq] at hmem; simp at hmem
        | cons b l =>
          have hb : b ∈ op.args.filter fun a => (t a).sec := by rw [hq]; simp
          have := huniq b (List.mem_filter.1 hb).1 (List.mem_filter.1 hb).2
          rw [hq, this] at hns
          simpa using hns
      obtain ⟨n1, f1⟩ := ih a ha hs e hna
      refine ⟨n1, fun i => ?_⟩
      obtain ⟨b, hb, hsb, j, hct, hmsg⟩ := hperf i
      rw [huniq b hb hsb] at hct hmsg
      rw [hct, hmsg]
      have f2 := f1 j
      rw [hm'] at f2
      obtain ⟨x, h1, h2, h3, h4⟩ := f2
      refine ⟨x, h1, h2, h3, fun hc => h4 ?_⟩
      rcases Bool.or_eq_true_iff.1 hc with hc | hc
      · simp [hc]
      · simp only [computedStep, hk, List.all_eq_true] at hc
        have := hc a ha
        simp only [hs, Bool.not_true, Bool.false_or] at this
        simp [this])
  rcases hv with hv | ⟨op, hop, rfl⟩
  · exact h0 v hv
  · exact (hall op hop).1

end Heir.Noise
