import Verif.Poly.Lemmas

/-! # The two coefficient types and the constants -/

namespace Heir.Poly

open Heir.Arith Heir.Loop Heir.NumTheory Heir.ModArith Heir.NTT Heir.RNS
open Polynomial Finset

variable {w wc : Nat}

theorem lift_okB {q a : BitVec w} (hq : typeVerify q = true) (h0 : 0 < q.toNat) (ha : a.toNat < q.toNat) :
    lowerLiftStandard q a = some a := by
  obtain ⟨r, h, hv, _⟩ := lowerLiftStandard_some a hq h0
  rw [canonical_toInt hq ha] at hv
  rw [h]
  congr 1
  apply BitVec.eq_of_toNat_eq
  have : ((a.toNat : Int) % q.toNat) = a.toNat := by exact_mod_cast Nat.mod_eq_of_lt ha
  rw [this] at hv
  exact_mod_cast hv

theorem zero_iff {q a : BitVec w} {x : ZMod q.toNat} (ha : okB q a x) : (a == 0#w) = true ↔ x = 0 := by
  rw [beq_iff_eq, ← ha.2, ZMod.natCast_eq_zero_iff]
  constructor
  · rintro rfl; simp
  · intro h
    apply BitVec.eq_of_toNat_eq
    have := Nat.eq_zero_of_dvd_of_lt h ha.1
    simpa using this

theorem modCoeff_refines {q : BitVec w} (hq : typeVerify q = true) (h0 : 0 < q.toNat) :
    Refines (modCoeff q) (okB q) where
  zero := ⟨by simpa [modCoeff] using h0, by simp [modCoeff]⟩
  add := fun ha hb => add_okB hq h0 ha hb
  sub := fun ha hb => sub_okB hq h0 ha hb
  mul := fun ha hb => mul_okB h0 ha.2 hb.2
  splat := fun {a x} ha => ⟨a, lift_okB hq h0 ha.1, ha⟩
  isZero := fun {a x} ha => ⟨a == 0#w, by simp [modCoeff, lift_okB hq h0 ha.1], zero_iff ha⟩

/-! ## RNS coefficients -/

/-- The limbs `v` represent the tuple of residues `x`. -/
def okR (qs : List (BitVec w)) (v : List (BitVec w)) (x : (i : Fin qs.length) → ZMod (qs.get i).toNat) : Prop :=
  v.length = qs.length ∧ ∀ i : Fin qs.length, ∃ b, v[i.1]? = some b ∧ okB (qs.get i) b (x i)

theorem zipLimbs_forall {α β : Type} {f : β → α → α → Option α} : ∀ {qs : List β} {as bs : List α}
    {P : Nat → α → Prop}, as.length = qs.length → bs.length = qs.length →
    (∀ (i : Nat) (q : β) (a b : α), qs[i]? = some q → as[i]? = some a → bs[i]? = some b →
      ∃ r, f q a b = some r ∧ P i r) →
    ∃ rs, zipLimbs f qs as bs = some rs ∧ rs.length = qs.length ∧
      ∀ (i : Nat) (r : α), rs[i]? = some r → P i r := by
  intro qs
  induction qs with
  | nil =>
    intro as bs P ha hb _
    have h1 := List.length_eq_zero_iff.1 ha
    have h2 := List.length_eq_zero_iff.1 hb
    subst h1 h2
    exact ⟨[], rfl, rfl, fun i r h => by simp at h⟩
  | cons q qs ih =>
    intro as bs P ha hb h
    obtain ⟨a, as, rfl⟩ := List.exists_cons_of_length_eq_add_one ha
    obtain ⟨b, bs, rfl⟩ := List.exists_cons_of_length_eq_add_one hb
    obtain ⟨r, hr, hp⟩ := h 0 q a b rfl rfl rfl
    obtain ⟨rs, h1, h2, h3⟩ := ih (as := as) (bs := bs) (P := fun i r => P (i + 1) r) (by simpa using ha)
      (by simpa using hb) (fun i q a b e1 e2 e3 => h (i + 1) q a b (by simpa using e1) (by simpa using e2)
        (by simpa using e3))
    refine ⟨r :: rs, by simp [zipLimbs, hr, h1], by simp [h2], ?_⟩
    intro i v hv
    cases i with
    | zero => simp only [List.getElem?_cons_zero, Option.some.injEq] at hv; rw [← hv]; exact hp
    | succ i => exact h3 i v (by simpa using hv)

theorem allZero_ok : ∀ {qs as : List (BitVec w)}, as.length = qs.length →
    (∀ q ∈ qs, typeVerify q = true ∧ 0 < q.toNat) →
    (∀ (i : Nat) (q a : BitVec w), qs[i]? = some q → as[i]? = some a → a.toNat < q.toNat) →
    ∃ z, allZero qs as = some z ∧
      (z = true ↔ ∀ (i : Nat) (a : BitVec w), as[i]? = some a → a = 0#w) := by
  intro qs
  induction qs with
  | nil =>
    intro as ha _ _
    have h1 := List.length_eq_zero_iff.1 ha
    subst h1
    exact ⟨true, rfl, by simp⟩
  | cons q qs ih =>
    intro as ha hq hc
    obtain ⟨a, as, rfl⟩ := List.exists_cons_of_length_eq_add_one ha
    obtain ⟨z, h1, h2⟩ := ih (as := as) (by simpa using ha) (fun q hq' => hq q (by simp [hq']))
      (fun i q a e1 e2 => hc (i + 1) q a (by simpa using e1) (by simpa using e2))
    have hl := lift_okB (hq q (by simp)).1 (hq q (by simp)).2 (hc 0 q a rfl rfl)
    refine ⟨(a == 0#w) && z, by simp [allZero, hl, h1], ?_⟩
    rw [Bool.and_eq_true, h2, beq_iff_eq]
    constructor
    · rintro ⟨e1, e2⟩ i b hb
      cases i with
      | zero => simp only [List.getElem?_cons_zero, Option.some.injEq] at hb; rw [← hb]; exact e1
      | succ i => exact e2 i b (by simpa using hb)
    · intro h
      exact ⟨h 0 a rfl, fun i b hb => h (i + 1) b (by simpa using hb)⟩

theorem rns_zip {qs : List (BitVec w)} {f : BitVec w → BitVec w → BitVec w → Option (BitVec w)}
    {F : ∀ i : Fin qs.length, ZMod (qs.get i).toNat → ZMod (qs.get i).toNat → ZMod (qs.get i).toNat}
    (hf : ∀ (i : Fin qs.length) {a b x y}, okB (qs.get i) a x → okB (qs.get i) b y →
      ∃ r, f (qs.get i) a b = some r ∧ okB (qs.get i) r (F i x y))
    {a b : List (BitVec w)} {x y} (ha : okR qs a x) (hb : okR qs b y) :
    ∃ r, zipLimbs f qs a b = some r ∧ okR qs r (fun i => F i (x i) (y i)) := by
  obtain ⟨rs, h1, h2, h3⟩ := zipLimbs_forall (f := f) (qs := qs) (as := a) (bs := b)
    (P := fun i r => ∀ h : i < qs.length, okB (qs.get ⟨i, h⟩) r (F ⟨i, h⟩ (x ⟨i, h⟩) (y ⟨i, h⟩))) ha.1 hb.1 (by
      intro i q u v hq hu hv
      obtain ⟨hi, he⟩ := List.getElem?_eq_some_iff.1 hq
      obtain ⟨u', hu', hu''⟩ := ha.2 ⟨i, hi⟩
      obtain ⟨v', hv', hv''⟩ := hb.2 ⟨i, hi⟩
      rw [hu] at hu'
      rw [hv] at hv'
      injection hu' with hu'
      injection hv' with hv'
      subst hu' hv'
      obtain ⟨r, hr, hr'⟩ := hf ⟨i, hi⟩ hu'' hv''
      exact ⟨r, by rw [← he]; exact hr, fun _ => hr'⟩)
  refine ⟨rs, h1, h2, fun i => ?_⟩
  have hi : i.1 < rs.length := by rw [h2]; exact i.2
  exact ⟨rs[i.1], List.getElem?_eq_getElem hi, h3 i.1 _ (List.getElem?_eq_getElem hi) i.2⟩

theorem rnsCoeff_refines {qs : List (BitVec w)} (hq : ∀ q ∈ qs, typeVerify q = true ∧ 0 < q.toNat) :
    Refines (rnsCoeff qs) (okR qs) where
  zero := ⟨by simp [rnsCoeff], fun i => ⟨0#w, by simp [rnsCoeff], by
    have := (hq (qs.get i) (List.get_mem _ _)).2
    exact ⟨by simpa using this, by simp⟩⟩⟩
  add := fun ha hb => rns_zip (f := lowerAdd) (F := fun _ x y => x + y)
    (fun i _ _ _ _ h1 h2 => add_okB (hq _ (List.get_mem _ _)).1 (hq _ (List.get_mem _ _)).2 h1 h2) ha hb
  sub := fun ha hb => rns_zip (f := lowerSub) (F := fun _ x y => x - y)
    (fun i _ _ _ _ h1 h2 => sub_okB (hq _ (List.get_mem _ _)).1 (hq _ (List.get_mem _ _)).2 h1 h2) ha hb
  mul := fun ha hb => rns_zip (f := lowerMul) (F := fun _ x y => x * y)
    (fun i _ _ _ _ h1 h2 => mul_okB (hq _ (List.get_mem _ _)).2 h1.2 h2.2) ha hb
  splat := fun {a x} ha => ⟨a, rfl, ha⟩
  isZero := fun {a x} ha => by
    obtain ⟨z, h1, h2⟩ := allZero_ok ha.1 hq (by
      intro i q u hqi hu
      obtain ⟨hi, he⟩ := List.getElem?_eq_some_iff.1 hqi
      obtain ⟨u', hu', hu''⟩ := ha.2 ⟨i, hi⟩
      rw [hu] at hu'
      injection hu' with hu'
      subst hu' he
      exact hu''.1)
    refine ⟨z, h1, h2.trans ?_⟩
    constructor
    · intro h
      funext i
      obtain ⟨b, hb, hb'⟩ := ha.2 i
      exact (zero_iff hb').1 (by rw [beq_iff_eq]; exact h i.1 b hb)
    · rintro rfl i u hu
      have hi : i < qs.length := by rw [← ha.1]; exact (List.getElem?_eq_some_iff.1 hu).1
      obtain ⟨b, hb, hb'⟩ := ha.2 ⟨i, hi⟩
      have hb : a[i]? = some b := hb
      rw [hu] at hb
      injection hb with hb
      rw [hb]
      exact beq_iff_eq.1 ((zero_iff hb').2 rfl)

/-! ## Constants -/

theorem signExtend_toInt_of_fits {c : BitVec wc} (h1 : -2 ^ (w - 1) ≤ c.toInt) (h2 : c.toInt < 2 ^ (w - 1))
    (hw : 0 < w) : (c.signExtend w).toInt = c.toInt := by
  have hp := two_pow_pred hw
  rw [BitVec.signExtend, BitVec.toInt_ofInt, Int.bmod_eq_of_le]
  · have : ((2 ^ w : Nat) : Int) = 2 * 2 ^ (w - 1) := by rw [hp]; push_cast; ring
    omega
  · have : ((2 ^ w : Nat) : Int) = 2 * 2 ^ (w - 1) := by rw [hp]; push_cast; ring
    omega

theorem constResidue_ok {q : BitVec w} {c : BitVec wc} (hq : typeVerify q = true) (h0 : 0 < q.toNat)
    (h1 : -2 ^ (w - 1) ≤ c.toInt) (h2 : c.toInt < 2 ^ (w - 1)) :
    ∃ v, constResidue q c = some v ∧ (v.toNat : Int) = c.toInt % q.toNat := by
  have hlt := typeVerify_lt hq
  have hw := pos_width h0
  have hp := two_pow_pred hw
  have hqi : q.toInt = q.toNat := BitVec.toInt_eq_toNat_of_lt (by omega)
  refine ⟨_, by rw [constResidue, if_neg (ne_zero_of_pos h0)], ?_⟩
  have hr : ((c.signExtend w).srem q).toInt = c.toInt.tmod q.toNat := by
    rw [BitVec.toInt_srem, signExtend_toInt_of_fits h1 h2 hw, hqi]
  generalize (c.signExtend w).srem q = r at hr
  have hq0 : (0 : Int) < q.toNat := by exact_mod_cast h0
  have hb1 : c.toInt.tmod q.toNat < q.toNat := Int.tmod_lt_of_pos _ hq0
  have hb2 : -(q.toNat : Int) < c.toInt.tmod q.toNat := by
    have := Int.tmod_lt_of_pos (-c.toInt) hq0
    rw [Int.neg_tmod] at this
    omega
  have hmod : c.toInt.tmod q.toNat ≡ c.toInt [ZMOD q.toNat] := by
    have := Int.tmod_add_mul_tdiv c.toInt q.toNat
    refine (Int.modEq_iff_dvd.2 ⟨c.toInt.tdiv q.toNat, by omega⟩)
  split
  · next hneg =>
    have hneg' : r.toInt < 0 := by
      rw [BitVec.msb_eq_toInt] at hneg; simpa using hneg
    have hadd : (r + q).toInt = r.toInt + q.toNat := by
      rw [BitVec.toInt_add, hqi, Int.bmod_eq_of_le] <;> omega
    have hnn : (r + q).toInt = ((r + q).toNat : Int) := by
      have h3 : 0 ≤ (r + q).toInt := by omega
      have h4 := BitVec.toInt_eq_toNat_cond (r + q)
      have := (r + q).isLt
      split at h4 <;> omega
    rw [← hnn, hadd, hr]
    have : (c.toInt.tmod q.toNat + q.toNat) ≡ c.toInt [ZMOD q.toNat] := by
      have := hmod.add_right (q.toNat : Int)
      refine this.trans ?_
      simp [Int.ModEq]
    rw [← this.eq]
    exact (Int.emod_eq_of_lt (by omega) (by omega)).symm
  · next hpos =>
    have hpos' : 0 ≤ r.toInt := by
      rw [BitVec.msb_eq_toInt] at hpos; simpa using hpos
    have hnn : r.toInt = (r.toNat : Int) := by
      have h4 := BitVec.toInt_eq_toNat_cond r
      have := r.isLt
      split at h4 <;> omega
    rw [← hnn, hr, ← hmod.eq]
    exact (Int.emod_eq_of_lt (by omega) (by omega)).symm

theorem viaInt64_ok {v : BitVec w} (h1 : v.toNat < 2 ^ 63) (h2 : 2 * v.toNat < 2 ^ w) : viaInt64 v = some v := by
  have e := BitVec.toInt_eq_toNat_of_lt h2
  rw [viaInt64, if_pos (by rw [e]; constructor <;> omega)]
  simp

theorem constCoeff_ok {q : BitVec w} {c : BitVec wc} (hq : typeVerify q = true) (h0 : 0 < q.toNat)
    (h63 : q.toNat ≤ 2 ^ 63) (h1 : -2 ^ (w - 1) ≤ c.toInt) (h2 : c.toInt < 2 ^ (w - 1)) :
    ∃ v, constCoeff q c = some v ∧ (v.toNat : Int) = c.toInt % q.toNat := by
  obtain ⟨v, hv, hv'⟩ := constResidue_ok hq h0 h1 h2
  have hq0 : (0 : Int) < q.toNat := by exact_mod_cast h0
  have hlt : (v.toNat : Int) < q.toNat := by rw [hv']; exact Int.emod_lt_of_pos _ hq0
  have h3 := two_mul_le hq h0
  refine ⟨v, ?_, hv'⟩
  simp only [constCoeff, hv, Option.bind_eq_bind, Option.bind_some]
  exact viaInt64_ok (by omega) (by omega)

/-- A stored residue represents the integer. -/
theorem okB_of_residue {q v : BitVec w} {c : Int} (h0 : 0 < q.toNat) (hv : (v.toNat : Int) = c % q.toNat) :
    okB q v ((c : Int) : ZMod q.toNat) := by
  have hq0 : (0 : Int) < q.toNat := by exact_mod_cast h0
  refine ⟨?_, ?_⟩
  · have := Int.emod_lt_of_pos c hq0; omega
  · rw [← Int.cast_natCast, hv, ZMod.intCast_mod]

variable {α R : Type} [CommRing R] {K : Coeff α} {ok : α → R → Prop}

theorem termsPoly_coeff_cons (e : Nat) (c : BitVec wc) (ts : Terms wc) (p : Nat) :
    (termsPoly (R := R) ((e, c) :: ts)).coeff p
      = (if p = e then ((c.toInt : Int) : R) else 0) + (termsPoly (R := R) ts).coeff p := by
  simp only [termsPoly, List.map_cons, List.sum_cons, coeff_add, coeff_C_mul, coeff_X_pow]
  congr 1
  split <;> simp

theorem termsPoly_coeff_absent {ts : Terms wc} {p : Nat} (h : ∀ t ∈ ts, t.1 ≠ p) :
    (termsPoly (R := R) ts).coeff p = 0 := by
  induction ts with
  | nil => simp [termsPoly]
  | cons t ts ih =>
    obtain ⟨e, c⟩ := t
    rw [termsPoly_coeff_cons, if_neg (by have := h (e, c) (by simp); exact fun h => this h.symm),
      ih fun t ht => h t (by simp [ht]), add_zero]

theorem constFold_ok {conv : BitVec wc → Option α} {m : Nat} : ∀ {ts : Terms wc} {t : List α} {A : Nat → R},
    (∀ x ∈ ts, x.1 < m ∧ ∃ v, conv x.2 = some v ∧ ok v ((x.2.toInt : Int) : R)) →
    (ts.map Prod.fst).Pairwise (· < ·) → Rep ok m t A → (∀ x ∈ ts, A x.1 = 0) →
    ∃ t', ts.foldlM (fun t (x : Nat × BitVec wc) => do
        let v ← conv x.2
        put t x.1 v) t = some t' ∧ Rep ok m t' (fun p => A p + (termsPoly (R := R) ts).coeff p) := by
  intro ts
  induction ts with
  | nil => intro t A _ _ ht _; exact ⟨t, rfl, ht.congr fun p _ => by simp [termsPoly]⟩
  | cons x ts ih =>
    intro t A h1 h2 ht hA
    obtain ⟨e, c⟩ := x
    obtain ⟨he, v, hv, hv'⟩ := h1 (e, c) (by simp)
    obtain ⟨t1, ht1, ht1'⟩ := ht.put he hv'
    simp only [List.map_cons, List.pairwise_cons] at h2
    obtain ⟨t2, ht2, ht2'⟩ := ih (t := t1) (fun x hx => h1 x (by simp [hx])) h2.2 ht1' (by
      intro x hx
      have := h2.1 x.1 (List.mem_map_of_mem hx)
      beta_reduce
      rw [if_neg (by omega)]
      exact hA x (by simp [hx]))
    refine ⟨t2, ?_, ht2'.congr fun p _ => ?_⟩
    · rw [List.foldlM_cons]
      simp only [hv, ht1, Option.bind_eq_bind, Option.bind_some]
      exact ht2
    · rw [termsPoly_coeff_cons]
      by_cases hp : p = e
      · rw [if_pos hp, if_pos hp, hp, hA (e, c) (by simp)]; ring
      · rw [if_neg hp, if_neg hp]; ring

theorem constTensor_ok (hK : Refines K ok) {conv : BitVec wc → Option α} {m : Nat} {ts : Terms wc}
    (h1 : ∀ x ∈ ts, x.1 < m ∧ ∃ v, conv x.2 = some v ∧ ok v ((x.2.toInt : Int) : R))
    (h2 : (ts.map Prod.fst).Pairwise (· < ·)) :
    ∃ t, constTensor K conv m ts = some t ∧ Rep ok m t (fun p => (termsPoly (R := R) ts).coeff p) := by
  obtain ⟨t, h3, h4⟩ := constFold_ok h1 h2 (rep_replicate hK m) (fun _ _ => rfl)
  exact ⟨t, h3, h4.congr fun p _ => by simp⟩

/-- Shape of the ring modulus: the last term carries the degree. -/
theorem termsPoly_last {ts : Terms wc} {n : Nat} {lc : BitVec wc} (h : (ts.map Prod.fst).Pairwise (· < ·))
    (hl : leadingOf ts = some (n, lc)) :
    (∀ x ∈ ts, x.1 ≤ n) ∧ (n, lc) ∈ ts ∧ (termsPoly (R := R) ts).coeff n = ((lc.toInt : Int) : R) := by
  obtain ⟨ini, rfl⟩ := List.getLast?_eq_some_iff.1 hl
  rw [List.map_append, List.pairwise_append] at h
  have hlt : ∀ x ∈ ini, x.1 < n := fun x hx => h.2.2 x.1 (List.mem_map_of_mem hx) n (by simp)
  refine ⟨?_, by simp, ?_⟩
  · intro x hx
    rcases List.mem_append.1 hx with hx | hx
    · exact (hlt x hx).le
    · simp only [List.mem_singleton] at hx; rw [hx]
  · have : termsPoly (R := R) (ini ++ [(n, lc)]) = termsPoly ini + termsPoly [(n, lc)] := by
      simp [termsPoly]
    rw [this, coeff_add, termsPoly_coeff_absent fun x hx => (hlt x hx).ne, termsPoly_coeff_cons]
    simp [termsPoly]

theorem polyOf_terms {ts : Terms wc} {n : Nat} (h : ∀ x ∈ ts, x.1 ≤ n) :
    polyOf (n + 1) (fun p => (termsPoly (R := R) ts).coeff p) = termsPoly ts := by
  ext k
  rw [polyOf_coeff]
  split
  · rfl
  · next hk => rw [termsPoly_coeff_absent fun x hx => by have := h x hx; omega]

/-! ## Inverse of the leading coefficient -/

theorem leadingInverse_ok {q : BitVec w} {lc : BitVec wc} (h2 : 2 ≤ q.toNat) (hlt : lc.toNat < q.toNat)
    (hco : Nat.Coprime lc.toNat q.toNat) :
    ∃ inv, leadingInverse q lc = some (some inv) ∧ inv.toNat < q.toNat ∧
      inv.toNat * lc.toNat ≡ 1 [MOD q.toNat] := by
  have e1 : (lc.setWidth (max wc w)).toNat = lc.toNat := setWidth_toNat_of_le (by omega) lc
  have e2 : (q.setWidth (max wc w)).toNat = q.toNat := setWidth_toNat_of_le (by omega) q
  obtain ⟨r, hr, hr1, _⟩ := C01_multiplicativeInverse (x := lc.setWidth (max wc w)) (m := q.setWidth (max wc w))
    (by omega) (by omega)
  rw [e1, e2] at hr1
  obtain ⟨h3, h4⟩ := hr1 hco
  refine ⟨r, ?_, h3, h4⟩
  have hr0 : ¬ r = 0#_ := by
    rintro rfl
    have h6 : (0 : Nat) ≡ 1 [MOD q.toNat] := by simpa using h4
    rw [Nat.ModEq, Nat.zero_mod, Nat.mod_eq_of_lt h2] at h6
    omega
  simp [leadingInverse, hr, hr0]

theorem inv_okB {q v : BitVec w} {lc : BitVec wc} {inv : Nat} (hlt : inv < q.toNat) (hv : v.toNat = inv)
    (hlc : lc.toInt = lc.toNat) (h : inv * lc.toNat ≡ 1 [MOD q.toNat]) :
    okB q v (v.toNat : ZMod q.toNat) ∧ ((lc.toInt : Int) : ZMod q.toNat) * (v.toNat : ZMod q.toNat) = 1 := by
  refine ⟨⟨by omega, rfl⟩, ?_⟩
  rw [hlc, Int.cast_natCast, hv, mul_comm]
  have := (ZMod.natCast_eq_natCast_iff _ _ _).2 h
  simpa using this

theorem modInverse_ok {q : BitVec w} {lc : BitVec wc} (hq : typeVerify q = true) (h63 : q.toNat ≤ 2 ^ 63)
    (h2 : 2 ≤ q.toNat) (hlt : lc.toNat < q.toNat)
    (hco : Nat.Coprime lc.toNat q.toNat) :
    ∃ v, modInverse q lc = some (some v) ∧ v.toNat < q.toNat ∧ v.toNat * lc.toNat ≡ 1 [MOD q.toNat] := by
  obtain ⟨inv, h3, h4, h5⟩ := leadingInverse_ok h2 hlt hco
  have h6 := two_mul_le hq (by omega)
  have h7 : (2 : Nat) ^ w ≤ 2 ^ max wc w := Nat.pow_le_pow_right (by norm_num) (by omega)
  have h8 := viaInt64_ok (v := inv) (by omega) (by omega)
  have h9 : inv.toInt = inv.toNat := BitVec.toInt_eq_toNat_of_lt (by omega)
  have h10 : (BitVec.ofInt w inv.toInt).toNat = inv.toNat := by
    rw [h9, BitVec.ofInt_natCast, BitVec.toNat_ofNat]
    exact Nat.mod_eq_of_lt (by omega)
  refine ⟨BitVec.ofInt w inv.toInt, ?_, by rw [h10]; exact h4, by rw [h10]; exact h5⟩
  simp [modInverse, h3, h8]

theorem mapLimbsOpt_forall {α β : Type} {f : α → Option (Option β)} {P : α → β → Prop} : ∀ {l : List α},
    (∀ a ∈ l, ∃ b, f a = some (some b) ∧ P a b) →
    ∃ l', mapLimbsOpt f l = some (some l') ∧ l'.length = l.length ∧
      ∀ (i : Nat) (a : α) (b : β), l[i]? = some a → l'[i]? = some b → P a b := by
  intro l
  induction l with
  | nil => intro _; exact ⟨[], rfl, rfl, by intro i a b h; simp at h⟩
  | cons x l ih =>
    intro h
    obtain ⟨b, hb, hp⟩ := h x (by simp)
    obtain ⟨l', h1, h2, h3⟩ := ih fun a ha => h a (by simp [ha])
    refine ⟨b :: l', by simp [mapLimbsOpt, hb, h1], by simp [h2], ?_⟩
    intro i a b' ha hb'
    cases i with
    | zero =>
      simp only [List.getElem?_cons_zero, Option.some.injEq] at ha hb'
      rw [← ha, ← hb']; exact hp
    | succ i => exact h3 i a b' (by simpa using ha) (by simpa using hb')

end Heir.Poly
