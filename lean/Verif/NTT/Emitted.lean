import Verif.NTT.Lemmas
import Verif.ModArith.Lemmas

/-! # The emitted NTT loops refine the algebraic recursions -/

namespace Heir.NTT

open Heir.Loop Heir.ModArith

variable {w : Nat}

/-- Canonical storage word for a residue. -/
def okB (q : BitVec w) (v : BitVec w) (x : ZMod q.toNat) : Prop :=
  v.toNat < q.toNat ∧ (v.toNat : ZMod q.toNat) = x

/-- Any word representing a residue. -/
def okU (q : BitVec w) (v : BitVec w) (x : ZMod q.toNat) : Prop := (v.toNat : ZMod q.toNat) = x

theorem add_okB {q a b : BitVec w} {x y : ZMod q.toNat} (hq : typeVerify q = true) (h0 : 0 < q.toNat)
    (ha : okB q a x) (hb : okB q b y) : ∃ r, lowerAdd q a b = some r ∧ okB q r (x + y) := by
  obtain ⟨r, h, hv⟩ := lowerAdd_some hq h0 ha.1 hb.1
  refine ⟨r, h, by rw [hv]; exact Nat.mod_lt _ h0, ?_⟩
  rw [hv, ← ha.2, ← hb.2]; simp

theorem sub_okB {q a b : BitVec w} {x y : ZMod q.toNat} (hq : typeVerify q = true) (h0 : 0 < q.toNat)
    (ha : okB q a x) (hb : okB q b y) : ∃ r, lowerSub q a b = some r ∧ okB q r (x - y) := by
  obtain ⟨r, h, hv⟩ := lowerSub_some hq h0 ha.1 hb.1
  refine ⟨r, h, by rw [hv]; exact Nat.mod_lt _ h0, ?_⟩
  rw [hv, ← ha.2, ← hb.2]
  have := le_of_lt hb.1
  exact cast_sub_form _ _ _ this

theorem mul_okB {q a b : BitVec w} {x y : ZMod q.toNat} (h0 : 0 < q.toNat)
    (ha : okU q a x) (hb : okU q b y) : ∃ r, lowerMul q a b = some r ∧ okB q r (x * y) := by
  obtain ⟨r, h, hv⟩ := lowerMul_some q a b h0
  refine ⟨r, h, by rw [hv]; exact Nat.mod_lt _ h0, ?_⟩
  rw [hv, ← ha, ← hb]; simp

theorem mulMod_ok {q a b : BitVec w} {x y : ZMod q.toNat} (h0 : 0 < q.toNat)
    (ha : okU q a x) (hb : okU q b y) : ∃ r, mulMod a b q = some r ∧ okU q r (x * y) := by
  obtain ⟨r, h, hv⟩ := Heir.NumTheory.modMul_some (a := a) (b := b) (m := q) h0
  rw [Heir.NumTheory.modMul, if_neg (Heir.NumTheory.ne_of_pos h0)] at h
  refine ⟨r, ?_, ?_⟩
  · rw [mulMod, if_neg, h]
    intro hz
    have := congrArg BitVec.toNat hz
    rw [setWidth_toNat_of_le (by omega)] at this
    simp at this; omega
  · rw [okU, hv, ← ha, ← hb]; simp

theorem precomputeRoots_ok {q root : BitVec w} (h0 : 0 < q.toNat) (n : Nat) :
    ∃ t, precomputeRoots root q n = some t ∧
      Rep (okU q) n t (fun i => (root.toNat : ZMod q.toNat) ^ i) := by
  have hw := Heir.NumTheory.width_pos_of_pos h0
  have h1w := Heir.NumTheory.one_toNat hw
  obtain ⟨s, h1, h2, h3, _⟩ := forN_inv (n := n)
    (body := fun i (s : List (BitVec w) × BitVec w) => do
      let t ← put s.1 i s.2
      let x ← mulMod s.2 root q
      some (t, x)) (s := (List.replicate n 0#w, 1#w))
    (fun i s => s.1.length = n ∧
      (∀ p, p < i → ∃ v, s.1[p]? = some v ∧ okU q v ((root.toNat : ZMod q.toNat) ^ p))
      ∧ okU q s.2 ((root.toNat : ZMod q.toNat) ^ i))
    ⟨by simp, fun p hp => absurd hp (by omega), by simp [okU, h1w]⟩
    (by
      rintro i hi ⟨t, x⟩ ⟨hl, hp, hx⟩
      obtain ⟨r, hr, hr2⟩ := mulMod_ok h0 hx (rfl : okU q root _)
      simp only at hl hp hx
      refine ⟨(t.set i x, r), by simp [put, hl, hi, hr], by simp [hl], ?_, ?_⟩
      · intro p hpi
        by_cases h : p = i
        · subst h; exact ⟨x, List.getElem?_set_self (by omega), hx⟩
        · obtain ⟨v, hv, hv'⟩ := hp p (by omega)
          exact ⟨v, by rw [List.getElem?_set_ne (Ne.symm h)]; exact hv, hv'⟩
      · rw [pow_succ]; exact hr2)
  exact ⟨s.1, by rw [precomputeRoots, h1]; rfl, h2, h3⟩

/-- Elementwise operations. -/
theorem mapLimbs_rep {α β R : Type} {ok : α → R → Prop} {ok' : β → R → Prop} {f : α → Option β} {F : R → R}
    (hf : ∀ a x, ok a x → ∃ b, f a = some b ∧ ok' b (F x)) : ∀ {n : Nat} {l : List α} {A : Nat → R},
    Rep ok n l A → ∃ l', mapLimbs f l = some l' ∧ Rep ok' n l' (fun p => F (A p)) := by
  intro n l
  induction l generalizing n with
  | nil =>
    intro A h
    refine ⟨[], rfl, h.1, fun p hp => ?_⟩
    have := h.1; simp at this; omega
  | cons a l ih =>
    intro A h
    have hl := h.1
    simp only [List.length_cons] at hl
    obtain ⟨v, hv, hok⟩ := h.2 0 (by omega)
    simp only [List.getElem?_cons_zero, Option.some.injEq] at hv
    subst hv
    obtain ⟨b, hb, hb'⟩ := hf _ _ hok
    obtain ⟨l', hl', hr'⟩ := ih (n := n - 1) (A := fun p => A (p + 1))
      ⟨by omega, fun p hp => by simpa using h.2 (p + 1) (by omega)⟩
    refine ⟨b :: l', by simp [mapLimbs, hb, hl'], by simp [hr'.1]; omega, ?_⟩
    intro p hp
    cases p with
    | zero => exact ⟨b, by simp, hb'⟩
    | succ p => simpa using hr'.2 p (by omega)

theorem emBatch (s : Nat) : 2 * s / 2 = s := by omega

theorem emStage_ct {q root : BitVec w} {n s ng : Nat} (hq : typeVerify q = true) (h0 : 0 < q.toNat)
    (hs : 0 < s) (hn : n = ng * (2 * s))
    {t : List (BitVec w)} (ht : Rep (okU q) n t (fun i => (root.toNat : ZMod q.toNat) ^ i))
    {c : List (BitVec w)} {A : Nat → ZMod q.toNat} (hc : Rep (okB q) n c A) :
    ∃ c', emStage false q t n (2 * s) ng c = some c' ∧
      Rep (okB q) n c' (emCT (root.toNat : ZMod q.toNat) s ng A) := by
  have hng : n / (2 * s) = ng := by rw [hn]; exact Nat.mul_div_cancel _ (by omega)
  unfold emStage
  rw [hng, emBatch]
  refine stage_group_outer hs hn (N := emCT (root.toNat : ZMod q.toNat) s ng A) (A := A)
    (body := fun g j c => emBody false q t (2 * s) ng (2 * s * g) j c) ?_ hc
  intro g j hj hg c B hB h1 h2
  have hi2 := posIdx hn hg hj
  have hi : j + 2 * s * g = g * 2 * s + j := by ring
  have hri : (2 * j + 1) * ng < n := by
    rw [hn, mul_comm ng]; exact Nat.mul_lt_mul_of_pos_right (by omega) (by omega)
  obtain ⟨u, hu, hu'⟩ := hB.get (i := g * 2 * s + j) (by omega)
  obtain ⟨v, hv, hv'⟩ := hB.get (i := g * 2 * s + j + s) hi2
  obtain ⟨om, hom, hom'⟩ := ht.get hri
  obtain ⟨e, he, he'⟩ := mul_okB h0 hv'.2 hom'
  obtain ⟨a, ha, ha'⟩ := add_okB hq h0 hu' he'
  obtain ⟨d, hd, hd'⟩ := sub_okB hq h0 hu' he'
  obtain ⟨c1, hc1, hr1⟩ := hB.put (i := g * 2 * s + j) (by omega) ha'
  obtain ⟨c2, hc2, hr2⟩ := hr1.put (i := g * 2 * s + j + s) hi2 hd'
  refine ⟨c2, by simp [emBody, hi, hu, hv, ha, hd, hom, he, hc1, hc2], hr2.congr ?_⟩
  intro p _
  obtain ⟨e1, _, e3, _⟩ := pos_arith (g := g) hj
  have n1 : emCT (root.toNat : ZMod q.toNat) s ng A (g * 2 * s + j)
      = B (g * 2 * s + j) + B (g * 2 * s + j + s) * (root.toNat : ZMod q.toNat) ^ ((2 * j + 1) * ng) := by
    rw [emCT, e1, if_pos hj, h1, h2]
  have n2 : emCT (root.toNat : ZMod q.toNat) s ng A (g * 2 * s + j + s)
      = B (g * 2 * s + j) - B (g * 2 * s + j + s) * (root.toNat : ZMod q.toNat) ^ ((2 * j + 1) * ng) := by
    rw [emCT, e3, if_neg (by omega), h1, h2, Nat.add_sub_cancel, Nat.add_sub_cancel]
  rw [n1, n2]

theorem emStage_gs {q root : BitVec w} {n s ng : Nat} (hq : typeVerify q = true) (h0 : 0 < q.toNat)
    (hs : 0 < s) (hn : n = ng * (2 * s))
    {t : List (BitVec w)} (ht : Rep (okU q) n t (fun i => (root.toNat : ZMod q.toNat) ^ i))
    {c : List (BitVec w)} {A : Nat → ZMod q.toNat} (hc : Rep (okB q) n c A) :
    ∃ c', emStage true q t n (2 * s) ng c = some c' ∧
      Rep (okB q) n c' (emGS (root.toNat : ZMod q.toNat) s ng A) := by
  have hng : n / (2 * s) = ng := by rw [hn]; exact Nat.mul_div_cancel _ (by omega)
  unfold emStage
  rw [hng, emBatch]
  refine stage_group_outer hs hn (N := emGS (root.toNat : ZMod q.toNat) s ng A) (A := A)
    (body := fun g j c => emBody true q t (2 * s) ng (2 * s * g) j c) ?_ hc
  intro g j hj hg c B hB h1 h2
  have hi2 := posIdx hn hg hj
  have hi : j + 2 * s * g = g * 2 * s + j := by ring
  have hri : (2 * j + 1) * ng < n := by
    rw [hn, mul_comm ng]; exact Nat.mul_lt_mul_of_pos_right (by omega) (by omega)
  obtain ⟨u, hu, hu'⟩ := hB.get (i := g * 2 * s + j) (by omega)
  obtain ⟨v, hv, hv'⟩ := hB.get (i := g * 2 * s + j + s) hi2
  obtain ⟨om, hom, hom'⟩ := ht.get hri
  obtain ⟨a, ha, ha'⟩ := add_okB hq h0 hu' hv'
  obtain ⟨d, hd, hd'⟩ := sub_okB hq h0 hu' hv'
  obtain ⟨e, he, he'⟩ := mul_okB h0 hd'.2 hom'
  obtain ⟨c1, hc1, hr1⟩ := hB.put (i := g * 2 * s + j) (by omega) ha'
  obtain ⟨c2, hc2, hr2⟩ := hr1.put (i := g * 2 * s + j + s) hi2 he'
  refine ⟨c2, by simp [emBody, hi, hu, hv, ha, hd, hom, he, hc1, hc2], hr2.congr ?_⟩
  intro p _
  obtain ⟨e1, _, e3, _⟩ := pos_arith (g := g) hj
  have n1 : emGS (root.toNat : ZMod q.toNat) s ng A (g * 2 * s + j)
      = B (g * 2 * s + j) + B (g * 2 * s + j + s) := by
    rw [emGS, e1, if_pos hj, h1, h2]
  have n2 : emGS (root.toNat : ZMod q.toNat) s ng A (g * 2 * s + j + s)
      = (B (g * 2 * s + j) - B (g * 2 * s + j + s)) * (root.toNat : ZMod q.toNat) ^ ((2 * j + 1) * ng) := by
    rw [emGS, e3, if_neg (by omega), h1, h2, Nat.add_sub_cancel, Nat.add_sub_cancel]
  rw [n1, n2]

theorem emStages_ct {q root : BitVec w} {k : Nat} (hq : typeVerify q = true) (h0 : 0 < q.toNat)
    {t : List (BitVec w)} (ht : Rep (okU q) (2 ^ k) t (fun i => (root.toNat : ZMod q.toNat) ^ i))
    {c : List (BitVec w)} {A : Nat → ZMod q.toNat} (hc : Rep (okB q) (2 ^ k) c A) :
    ∃ r, emStages false q t (2 ^ k) k (c, 2, 2 ^ k / 2) = some r ∧
      Rep (okB q) (2 ^ k) r.1 (emCTRun (root.toNat : ZMod q.toNat) k 1 A) := by
  obtain ⟨r, h1, h2, _⟩ := forN_inv (n := k)
    (body := fun _ (s : List (BitVec w) × Nat × Nat) => do
      let t ← emStage false q t (2 ^ k) s.2.1 s.2.2 s.1
      if false then some (t, s.2.1 / 2, s.2.2 * 2) else some (t, s.2.1 * 2, s.2.2 / 2))
    (s := (c, 2, 2 ^ k / 2))
    (fun j s => Rep (okB q) (2 ^ k) s.1 (emCTRun (root.toNat : ZMod q.toNat) j (2 ^ (k - j)) A) ∧
      s.2.1 = 2 * 2 ^ j ∧ s.2.2 = 2 ^ (k - j) / 2)
    ⟨hc, by simp, by simp⟩
    (by
      rintro j hj ⟨c, b, r⟩ ⟨hr, hb, hrr⟩
      simp only at hr hb hrr
      have e : 2 ^ (k - j) = 2 * 2 ^ (k - j - 1) := by rw [← pow_succ']; congr 1; omega
      have hrr' : r = 2 ^ (k - j - 1) := by rw [hrr, e]; omega
      obtain ⟨c', h1, h2⟩ := emStage_ct hq h0 (Nat.two_pow_pos j) (ng := r)
        (by rw [hrr', ← pow_succ', ← pow_add]; congr 1; omega) ht hr
      refine ⟨(c', b * 2, r / 2), by simp [hb, h1], ?_, ?_, ?_⟩
      · rw [show k - (j + 1) = k - j - 1 by omega, ← hrr']
        rw [emCTRun, hrr', ← e, ← hrr']
        exact h2
      · simp only; rw [hb, pow_succ]; ring
      · simp only; rw [hrr', show k - (j + 1) = k - j - 1 by omega])
  exact ⟨r, h1, by simpa using h2⟩

theorem emStages_gs {q root : BitVec w} {k : Nat} (hq : typeVerify q = true) (h0 : 0 < q.toNat)
    {t : List (BitVec w)} (ht : Rep (okU q) (2 ^ k) t (fun i => (root.toNat : ZMod q.toNat) ^ i))
    {c : List (BitVec w)} {A : Nat → ZMod q.toNat} (hc : Rep (okB q) (2 ^ k) c A) :
    ∃ r, emStages true q t (2 ^ k) k (c, 2 ^ k, 1) = some r ∧
      Rep (okB q) (2 ^ k) r.1 (emGSRun (root.toNat : ZMod q.toNat) k 1 A) := by
  obtain ⟨r, h1, B, h2, h3, _⟩ := forN_inv (n := k)
    (body := fun _ (s : List (BitVec w) × Nat × Nat) => do
      let t ← emStage true q t (2 ^ k) s.2.1 s.2.2 s.1
      if true then some (t, s.2.1 / 2, s.2.2 * 2) else some (t, s.2.1 * 2, s.2.2 / 2))
    (s := (c, 2 ^ k, 1))
    (fun j s => ∃ B, Rep (okB q) (2 ^ k) s.1 B ∧
      emGSRun (root.toNat : ZMod q.toNat) (k - j) (2 ^ j) B
        = emGSRun (root.toNat : ZMod q.toNat) k 1 A ∧
      s.2.1 = 2 ^ (k - j) ∧ s.2.2 = 2 ^ j)
    ⟨A, hc, by simp, by simp, by simp⟩
    (by
      rintro j hj ⟨c, b, r⟩ ⟨B, hr, hrun, hb, hrr⟩
      simp only at hr hb hrr
      have e : 2 ^ (k - j) = 2 * 2 ^ (k - j - 1) := by rw [← pow_succ']; congr 1; omega
      obtain ⟨c', h1, h2⟩ := emStage_gs hq h0 (Nat.two_pow_pos (k - j - 1)) (ng := r)
        (by rw [hrr, ← e, ← pow_add]; congr 1; omega) ht hr
      refine ⟨(c', b / 2, r * 2), by simp [hb, e, h1], _, h2, ?_, ?_, ?_⟩
      · rw [← hrun, hrr, show k - j = (k - j - 1) + 1 by omega, emGSRun,
          show k - (j + 1) = k - j - 1 by omega]
        rw [show k - j - 1 + 1 - 1 = k - j - 1 by omega, pow_succ', ]
      · simp only; rw [hb, e, show k - (j + 1) = k - j - 1 by omega]; omega
      · simp only; rw [hrr, pow_succ])
  refine ⟨r, h1, ?_⟩
  rw [← h3]
  simpa [emGSRun] using h2

/-! ## Bit reversal -/

theorem bitrev_testBit (k : Nat) : ∀ (p i : Nat),
    (bitrev k p).testBit i = (decide (i < k) && p.testBit (k - 1 - i)) := by
  induction k with
  | zero => intro p i; simp [bitrev]
  | succ k ih =>
    intro p i
    rw [bitrev_succ']
    have hlt := bitrev_lt k (p / 2)
    by_cases hi : i < k
    · have : (bitrev k (p / 2) + p % 2 * 2 ^ k) = 2 ^ k * (p % 2) + bitrev k (p / 2) := by ring
      rw [this, Nat.testBit_two_pow_mul_add _ hlt, if_pos hi, ih]
      simp only [hi, decide_true, Bool.true_and, Nat.testBit_div_two]
      rw [decide_eq_true (by omega), Bool.true_and]
      congr 1; omega
    · have : (bitrev k (p / 2) + p % 2 * 2 ^ k) = 2 ^ k * (p % 2) + bitrev k (p / 2) := by ring
      rw [this, Nat.testBit_two_pow_mul_add _ hlt, if_neg hi]
      rcases Nat.lt_or_ge k i with h | h
      · rw [decide_eq_false (by omega), Bool.false_and]
        apply Nat.testBit_lt_two_pow
        calc p % 2 < 2 := Nat.mod_lt _ (by norm_num)
          _ = 2 ^ 1 := rfl
          _ ≤ 2 ^ (i - k) := Nat.pow_le_pow_right (by norm_num) (by omega)
      · have : i = k := by omega
        subst this
        rw [decide_eq_true (by omega), Bool.true_and]
        simp [Nat.testBit_zero]

theorem apReverse_eq (k p : Nat) : apReverse k p = bitrev k p := by
  apply Nat.eq_of_testBit_eq
  intro i
  rw [bitrev_testBit, apReverse, BitVec.testBit_toNat, BitVec.getLsbD_reverse, BitVec.getMsbD,
    BitVec.getLsbD_ofNat]
  by_cases hi : i < k
  · simp only [hi, decide_true, Bool.true_and]
    rw [decide_eq_true (by omega), Bool.true_and]
  · simp [hi]

theorem reverseBits_eq (n : Nat) : ∀ k, k ≤ 32 → reverseBits n k = bitrev k n := by
  intro k
  induction k with
  | zero => intro _; simp [reverseBits, bitrev]
  | succ k ih =>
    intro hk
    rw [reverseBits, ih (by omega), bitrev_succ]
    have hlt := bitrev_lt k n
    have h32 : 2 ^ (k + 1) ≤ 2 ^ 32 := Nat.pow_le_pow_right (by norm_num) hk
    rw [pow_succ] at h32
    rw [Nat.mod_eq_of_lt (by omega), Nat.and_one_is_mod, Nat.shiftRight_eq_div_pow]
    have : bitrev k n * 2 = 2 ^ 1 * bitrev k n := by ring
    rw [this, ← Nat.two_pow_add_eq_or_of_lt (by have := Nat.mod_lt (n / 2 ^ k) (show 0 < 2 by norm_num); omega)]

theorem bitRev_ok {R : Type} {ok : BitVec w → R → Prop} {k : Nat} {c : List (BitVec w)} {A : Nat → R}
    (hc : Rep ok (2 ^ k) c A) :
    ∃ c', bitRev k c = some c' ∧ Rep ok (2 ^ k) c' (fun p => A (bitrev k p)) := by
  obtain ⟨o, h1, h2, h3, _⟩ := forN_inv (n := 2 ^ k)
    (body := fun i (out : List (Option (BitVec w))) => do
      let elem ← get c (apReverse k i)
      put out i (some elem)) (s := List.replicate (2 ^ k) none)
    (fun i out => out.length = 2 ^ k ∧
      (∀ p, p < i → ∃ v, out[p]? = some (some v) ∧ ok v (A (bitrev k p))) ∧ True)
    ⟨by simp, fun p hp => absurd hp (by omega), trivial⟩
    (by
      rintro i hi out ⟨hl, hp, _⟩
      obtain ⟨v, hv, hv'⟩ := hc.get (bitrev_lt k i)
      refine ⟨out.set i (some v), by simp [apReverse_eq, hv, put, hl, hi], by simp [hl], ?_, trivial⟩
      intro p hpi
      by_cases h : p = i
      · subst h; exact ⟨v, List.getElem?_set_self (by omega), hv'⟩
      · obtain ⟨u, hu, hu'⟩ := hp p (by omega)
        exact ⟨u, by rw [List.getElem?_set_ne (Ne.symm h)]; exact hu, hu'⟩)
  obtain ⟨c', h4, h5⟩ := mapLimbs_rep (ok := fun (o : Option (BitVec w)) x => ∃ v, o = some v ∧ ok v x)
    (ok' := ok) (f := id) (F := id) (by
      rintro a x ⟨v, rfl, hv⟩; exact ⟨v, rfl, hv⟩) (n := 2 ^ k) (l := o)
    (A := fun p => A (bitrev k p))
    ⟨h2, fun p hp => by obtain ⟨v, hv, hv'⟩ := h3 p hp; exact ⟨some v, hv, v, rfl, hv'⟩⟩
  refine ⟨c', ?_, h5⟩
  have h1' : bitRevLoop k c = some o := h1
  rw [bitRev, h1']
  exact h4

theorem reduce_okB {q a : BitVec w} (hq : typeVerify q = true) (h0 : 0 < q.toNat) :
    ∃ r, lowerReduce q a = some r ∧ okB q r ((a.toInt : Int) : ZMod q.toNat) := by
  obtain ⟨r, h, hv⟩ := lowerReduce_some a hq h0
  have hlt : (r.toNat : Int) < q.toNat := by
    rw [hv]; exact Int.emod_lt_of_pos _ (by exact_mod_cast h0)
  refine ⟨r, h, by exact_mod_cast hlt, ?_⟩
  have : ((r.toNat : Int) : ZMod q.toNat) = ((a.toInt : Int) : ZMod q.toNat) := by
    rw [hv, ZMod.intCast_mod]
  simpa using this

/-- A storage word read as a signed integer represents its residue. -/
def okS (q : BitVec w) (v : BitVec w) (x : ZMod q.toNat) : Prop := ((v.toInt : Int) : ZMod q.toNat) = x

theorem reduceAll_ok {q : BitVec w} (hq : typeVerify q = true) (h0 : 0 < q.toNat) {n : Nat}
    {c : List (BitVec w)} {A : Nat → ZMod q.toNat} (hc : Rep (okS q) n c A) :
    ∃ c', mapLimbs (lowerReduce q) c = some c' ∧ Rep (okB q) n c' A := by
  obtain ⟨c', h1, h2⟩ := mapLimbs_rep (F := id) (ok := okS q) (ok' := okB q) (f := lowerReduce q) (by
    intro a x ha
    obtain ⟨r, hr, hr'⟩ := reduce_okB (a := a) hq h0
    exact ⟨r, hr, by rw [← ha]; exact hr'⟩) hc
  exact ⟨c', h1, h2⟩

theorem okB_okS {q v : BitVec w} {x : ZMod q.toNat} (hq : typeVerify q = true) (h : okB q v x) :
    okS q v x := by
  have h1 := typeVerify_lt hq
  have h2 := h.1
  have hw := pos_width (q := q) (by omega)
  have h3 := two_pow_pred hw
  rw [okS, BitVec.toInt_eq_toNat_of_lt (by omega)]
  simpa using h.2

theorem Rep.mono {α R : Type} {ok ok' : α → R → Prop} (h : ∀ v x, ok v x → ok' v x) {n : Nat} {c : List α}
    {A : Nat → R} (hc : Rep ok n c A) : Rep ok' n c A :=
  ⟨hc.1, fun p hp => by obtain ⟨v, h1, h2⟩ := hc.2 p hp; exact ⟨v, h1, h _ _ h2⟩⟩

theorem emittedNTT_ok {q root : BitVec w} {k : Nat} (hq : typeVerify q = true) (h0 : 0 < q.toNat)
    {c : List (BitVec w)} {A B : Nat → ZMod q.toNat} (hc : Rep (okS q) (2 ^ k) c A)
    (hB : ∀ p, p < 2 ^ k → A (bitrev k p) = B p) :
    ∃ c', emittedNTT k q root c = some c' ∧ Rep (okB q) (2 ^ k) c'
      (emCTRun (root.toNat : ZMod q.toNat) k 1 B) := by
  obtain ⟨c1, h1, hr1⟩ := bitRev_ok hc
  obtain ⟨t, ht, htr⟩ := precomputeRoots_ok (root := root) h0 (2 ^ k)
  obtain ⟨c2, h2, hr2⟩ := reduceAll_ok hq h0 hr1
  obtain ⟨r, h3, hr3⟩ := emStages_ct hq h0 htr (hr2.congr hB)
  exact ⟨r.1, by simp [emittedNTT, fastNTT, h1, ht, h2, h3], hr3⟩

theorem emittedINTT_ok {q root : BitVec w} {k : Nat} (hq : typeVerify q = true)
    (hnm : 2 ^ k < q.toNat) (hnc : Nat.Coprime (2 ^ k) q.toNat)
    {c : List (BitVec w)} {A : Nat → ZMod q.toNat} (hc : Rep (okS q) (2 ^ k) c A) :
    ∃ c' ninv, emittedINTT k q root c = some c' ∧ ninv * (2 ^ k : ZMod q.toNat) = 1 ∧
      Rep (okB q) (2 ^ k) c'
      (fun p => emGSRun (root.toNat : ZMod q.toNat) k 1 A (bitrev k p) * ninv) := by
  have hp := Nat.two_pow_pos k
  have h0 : 0 < q.toNat := by omega
  have hql := q.isLt
  obtain ⟨t, ht, htr⟩ := precomputeRoots_ok (root := root) h0 (2 ^ k)
  obtain ⟨c2, h2, hr2⟩ := reduceAll_ok hq h0 hc
  obtain ⟨r, h3, hr3⟩ := emStages_gs hq h0 htr hr2
  have e1 : (BitVec.ofNat w (2 ^ k)).toNat = 2 ^ k := by
    rw [BitVec.toNat_ofNat]; exact Nat.mod_eq_of_lt (by omega)
  obtain ⟨ni, hni, hni', _⟩ := Heir.NumTheory.C01_multiplicativeInverse (x := BitVec.ofNat w (2 ^ k))
    (m := q) (by omega) (by omega)
  rw [e1] at hni'
  have hinv := (ZMod.natCast_eq_natCast_iff _ _ _).2 (hni' hnc).2
  obtain ⟨c4, h4, hr4⟩ := mapLimbs_rep (F := fun x => x * (ni.toNat : ZMod q.toNat)) (ok := okB q)
    (ok' := okB q) (f := fun x => lowerMul q x ni) (by
      intro a x ha
      exact mul_okB h0 ha.2 (rfl : okU q ni _)) hr3
  obtain ⟨c5, h5, hr5⟩ := bitRev_ok hr4
  refine ⟨c5, ni.toNat, ?_, by simpa using hinv, hr5⟩
  simp only [emittedINTT, fastINTT, ht, h2, h3, Option.bind_eq_bind, Option.bind_some]
  rw [if_neg (by omega), hni]
  simp only [Option.bind_some, h4, h5]

end Heir.NTT
