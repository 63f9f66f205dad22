import Verif.NTT.Refine
import Verif.NumTheory.Props

/-! # `nttInPlace` and `inttInPlace` refine the algebraic recursions -/

namespace Heir.NTT

open Heir.Loop

/-- Canonical representation of a residue. -/
def okN (m : Nat) (v : Nat) (x : ZMod m) : Prop := v < m ∧ (v : ZMod m) = x

/-- Representation of a residue by any natural. -/
def okC (m : Nat) (v : Nat) (x : ZMod m) : Prop := (v : ZMod m) = x

theorem modMul64_ok {m a b : Nat} (hm : 0 < m) :
    ∃ r, modMul64 a b m = some r ∧ okN m r ((a : ZMod m) * b) :=
  ⟨a * b % m, by rw [modMul64, if_neg (by omega)], Nat.mod_lt _ hm, by simp⟩

theorem modAdd64_ok {m u v : Nat} {x y : ZMod m} (hu : okN m u x) (hv : okN m v y) :
    ∃ r, modAdd64 u v m = some r ∧ okN m r (x + y) := by
  refine ⟨_, by rw [modAdd64, if_pos ⟨hu.1, hv.1⟩], ?_⟩
  have h1 := hu.1
  have h2 := hv.1
  rw [← hu.2, ← hv.2]
  split
  · refine ⟨by omega, ?_⟩
    rw [Nat.cast_sub (by omega), Nat.cast_sub (by omega)]; simp
  · exact ⟨by omega, by push_cast; rfl⟩

theorem modSub64_ok {m u v : Nat} {x y : ZMod m} (hu : okN m u x) (hv : okN m v y) :
    ∃ r, modSub64 u v m = some r ∧ okN m r (x - y) := by
  refine ⟨_, by rw [modSub64, if_pos ⟨hu.1, hv.1⟩], ?_⟩
  have h1 := hu.1
  have h2 := hv.1
  rw [← hu.2, ← hv.2]
  split
  · refine ⟨by omega, ?_⟩
    rw [Nat.cast_sub (by omega), Nat.cast_sub (by omega)]; simp
  · exact ⟨by omega, by rw [Nat.cast_sub (by omega)]⟩

/-- The table holds the powers of the root (entry `0` is the literal `1`, also when `m = 1`). -/
theorem rootTable_ok {n m root : Nat} (hm : 0 < m) :
    ∃ t, rootTable n m root = some t ∧
      Rep (okC m) n t (fun i => (root : ZMod m) ^ i) := by
  obtain ⟨s, h1, h2, h3, _⟩ := forN_inv (n := n)
    (body := fun i (s : List Nat × Nat) => do
      let t ← put s.1 i s.2
      let x ← modMul64 s.2 root m
      some (t, x)) (s := (List.replicate n 0, 1))
    (fun i s => s.1.length = n ∧ (∀ p, p < i → ∃ v, s.1[p]? = some v ∧ (v : ZMod m) = (root : ZMod m) ^ p)
      ∧ (s.2 : ZMod m) = (root : ZMod m) ^ i)
    ⟨by simp, fun p hp => absurd hp (by omega), by simp⟩
    (by
      rintro i hi ⟨t, x⟩ ⟨hl, hp, hx⟩
      obtain ⟨r, hr, _, hr2⟩ := modMul64_ok (a := x) (b := root) hm
      simp only at hl hp hx
      refine ⟨(t.set i x, r), by simp [put, hl, hi, hr], by simp [hl], ?_, ?_⟩
      · intro p hpi
        by_cases h : p = i
        · subst h; exact ⟨x, List.getElem?_set_self (by omega), hx⟩
        · obtain ⟨v, hv, hv'⟩ := hp p (by omega)
          exact ⟨v, by rw [List.getElem?_set_ne (Ne.symm h)]; exact hv, hv'⟩
      · rw [hr2, hx, pow_succ])
  exact ⟨s.1, by rw [rootTable, h1]; rfl, h2, h3⟩

theorem okN_mul {m : Nat} (hm : 0 < m) {a b : Nat} {x y : ZMod m} (ha : (a : ZMod m) = x)
    (hb : (b : ZMod m) = y) : ∃ r, modMul64 a b m = some r ∧ okN m r (x * y) := by
  obtain ⟨r, h, h'⟩ := modMul64_ok (a := a) (b := b) hm
  exact ⟨r, h, by rw [← ha, ← hb]; exact h'⟩

theorem tableIdx {n s ng j : Nat} (hn : n = ng * (2 * s)) (h0 : 0 < ng) (hj : j < s) :
    2 * j * ng < n := by
  rw [hn, show ng * (2 * s) = 2 * s * ng by ring]
  exact Nat.mul_lt_mul_of_pos_right (by omega) h0

theorem posIdx {n s ng j g : Nat} (hn : n = ng * (2 * s)) (hg : g < ng) (hj : j < s) :
    g * 2 * s + j + s < n := by
  have : (g + 1) * (2 * s) ≤ ng * (2 * s) := Nat.mul_le_mul_right _ (by omega)
  rw [hn]
  have e : (g + 1) * (2 * s) = g * 2 * s + 2 * s := by ring
  omega

theorem nttStage_ok {n m s ng root : Nat} (hm : 0 < m) (hs : 0 < s) (h0 : 0 < ng)
    (hn : n = ng * (2 * s))
    {t : List Nat} (ht : Rep (okC m) n t
      (fun i => (root : ZMod m) ^ i)) {c : List Nat} {A : Nat → ZMod m} (hc : Rep (okN m) n c A) :
    ∃ c', nttStage n m t s c = some c' ∧ Rep (okN m) n c' (gsStage (root : ZMod m) s ng A) := by
  have hng : n / (2 * s) = ng := by rw [hn]; exact Nat.mul_div_cancel _ (by omega)
  unfold nttStage
  rw [hng]
  refine stage_offset_outer hs hn (N := gsStage (root : ZMod m) s ng A) (A := A)
    (body := fun j g c => nttBfly m ((t[2 * j * ng]?).getD 0) s (g * 2 * s + j) c) ?_ ?_ hc
  · intro j g hj hg c B hB h1 h2
    have hi2 := posIdx hn hg hj
    obtain ⟨u, hu, hu'⟩ := hB.get (i := g * 2 * s + j) (by omega)
    obtain ⟨v, hv, hv'⟩ := hB.get (i := g * 2 * s + j + s) hi2
    obtain ⟨om, hom, hom'⟩ := ht.2 _ (tableIdx hn h0 hj)
    obtain ⟨a, ha, ha'⟩ := modAdd64_ok hu' hv'
    obtain ⟨d, hd, hd'⟩ := modSub64_ok hu' hv'
    obtain ⟨e, he, he'⟩ := okN_mul hm hd'.2 hom'
    obtain ⟨c1, hc1, hr1⟩ := hB.put (i := g * 2 * s + j) (by omega) ha'
    obtain ⟨c2, hc2, hr2⟩ := hr1.put (i := g * 2 * s + j + s) hi2 he'
    refine ⟨c2, by simp [nttBfly, hu, hv, ha, hd, hom, he, hc1, hc2], hr2.congr ?_⟩
    intro p _
    obtain ⟨e1, _, e3, _⟩ := pos_arith (g := g) hj
    have n1 : gsStage (root : ZMod m) s ng A (g * 2 * s + j)
        = B (g * 2 * s + j) + B (g * 2 * s + j + s) := by
      rw [gsStage, e1, if_pos hj, h1, h2]
    have n2 : gsStage (root : ZMod m) s ng A (g * 2 * s + j + s)
        = (B (g * 2 * s + j) - B (g * 2 * s + j + s)) * (root : ZMod m) ^ (2 * j * ng) := by
      rw [gsStage, e3, if_neg (by omega), h1, h2, Nat.add_sub_cancel, Nat.add_sub_cancel]
    rw [n1, n2]
  · intro j hj
    obtain ⟨om, hom, _⟩ := ht.2 _ (tableIdx hn h0 hj)
    funext c
    simp [Loop.get, hom]

theorem inttStage_ok {n m s ng root : Nat} (hm : 0 < m) (hs : 0 < s) (h0 : 0 < ng)
    (hn : n = ng * (2 * s))
    {t : List Nat} (ht : Rep (okC m) n t
      (fun i => (root : ZMod m) ^ i)) {c : List Nat} {A : Nat → ZMod m} (hc : Rep (okN m) n c A) :
    ∃ c', inttStage n m t s c = some c' ∧ Rep (okN m) n c' (ctStage (root : ZMod m) s ng A) := by
  have hng : n / (2 * s) = ng := by rw [hn]; exact Nat.mul_div_cancel _ (by omega)
  unfold inttStage
  rw [hng]
  refine stage_offset_outer hs hn (N := ctStage (root : ZMod m) s ng A) (A := A)
    (body := fun j g c => inttBfly m ((t[2 * j * ng]?).getD 0) s (g * 2 * s + j) c) ?_ ?_ hc
  · intro j g hj hg c B hB h1 h2
    have hi2 := posIdx hn hg hj
    obtain ⟨u, hu, hu'⟩ := hB.get (i := g * 2 * s + j) (by omega)
    obtain ⟨v, hv, hv'⟩ := hB.get (i := g * 2 * s + j + s) hi2
    obtain ⟨om, hom, hom'⟩ := ht.2 _ (tableIdx hn h0 hj)
    obtain ⟨e, he, he'⟩ := okN_mul hm hv'.2 hom'
    obtain ⟨a, ha, ha'⟩ := modAdd64_ok hu' he'
    obtain ⟨d, hd, hd'⟩ := modSub64_ok hu' he'
    obtain ⟨c1, hc1, hr1⟩ := hB.put (i := g * 2 * s + j) (by omega) ha'
    obtain ⟨c2, hc2, hr2⟩ := hr1.put (i := g * 2 * s + j + s) hi2 hd'
    refine ⟨c2, by simp [inttBfly, hu, hv, ha, hd, hom, he, hc1, hc2], hr2.congr ?_⟩
    intro p _
    obtain ⟨e1, _, e3, _⟩ := pos_arith (g := g) hj
    have n1 : ctStage (root : ZMod m) s ng A (g * 2 * s + j)
        = B (g * 2 * s + j) + B (g * 2 * s + j + s) * (root : ZMod m) ^ (2 * j * ng) := by
      rw [ctStage, e1, if_pos hj, h1, h2]
    have n2 : ctStage (root : ZMod m) s ng A (g * 2 * s + j + s)
        = B (g * 2 * s + j) - B (g * 2 * s + j + s) * (root : ZMod m) ^ (2 * j * ng) := by
      rw [ctStage, e3, if_neg (by omega), h1, h2, Nat.add_sub_cancel, Nat.add_sub_cancel]
    rw [n1, n2]
  · intro j hj
    obtain ⟨om, hom, _⟩ := ht.2 _ (tableIdx hn h0 hj)
    funext c
    simp [Loop.get, hom]

theorem nttStages_ok {n m root : Nat} (hm : 0 < m)
    {t : List Nat} (ht : Rep (okC m) n t
      (fun i => (root : ZMod m) ^ i)) (k : Nat) : ∀ (ng : Nat), 0 < ng → n = ng * 2 ^ k →
    ∀ {c : List Nat} {A : Nat → ZMod m}, Rep (okN m) n c A →
    ∃ c', nttStages n m t (2 ^ k / 2) c = some c' ∧ Rep (okN m) n c' (gsRun (root : ZMod m) k ng A) := by
  induction k with
  | zero =>
    intro ng _ _ c A hc
    exact ⟨c, by unfold nttStages; simp, hc⟩
  | succ k ih =>
    intro ng h0 hn c A hc
    have hp := Nat.two_pow_pos k
    have e : 2 ^ (k + 1) / 2 = 2 ^ k := by rw [pow_succ]; omega
    rw [e]
    obtain ⟨c1, h1, hr1⟩ := nttStage_ok hm hp h0 (by rw [hn, pow_succ]; ring) ht hc
    obtain ⟨c2, h2, hr2⟩ := ih (2 * ng) (by omega) (by rw [hn, pow_succ]; ring) hr1
    refine ⟨c2, ?_, hr2⟩
    unfold nttStages
    rw [dif_pos (show 1 ≤ 2 ^ k from hp), h1]
    exact h2

theorem inttStages_ok {n m root : Nat} (hm : 0 < m)
    {t : List Nat} (ht : Rep (okC m) n t
      (fun i => (root : ZMod m) ^ i)) (K : Nat) (hn : n = 2 ^ K) : ∀ (d k : Nat), k + d = K →
    ∀ {c : List Nat} {A : Nat → ZMod m},
      Rep (okN m) n c (ctRun (root : ZMod m) k (2 ^ d) A) →
    ∃ c', inttStages n m t (2 ^ k) c = some c' ∧ Rep (okN m) n c' (ctRun (root : ZMod m) K 1 A) := by
  intro d
  induction d with
  | zero =>
    intro k hk c A hc
    have : k = K := by omega
    subst this
    exact ⟨c, by unfold inttStages; rw [dif_neg (by omega)], by simpa using hc⟩
  | succ d ih =>
    intro k hk c A hc
    have hp := Nat.two_pow_pos k
    have hlt : 2 ^ k < n := by rw [hn]; exact Nat.pow_lt_pow_right (by norm_num) (by omega)
    obtain ⟨c1, h1, hr1⟩ := inttStage_ok hm hp (ng := 2 ^ d) (Nat.two_pow_pos d)
      (by rw [hn, ← hk, show k + (d + 1) = d + (k + 1) by omega, pow_add, pow_succ]; ring) ht hc
    obtain ⟨c2, h2, hr2⟩ := ih (k + 1) (by omega) (A := A) (by
      have e : ctRun (root : ZMod m) (k + 1) (2 ^ d) A
        = ctStage (root : ZMod m) (2 ^ k) (2 ^ d) (ctRun (root : ZMod m) k (2 * 2 ^ d) A) := rfl
      rw [e, ← pow_succ']; exact hr1)
    refine ⟨c2, ?_, hr2⟩
    unfold inttStages
    rw [dif_pos hlt, dif_pos hp, h1]
    rw [pow_succ] at h2
    exact h2

theorem isPow2_test {n : Nat} (h : 1 < n) : (n &&& (n - 1) = 0) ↔ ∃ k, n = 2 ^ k := by
  rw [Nat.and_sub_one_eq_zero_iff_isPowerOfTwo (by omega)]; rfl

/-- The forward transform, for every length `2^k` and coefficients of any size. -/
theorem nttInPlace_ok {k m root : Nat} (hm : 0 < m) (hk : 0 < k) (hk32 : k < 32) {c : List Nat}
    {A : Nat → ZMod m} (hrep : Rep (okC m) (2 ^ k) c A) :
    ∃ c', nttInPlace c m root = some c' ∧ Rep (okN m) (2 ^ k) c'
      (gsRun (root : ZMod m) k 1 (fun p => A p * (root : ZMod m) ^ p)) := by
  have hc := hrep.1
  have hlt : 2 ^ k < 2 ^ 32 := Nat.pow_lt_pow_right (by norm_num) hk32
  have h2 : 2 ^ 1 ≤ 2 ^ k := Nat.pow_le_pow_right (by norm_num) hk
  have hmod : c.length % 2 ^ 32 = 2 ^ k := by rw [hc]; exact Nat.mod_eq_of_lt hlt
  obtain ⟨t, ht, htr⟩ := rootTable_ok (n := 2 ^ k) (root := root) hm
  obtain ⟨c1, h1, hr1⟩ := pointwise_loop (ok := okC m)
    (ok' := okN m) (n := 2 ^ k) (A := A)
    (N := fun p => A p * (root : ZMod m) ^ p)
    (body := fun i c => do
      let v ← modMul64 (← get c i) (← get t i) m
      put c i v)
    (by
      intro i hi c v hv hok
      obtain ⟨x, hx, hx'⟩ := htr.get hi
      obtain ⟨r, hr, hr'⟩ := okN_mul hm hok hx'
      exact ⟨r, hr', by simp [hv, hx, hr]⟩) hrep
  obtain ⟨c2, h2', hr2⟩ := nttStages_ok hm htr k 1 one_pos (by simp) hr1
  refine ⟨c2, ?_, hr2⟩
  unfold nttInPlace
  simp only [hmod]
  rw [if_neg (by omega), if_neg (by rw [not_not]; exact (isPow2_test (by omega)).2 ⟨k, rfl⟩), ht]
  have h1' : scaleBy (2 ^ k) m t c = some c1 := h1
  show (scaleBy (2 ^ k) m t c).bind _ = _
  rw [h1']
  exact h2'

/-- The 64-bit modular inverse. -/
theorem inv64_ok {x m : Nat} (hm : 2 ≤ m) (hm64 : m < 2 ^ 64) (hx : x < m) (hco : Nat.Coprime x m) :
    ∃ r, inv64 x m = some r ∧ (r : ZMod m) * x = 1 := by
  have e1 : (BitVec.ofNat 64 x).toNat = x := by
    rw [BitVec.toNat_ofNat]; exact Nat.mod_eq_of_lt (by omega)
  have e2 : (BitVec.ofNat 64 m).toNat = m := by
    rw [BitVec.toNat_ofNat]; exact Nat.mod_eq_of_lt (by omega)
  obtain ⟨r, h, h1, _⟩ := Heir.NumTheory.C01_multiplicativeInverse (x := BitVec.ofNat 64 x)
    (m := BitVec.ofNat 64 m) (by omega) (by omega)
  rw [e1, e2] at h1
  refine ⟨r.toNat, by rw [inv64, h]; rfl, ?_⟩
  have := (ZMod.natCast_eq_natCast_iff _ _ _).2 (h1 hco).2
  simpa using this

/-- The inverse transform on canonical residues. -/
theorem inttInPlace_ok {k m root : Nat} (hm : 2 ≤ m) (hm64 : m < 2 ^ 64) (hk : 0 < k) (hk32 : k < 32)
    (hroot : root < m) (hrc : Nat.Coprime root m) (hnm : 2 ^ k < m) (hnc : Nat.Coprime (2 ^ k) m)
    {c : List Nat} {A : Nat → ZMod m} (hrep : Rep (okN m) (2 ^ k) c A) :
    ∃ c' phi ninv, inttInPlace c m root = some c' ∧ phi * (root : ZMod m) = 1 ∧
      ninv * (2 ^ k : ZMod m) = 1 ∧ Rep (okN m) (2 ^ k) c'
      (fun p => ctRun phi k 1 A p * (phi ^ p * ninv)) := by
  have hc := hrep.1
  have hlt : 2 ^ k < 2 ^ 32 := Nat.pow_lt_pow_right (by norm_num) hk32
  have h2 : 2 ^ 1 ≤ 2 ^ k := Nat.pow_le_pow_right (by norm_num) hk
  have hmod : c.length % 2 ^ 32 = 2 ^ k := by rw [hc]; exact Nat.mod_eq_of_lt hlt
  have hm0 : 0 < m := by omega
  obtain ⟨phi, hphi, hphi'⟩ := inv64_ok hm hm64 hroot hrc
  obtain ⟨ninv, hninv, hninv'⟩ := inv64_ok hm hm64 hnm hnc
  obtain ⟨t, ht, htr⟩ := rootTable_ok (n := 2 ^ k) (root := phi) hm0
  obtain ⟨c1, h1, hr1⟩ := inttStages_ok hm0 htr k rfl k 0 (by omega)
    (A := A) hrep
  obtain ⟨c2, h2', hr2⟩ := pointwise_loop (ok := okN m) (ok' := okN m) (n := 2 ^ k)
    (A := ctRun (phi : ZMod m) k 1 A)
    (N := fun p => ctRun (phi : ZMod m) k 1 A p
      * ((phi : ZMod m) ^ p * ninv))
    (body := fun i c => do
      let factor ← modMul64 (← get t i) ninv m
      let v ← modMul64 (← get c i) factor m
      put c i v)
    (by
      intro i hi c v hv hok
      obtain ⟨x, hx, hx'⟩ := htr.get hi
      obtain ⟨f, hf, hf'⟩ := okN_mul hm0 hx' (rfl : (ninv : ZMod m) = ninv)
      obtain ⟨r, hr, hr'⟩ := okN_mul hm0 hok.2 hf'.2
      exact ⟨r, hr', by simp [hv, hx, hf, hr]⟩) hr1
  refine ⟨c2, phi, ninv, ?_, hphi', by simpa using hninv', hr2⟩
  unfold inttInPlace
  simp only [hmod]
  rw [if_neg (by omega), if_neg (by rw [not_not]; exact (isPow2_test (by omega)).2 ⟨k, rfl⟩), hphi]
  simp only [Option.bind_eq_bind, Option.bind_some]
  rw [ht]
  simp only [Option.bind_some]
  rw [show (2 : Nat) ^ 0 = 1 by rfl] at h1
  rw [h1]
  simp only [Option.bind_some]
  rw [hninv]
  exact h2'

end Heir.NTT
