import Verif.Noise.Lemmas
import Mathlib.RingTheory.AdjoinRoot

/-! # The ring of BGV has a size

Integer polynomials modulo `X ^ N + 1` with the size of the largest coefficient. -/

namespace Heir.Noise

open Polynomial

/-- The polynomial `X ^ N + 1`. -/
noncomputable def cyc (N : Nat) : ℤ[X] := X ^ N + 1

theorem cyc_monic {N : Nat} (hN : 0 < N) : (cyc N).Monic := monic_X_pow_add_C 1 (by omega)

theorem cyc_natDegree {N : Nat} : (cyc N).natDegree = N := natDegree_X_pow_add_C (n := N) (r := (1 : ℤ))

/-- Integer polynomials modulo `X ^ N + 1`. -/
abbrev Rq (N : Nat) := AdjoinRoot (cyc N)

variable {N : Nat} (hN : 0 < N)

/-- The representative of degree below `N`. -/
noncomputable def rep (a : Rq N) : ℤ[X] := AdjoinRoot.modByMonicHom (cyc_monic hN) a

theorem mk_rep (a : Rq N) : AdjoinRoot.mk (cyc N) (rep hN a) = a := AdjoinRoot.mk_leftInverse (cyc_monic hN) a

theorem rep_mk (f : ℤ[X]) (h : f.degree < N) : rep hN (AdjoinRoot.mk (cyc N) f) = f := by
  unfold rep
  rw [AdjoinRoot.modByMonicHom_mk, modByMonic_eq_self_iff (cyc_monic hN), degree_eq_natDegree (cyc_monic hN).ne_zero,
    cyc_natDegree]
  exact h

theorem rep_degree (a : Rq N) : (rep hN a).degree < N := by
  obtain ⟨f, rfl⟩ := AdjoinRoot.mk_surjective a
  unfold rep
  rw [AdjoinRoot.modByMonicHom_mk]
  have := degree_modByMonic_lt f (cyc_monic hN)
  rwa [degree_eq_natDegree (cyc_monic hN).ne_zero, cyc_natDegree] at this

theorem rep_coeff_zero (a : Rq N) {i : Nat} (hi : N ≤ i) : (rep hN a).coeff i = 0 :=
  coeff_eq_zero_of_degree_lt (lt_of_lt_of_le (rep_degree hN a) (by exact_mod_cast hi))

theorem rep_add (a b : Rq N) : rep hN (a + b) = rep hN a + rep hN b := map_add _ _ _

theorem rep_scale (k : Int) (a : Rq N) : rep hN (k * a) = C k * rep hN a := by
  conv_lhs => rw [← mk_rep hN a]
  have : (k : Rq N) * AdjoinRoot.mk (cyc N) (rep hN a) = AdjoinRoot.mk (cyc N) (C k * rep hN a) := by
    rw [map_mul]; simp
  rw [this, rep_mk]
  rw [degree_lt_iff_coeff_zero]
  intro i hi
  rw [coeff_C_mul, rep_coeff_zero hN a hi, mul_zero]

/-- The largest coefficient. -/
noncomputable def height (a : Rq N) : Nat := (Finset.range N).sup fun i => ((rep hN a).coeff i).natAbs

theorem height_le {a : Rq N} {B : Nat} : height hN a ≤ B ↔ ∀ i, ((rep hN a).coeff i).natAbs ≤ B := by
  unfold height
  rw [Finset.sup_le_iff]
  constructor
  · intro h i
    by_cases hi : i < N
    · exact h i (Finset.mem_range.2 hi)
    · rw [rep_coeff_zero hN a (by omega)]; simp
  · exact fun h i _ => h i

theorem coeff_le (a : Rq N) (i : Nat) : ((rep hN a).coeff i).natAbs ≤ height hN a := (height_le hN).1 le_rfl i

theorem height_add (a b : Rq N) : height hN (a + b) ≤ height hN a + height hN b := by
  rw [height_le]
  intro i
  rw [rep_add, coeff_add]
  have := coeff_le hN a i
  have := coeff_le hN b i
  omega

theorem height_scale (k : Int) (a : Rq N) : height hN (k * a) = k.natAbs * height hN a := by
  apply le_antisymm
  · rw [height_le]
    intro i
    rw [rep_scale, coeff_C_mul, Int.natAbs_mul]
    exact Nat.mul_le_mul_left _ (coeff_le hN a i)
  · by_cases hk : k.natAbs = 0
    · simp [hk]
    · rw [Nat.mul_comm, ← Nat.le_div_iff_mul_le (by omega), height_le]
      intro i
      rw [Nat.le_div_iff_mul_le (by omega), Nat.mul_comm, ← Int.natAbs_mul, ← coeff_C_mul, ← rep_scale]
      exact coeff_le hN _ i

theorem height_pos (a : Rq N) (h : height hN a = 0) : a = 0 := by
  have : rep hN a = 0 := by
    ext i
    have := coeff_le hN a i
    rw [h] at this
    simpa using this
  rw [← mk_rep hN a, this, map_zero]

theorem height_root_mul (b : Rq N) : height hN (AdjoinRoot.root (cyc N) * b) ≤ height hN b := by
  obtain ⟨n, rfl⟩ : ∃ n, N = n + 1 := ⟨N - 1, by omega⟩
  have h1 : AdjoinRoot.root (cyc (n + 1)) * b =
      AdjoinRoot.mk (cyc (n + 1)) (X * rep hN b - C ((rep hN b).coeff n) * cyc (n + 1)) := by
    conv_lhs => rw [← mk_rep hN b]
    rw [map_sub, map_mul, map_mul, AdjoinRoot.mk_X, AdjoinRoot.mk_self, mul_zero, sub_zero]
  have hc : ∀ i, (X * rep hN b - C ((rep hN b).coeff n) * cyc (n + 1)).coeff i =
      if i = 0 then - (rep hN b).coeff n else if i = n + 1 then 0 else (rep hN b).coeff (i - 1) := by
    intro i
    unfold cyc
    rw [coeff_sub, coeff_C_mul, coeff_add, coeff_X_pow, coeff_one]
    match i with
    | 0 => simp
    | i + 1 =>
      rw [coeff_X_mul]
      by_cases hi : i = n
      · simp [hi]
      · simp [hi]
  have hdeg : (X * rep hN b - C ((rep hN b).coeff n) * cyc (n + 1)).degree < ((n + 1 : Nat) : WithBot Nat) := by
    rw [degree_lt_iff_coeff_zero]
    intro i hi
    rw [hc]
    have : i ≠ 0 := by omega
    rw [if_neg this]
    split
    · rfl
    · exact rep_coeff_zero hN b (by omega)
  rw [height_le]
  intro i
  rw [h1, rep_mk hN _ hdeg, hc]
  split
  · rw [Int.natAbs_neg]; exact coeff_le hN b n
  · split
    · simp
    · exact coeff_le hN b _

theorem height_root_pow_mul (k : Nat) (b : Rq N) : height hN (AdjoinRoot.root (cyc N) ^ k * b) ≤ height hN b := by
  induction k with
  | zero => simp
  | succ k ih =>
    rw [pow_succ', mul_assoc]
    exact le_trans (height_root_mul hN _) ih

theorem expand (a : Rq N) : a = ∑ i ∈ Finset.range N, (((rep hN a).coeff i : ℤ) : Rq N) * AdjoinRoot.root (cyc N) ^ i := by
  conv_lhs => rw [← mk_rep hN a]
  conv_lhs => rw [as_sum_range_C_mul_X_pow' (p := rep hN a) (n := N) (by
    by_cases h : rep hN a = 0
    · rw [h]; simpa using hN
    · rw [natDegree_lt_iff_degree_lt h]; exact rep_degree hN a)]
  rw [map_sum]
  refine Finset.sum_congr rfl fun i _ => ?_
  rw [map_mul, map_pow, AdjoinRoot.mk_X]
  simp

theorem height_mul (a b : Rq N) : height hN (a * b) ≤ N * height hN a * height hN b := by
  have h0 : height hN (0 : Rq N) = 0 := by
    have := height_scale hN 0 (0 : Rq N)
    simpa using this
  have hsum : ∀ m, height hN (∑ i ∈ Finset.range m, (((rep hN a).coeff i : ℤ) : Rq N) *
      AdjoinRoot.root (cyc N) ^ i * b) ≤ m * (height hN a * height hN b) := by
    intro m
    induction m with
    | zero => simp [h0]
    | succ m ih =>
      rw [Finset.sum_range_succ, Nat.add_mul, Nat.one_mul]
      refine le_trans (height_add hN _ _) (Nat.add_le_add ih ?_)
      rw [mul_assoc, height_scale]
      exact Nat.mul_le_mul (coeff_le hN a m) (height_root_pow_mul hN _ _)
  have := hsum N
  rw [← Finset.sum_mul, ← expand hN a] at this
  rwa [Nat.mul_assoc]

/-- The size on the ring of BGV. -/
noncomputable def rqSize : Size (Rq N) N where
  nrm := height hN
  add_le := height_add hN
  mul_le := height_mul hN
  scale := height_scale hN
  pos := height_pos hN

theorem height_one : height hN (1 : Rq N) = 1 := by
  have h1 : rep hN (1 : Rq N) = 1 := by
    rw [← map_one (AdjoinRoot.mk (cyc N)), rep_mk]
    rw [degree_one]
    exact_mod_cast hN
  apply le_antisymm
  · rw [height_le]
    intro i
    rw [h1, coeff_one]
    split <;> simp
  · have := coeff_le hN (1 : Rq N) 0
    rw [h1] at this
    simpa using this

end Heir.Noise
