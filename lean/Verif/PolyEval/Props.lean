import Verif.PolyEval.PS
import Mathlib.Analysis.SpecialFunctions.Trigonometric.Chebyshev.RootsExtrema

/-! # Properties C26 to C29 and C46 -/

namespace Heir.PolyEval

open Heir.Loop Heir.PolyClass Polynomial

variable {R : Type} [CommRing R] [DecidableEq R]

/-! ## C26: Horner -/

/-- For every coefficient map, input node and ring, the value of the DAG is the value of the
polynomial. -/
theorem C26_horner (a : R) (x : Node R) {p : Terms R} (hp : Increasing p) :
    eval a (horner x p) = (toPoly p).eval (eval a x) := by
  rw [horner]
  cases hl : p.getLast? with
  | none => rw [List.getLast?_eq_none_iff.1 hl]; simp [eval]
  | some l =>
    have hc : (toPoly p).coeff l.1 = l.2 := coeff_mem hp (List.mem_of_getLast? hl)
    simp only []
    rw [hornerLoop_eval a x hp, eval_lt hp hl _ (Nat.lt_succ_self l.1), Finset.sum_range_succ, hc]
    simp only [eval]; ring

example : Increasing [(0, (3 : ℤ)), (2, 5)] ∧ eval (2 : ℤ) (horner .leaf [(0, 3), (2, 5)]) = 23 := by
  refine ⟨by simp [Increasing], by decide⟩

/-! ## C27: Paterson-Stockmeyer -/

/-- The builder never fails, and its value is the value of the polynomial. -/
theorem C27_patersonStockmeyer (a : R) (x : Node R) {p : Terms R} (hp : Increasing p) :
    ∃ v, patersonStockmeyer x p = some v ∧ eval a v = (toPoly p).eval (eval a x) :=
  psWith_ok a x hp (le_max_right _ _)

/-- The same for any chunk size, so that the rounding of the square root is irrelevant. -/
theorem C27_any_chunk_size (a : R) (x : Node R) {p : Terms R} (hp : Increasing p) {k : Nat} (hk : 1 ≤ k) :
    ∃ v, psWith x p k = some v ∧ eval a v = (toPoly p).eval (eval a x) := psWith_ok a x hp hk

example : Increasing [(1, (3 : ℤ)), (4, 5), (7, -2)] ∧
    (psWith .leaf [(1, (3 : ℤ)), (4, 5), (7, -2)] 3).map (eval 2) = some (-170) := by
  refine ⟨by simp [Increasing], by decide⟩

/-! ## C29: division and decomposition in the Chebyshev basis -/

/-- Division by `T_k`. -/
theorem C29_divide (p : List R) {k : Nat} (hk : 1 ≤ k) :
    ∃ q r, divide p k = some (q, r) ∧ q.length = p.length - k ∧ r.length = min k p.length ∧
      chebSeries p = chebSeries q * Chebyshev.T R k + chebSeries r := by
  obtain ⟨q, r, h1, h2, h3, h4⟩ := divide_ok p hk
  exact ⟨q, r, h1, h2, h3, h4.symm⟩

/-- Decomposition into blocks of degree below `k`; as many rounds as coefficients suffice. -/
theorem C29_decompose (p : List R) {k : Nat} (hk : 1 ≤ k) :
    ∃ bs, decompose k p.length p = some bs ∧ (∀ b ∈ bs, b.length ≤ k) ∧ bs.length = (p.length + k - 1) / k ∧
      chebSeries p = ∑ j ∈ Finset.range bs.length, chebSeries (bs.getD j []) * Chebyshev.T R k ^ j := by
  obtain ⟨bs, h1, h2, h3, _, h5⟩ := decompose_ok hk p.length p le_rfl
  exact ⟨bs, h1, fun b hb => (h3 b hb).1, h2, h5.symm⟩

example : divide [(1 : ℤ), 2, 3, 4, 5] 2 = some ([3, 8, 10], [-4, -2]) ∧
    decompose 2 5 [(1 : ℤ), 2, 3, 4, 5] = some [[-4, -2], [3, 8], [10]] := by decide

/-- Remark: with `k = 0` the loop of `decompose` never ends. -/
theorem C29_zero_diverges (p : List R) (hp : p ≠ []) (fuel : Nat) : decompose 0 fuel p = none := by
  have key : ∀ (c : Nat) (q p : List R), p.length = c + (p.length - c) → c ≤ q.length → c ≤ p.length →
      ∀ r, divLoop 0 c q p = some r → r.1.length = q.length := by
    intro c
    induction c with
    | zero => intro q p _ _ _ r hr; rw [divLoop] at hr; cases hr; rfl
    | succ c ih =>
      intro q p h1 h2 h3 r hr
      rw [divLoop] at hr
      rw [Nat.zero_add, get_getD (by omega)] at hr
      simp only [Option.bind_eq_bind, Option.bind_some] at hr
      split at hr
      · exact ih q p (by omega) (by omega) (by omega) r hr
      · split at hr
        · rw [put, if_pos (by omega)] at hr
          simp only [Option.bind_some] at hr
          have := ih _ p (by omega) (by simp; omega) (by omega) r hr
          simpa using this
        · rw [put, if_pos (by omega)] at hr
          simp only [Option.bind_some] at hr
          obtain ⟨u, hu, hr⟩ := Option.bind_eq_some_iff.1 hr
          obtain ⟨p1, hp1, hr⟩ := Option.bind_eq_some_iff.1 hr
          obtain ⟨p2, hp2, hr⟩ := Option.bind_eq_some_iff.1 hr
          have hl1 : p1.length = p.length := by
            rw [put] at hp1; split at hp1 <;> [skip; cases hp1]
            cases hp1; simp
          have hl2 : p2.length = p1.length := by
            rw [put] at hp2; split at hp2 <;> [skip; cases hp2]
            cases hp2; simp
          have := ih _ p2 (by omega) (by simp; omega) (by omega) r hr
          simpa using this
  induction fuel generalizing p with
  | zero => cases p with
    | nil => exact absurd rfl hp
    | cons c t => rfl
  | succ fuel ih =>
    cases p with
    | nil => exact absurd rfl hp
    | cons c t =>
      rw [decompose.eq_3 _ _ _ (by simp), divide, if_neg (by simp)]
      cases h : divLoop 0 ((c :: t).length - 0) (List.replicate ((c :: t).length - 0) 0) (c :: t) with
      | none => rfl
      | some s =>
        have hl := key _ _ _ (by omega) (by simp) (by simp) s h
        have : s.1 ≠ [] := fun e => by rw [e] at hl; simp at hl
        show (decompose 0 fuel s.1).bind _ = none
        rw [ih _ this]; rfl

example : decompose 0 1000 [(1 : ℤ), 2] = none := C29_zero_diverges _ (by simp) _

/-! ## C28: Paterson-Stockmeyer in the Chebyshev basis -/

/-- If the threshold only drops zeros, the value of the DAG is the value of the series, and the
DAG exists (is not a null pointer) unless the series is zero. -/
theorem C28_evaluates (a : R) (small : R → Bool) (hsmall : ∀ c, small c = true → c = 0) (c : List R)
    (hc : chebSeries c ≠ 0) :
    ∃ v, psChebyshev small c = some (some v) ∧ eval a v = (chebSeries c).eval a := by
  have hkeep : ∀ x : R, keep small x = x := by
    intro x
    rw [keep]
    split
    · next h => exact (hsmall x h).symm
    · rfl
  match c, hc with
  | [], hc => simp [chebSeries] at hc
  | [c0], hc =>
    have hval : chebSeries [c0] = C c0 := by simp [chebSeries]
    have h0 : small c0 ≠ true := fun h => hc (by rw [hval, hsmall c0 h, C_0])
    refine ⟨.const c0, by simp [psChebyshev, h0], ?_⟩
    rw [hval, eval_C]; rfl
  | c0 :: c1 :: t, hc =>
    obtain ⟨k, bs, v, hk, h1, h2, h3, h4, _⟩ := psChebyshev_ok a small (c0 :: c1 :: t) (by simp)
    obtain ⟨bs', e1, _, _, _, e5⟩ := decompose_ok hk (c0 :: c1 :: t).length (c0 :: c1 :: t) le_rfl
    obtain rfl : bs = bs' := Option.some.inj (h2.symm.trans e1)
    have hid : (bs.map fun b => b.map (keep small)) = bs := by
      rw [show keep small = id from funext hkeep]; simp
    rw [hid, e5] at h3
    cases v with
    | some v => exact ⟨v, h1, h3⟩
    | none =>
      exfalso
      apply hc
      rw [← e5, recombine]
      refine Finset.sum_eq_zero fun j _ => ?_
      have hz : chebSeries (bs.getD j []) = 0 := by
        rw [chebSeries]
        refine Finset.sum_eq_zero fun i hi => ?_
        have hi := Finset.mem_range.1 hi
        have hmem : bs.getD j [] ∈ bs := by
          rw [List.getD_eq_getElem?_getD] at hi ⊢
          cases hb : bs[j]? with
          | none => rw [hb] at hi; simp at hi
          | some b => exact List.mem_of_getElem? hb
        have hx : (bs.getD j []).getD i 0 ∈ bs.getD j [] := by
          rw [List.getD_eq_getElem?_getD (l := bs.getD j []), List.getElem?_eq_getElem hi]
          exact List.getElem_mem hi
        rw [hsmall _ (h4.1 rfl _ hmem _ hx), C_0, zero_mul]
      rw [hz, zero_mul]

theorem example_series : (chebSeries [(0 : ℤ), 0, 1, 0, 4]).eval 2 = 395 := by
  have e4 := Chebyshev.T_add_two ℤ 2
  have e3 := Chebyshev.T_add_two ℤ 1
  norm_num at e3 e4
  simp [chebSeries, Finset.sum_range_succ, e4, e3, Chebyshev.T_two]

example : ∃ v, psChebyshev (fun c => c == 0) [(0 : ℤ), 0, 1, 0, 4] = some (some v) ∧ eval 2 v = 395 := by
  rw [← example_series]
  exact C28_evaluates 2 _ (by simp) _ fun h => by
    have := example_series
    rw [h] at this
    simp at this

/-- With a real threshold `δ` the value is within `δ` times the number of coefficients of the
series, on the interval where Chebyshev series are used. -/
theorem C28_error_bound (x δ : ℝ) (hx : |x| ≤ 1) (hδ : 0 ≤ δ) (c : List ℝ) :
    ∃ v, psChebyshev (fun y => decide (|y| < δ)) c = some v ∧
      |evalOpt x v - (chebSeries c).eval x| ≤ δ * c.length := by
  have hT : ∀ i : ℤ, |(Chebyshev.T ℝ i).eval x| ≤ 1 := fun i => Chebyshev.abs_eval_T_real_le_one i hx
  set small : ℝ → Bool := fun y => decide (|y| < δ) with hs
  have hk1 : ∀ y, |keep small y - y| ≤ δ := by
    intro y
    rw [keep]
    split
    · next h => rw [zero_sub, abs_neg]; exact (of_decide_eq_true h).le
    · rw [sub_self, abs_zero]; exact hδ
  have hblock : ∀ b : List ℝ, |(chebSeries (b.map (keep small))).eval x - (chebSeries b).eval x| ≤ δ * b.length := by
    intro b
    rw [chebSeries, chebSeries, List.length_map, ← eval_sub, ← Finset.sum_sub_distrib, eval_finsetSum]
    refine (Finset.abs_sum_le_sum_abs _ _).trans ?_
    rw [mul_comm, ← nsmul_eq_mul, ← Finset.card_range b.length, ← Finset.sum_const, Finset.card_range]
    refine Finset.sum_le_sum fun i hi => ?_
    have hi := Finset.mem_range.1 hi
    have hg : (b.map (keep small)).getD i 0 = keep small (b.getD i 0) := by
      rw [List.getD_eq_getElem?_getD, List.getD_eq_getElem?_getD, List.getElem?_map, List.getElem?_eq_getElem hi]; rfl
    rw [hg, ← sub_mul, ← C_sub, eval_mul, eval_C, abs_mul]
    calc _ ≤ δ * 1 := mul_le_mul (hk1 _) (hT _) (abs_nonneg _) hδ
      _ = δ := mul_one _
  have hrec : ∀ (k : Nat) (bs : List (List ℝ)),
      |(recombine k (bs.map fun b => b.map (keep small))).eval x - (recombine k bs).eval x| ≤
        δ * ((bs.map List.length).sum : Nat) := by
    intro k bs
    induction bs with
    | nil => simp [recombine]
    | cons b bs ih =>
      rw [List.map_cons, recombine_cons, recombine_cons, List.map_cons, List.sum_cons]
      simp only [eval_add, eval_mul]
      have h1 := hblock b
      have h2 := hT k
      push_cast
      calc |_| = |((chebSeries (b.map (keep small))).eval x - (chebSeries b).eval x) +
              (Chebyshev.T ℝ k).eval x *
                ((recombine k (bs.map fun b => b.map (keep small))).eval x - (recombine k bs).eval x)| := by
            congr 1; ring
        _ ≤ δ * b.length + 1 * (δ * ((bs.map List.length).sum : Nat)) := by
            refine (abs_add_le _ _).trans (add_le_add h1 ?_)
            rw [abs_mul]
            exact mul_le_mul h2 ih (abs_nonneg _) zero_le_one
        _ = _ := by push_cast; ring
  match c with
  | [] => exact ⟨none, rfl, by simp [evalOpt, chebSeries]⟩
  | [c0] =>
    have hval : chebSeries [c0] = C c0 := by simp [chebSeries]
    rw [psChebyshev, hval, eval_C]
    by_cases h : small c0 = true
    · rw [if_pos h]
      refine ⟨none, rfl, ?_⟩
      have := of_decide_eq_true h
      simp only [evalOpt, zero_sub, abs_neg, List.length_singleton, Nat.cast_one, mul_one]
      exact this.le
    · rw [if_neg h]
      exact ⟨_, rfl, by simp [evalOpt, eval, hδ]⟩
  | c0 :: c1 :: t =>
    obtain ⟨k, bs, v, hk, h1, h2, h3, _, _⟩ := psChebyshev_ok x small (c0 :: c1 :: t) (by simp)
    obtain ⟨bs', e1, _, _, e4, e5⟩ := decompose_ok hk (c0 :: c1 :: t).length (c0 :: c1 :: t) le_rfl
    obtain rfl : bs = bs' := Option.some.inj (h2.symm.trans e1)
    refine ⟨v, h1, ?_⟩
    rw [h3, ← e5, ← e4]
    exact hrec k bs

example : |(1 / 2 : ℝ)| ≤ 1 ∧ (0 : ℝ) ≤ 1e-15 := by
  constructor
  · rw [abs_of_pos] <;> norm_num
  · norm_num

/-- The zero series is a null pointer, which `CachingVisitor::process` rejects
(`lib/Kernel/ArithmeticDag.h:519`): the lowering of `polynomial.eval` asserts. -/
theorem C28_zero_series_is_null (small : R → Bool) (h0 : small 0 = true) (n : Nat) :
    psChebyshev small (List.replicate n 0) = some none := by
  match n with
  | 0 => rfl
  | 1 => simp [psChebyshev, h0]
  | n + 2 =>
    obtain ⟨k, bs, v, hk, h1, h2, _, h4, _⟩ := psChebyshev_ok (0 : R) small (List.replicate (n + 2) 0) (by simp)
    rw [h1, h4.2]
    have key : ∀ (fuel : Nat) (p : List R) (bs : List (List R)), (∀ x ∈ p, x = 0) →
        decompose k fuel p = some bs → ∀ b ∈ bs, ∀ x ∈ b, x = 0 := by
      have hdiv : ∀ (c : Nat) (q p : List R) (r : List R × List R), (∀ x ∈ p, x = 0) → (∀ x ∈ q, x = 0) →
          divLoop k c q p = some r → (∀ x ∈ r.1, x = 0) ∧ ∀ x ∈ r.2, x = 0 := by
        intro c
        induction c with
        | zero => intro q p r hp hq hr; cases hr; exact ⟨hq, hp⟩
        | succ c ih =>
          intro q p r hp hq hr
          rw [divLoop] at hr
          obtain ⟨v, hv, hr⟩ := Option.bind_eq_some_iff.1 hr
          rw [if_pos (hp v (List.mem_of_getElem? hv))] at hr
          exact ih q p r hp hq hr
      intro fuel
      induction fuel with
      | zero =>
        intro p bs hp h
        cases p with
        | nil => cases h; simp
        | cons a t => cases h
      | succ fuel ih =>
        intro p bs hp h
        cases p with
        | nil => cases h; simp
        | cons a t =>
          rw [decompose.eq_3 _ _ _ (by simp)] at h
          obtain ⟨⟨q, r⟩, hd, h⟩ := Option.bind_eq_some_iff.1 h
          obtain ⟨rest, hr, h⟩ := Option.bind_eq_some_iff.1 h
          cases h
          have hqr : (∀ x ∈ q, x = 0) ∧ ∀ x ∈ r, x = 0 := by
            rw [divide] at hd
            split at hd
            · cases hd; exact ⟨by simp, hp⟩
            · obtain ⟨⟨q', r'⟩, hd', he⟩ := Option.bind_eq_some_iff.1 hd
              cases he
              have := hdiv _ _ _ _ hp (fun x hx => List.eq_of_mem_replicate hx) hd'
              exact ⟨this.1, fun x hx => this.2 x (List.mem_of_mem_take hx)⟩
          intro b hb
          rcases List.mem_cons.1 hb with rfl | hb
          · exact hqr.2
          · exact ih q rest hqr.1 hr b hb
    intro b hb x hx
    rw [key _ _ _ (fun x hx => List.eq_of_mem_replicate hx) h2 b hb x hx]
    exact h0

/-! ## C46: multiplicative depth -/

/-- `computePowers`: the node for `x^i` has depth `ceil(log2 i)`. -/
theorem C46_computePowers_depth (k : Nat) :
    ∃ r, computePowers (R := R) .leaf k = some r ∧ r.length = k + 1 ∧
      ∀ i, 1 ≤ i → i ≤ k → ∃ v, get r i = some v ∧ depth v = Nat.clog 2 i := by
  rcases Nat.eq_zero_or_pos k with h | h
  · subst h
    exact ⟨[.const 1], rfl, rfl, fun i h1 h2 => by omega⟩
  · have := forN_inv (n := k - 1) (body := fun t r => (do
      let i := t + 2
      let a ← get r (i / 2)
      let b ← get r (if i % 2 = 0 then i / 2 else i / 2 + 1)
      some (r ++ [.mul a b]))) (s := [.const (1 : R), .leaf])
      (fun t r => r.length = t + 2 ∧ ∀ i, 1 ≤ i → i ≤ t + 1 → ∃ v, get r i = some v ∧ depth v = Nat.clog 2 i)
      ⟨rfl, fun i h1 h2 => by
        obtain rfl : i = 1 := by omega
        exact ⟨_, rfl, by simp [depth]⟩⟩
      (fun t ht r hr => by
        obtain ⟨hlen, hv⟩ := hr
        obtain ⟨u, hu, hu'⟩ := hv ((t + 2) / 2) (by omega) (by omega)
        obtain ⟨w, hw, hw'⟩ := hv (if (t + 2) % 2 = 0 then (t + 2) / 2 else (t + 2) / 2 + 1) (by split <;> omega)
          (by split <;> omega)
        refine ⟨r ++ [.mul u w], by simp only [hu, hw, Option.bind_eq_bind, Option.bind_some], by simp [hlen], ?_⟩
        intro i h1 hi
        rcases Nat.lt_or_ge i (t + 2) with h | h
        · obtain ⟨v, hv1, hv2⟩ := hv i h1 (by omega)
          exact ⟨v, by rw [Loop.get, getElem?_concat_lt _ _ (by omega)]; exact hv1, hv2⟩
        · obtain rfl : i = t + 2 := by omega
          refine ⟨.mul u w, by rw [Loop.get, ← hlen]; simp, ?_⟩
          have hidx : (if (t + 2) % 2 = 0 then (t + 2) / 2 else (t + 2) / 2 + 1) = (t + 2 + 1) / 2 := by
            split <;> omega
          rw [hidx] at hw'
          have hle : Nat.clog 2 ((t + 2) / 2) ≤ Nat.clog 2 ((t + 2 + 1) / 2) := Nat.clog_mono_right 2 (by omega)
          simp only [depth, hu', hw']
          rw [if_neg (by omega), if_neg (by omega), clog_half (t + 2) (by omega)]
          push_cast
          omega)
    obtain ⟨r, hr, hlen, hv⟩ := this
    refine ⟨r, ?_, by omega, fun i h1 hi => hv i h1 (by omega)⟩
    rw [computePowers, if_pos (show k ≥ 1 from h)]; exact hr

/-- The recursive generator: `T_i` has depth `ceil(log2 i)`, and the right value. -/
theorem C46_genPowers_depth (a : R) (k : Nat) :
    ∃ vals, genPowers (R := R) .leaf k = some vals ∧ ∀ i, 1 ≤ i → i ≤ k → ∃ v, vals i = some v ∧
      depth v = Nat.clog 2 i ∧ eval a v = (Chebyshev.T R (i : ℤ)).eval a := by
  obtain ⟨vals, h1, h2⟩ := genPowers_ok a (.leaf : Node R) k
  refine ⟨vals, h1, fun i hi hik => ?_⟩
  obtain ⟨v, hv, hg⟩ := h2 i hik
  exact ⟨v, hv, hg.depth1 hi rfl, hg.value⟩

/-- The iterative generator has the same values and depths. -/
theorem C46_chebValues_depth (a : R) (k : Nat) :
    ∃ r, chebValues (R := R) k = some r ∧ r.length = k + 1 ∧ ∀ i, 1 ≤ i → i ≤ k → ∃ v, get r i = some v ∧
      depth v = Nat.clog 2 i ∧ eval a v = (Chebyshev.T R (i : ℤ)).eval a := by
  obtain ⟨r, h1, h2, h3⟩ := chebValues_ok a k
  refine ⟨r, h1, h2, fun i hi hik => ?_⟩
  obtain ⟨v, hv, hg⟩ := h3 i hik
  exact ⟨v, hv, hg.depth1 hi rfl, hg.value⟩

/-- The whole Chebyshev evaluation of degree `d ≥ 1` has depth at most `ceil(log2 (d + 1))`. -/
theorem C46_chebyshev_depth (small : R → Bool) (c : List R) (hc : 2 ≤ c.length) (v : Node R)
    (h : psChebyshev small c = some (some v)) : depth v ≤ Nat.clog 2 c.length := by
  obtain ⟨_, _, w, _, h1, _, _, _, h5⟩ := psChebyshev_ok (0 : R) small c hc
  rw [h] at h1
  cases h1
  refine le_trans h5 ?_
  have : Nat.log 2 (c.length - 1) + 1 ≤ Nat.clog 2 c.length := by
    refine Nat.succ_le_of_lt ((Nat.lt_clog_iff_pow_lt (by norm_num)).2 ?_)
    have := Nat.pow_log_le_self 2 (show c.length - 1 ≠ 0 by omega)
    omega
  exact_mod_cast this

example : ∃ v, psChebyshev (fun c => c == 0) [(0 : ℤ), 0, 1, 0, 4] = some (some v) ∧ depth v ≤ 3 := by
  obtain ⟨v, hv, _⟩ := C28_evaluates (2 : ℤ) (fun c => c == 0) (by simp) [0, 0, 1, 0, 4] fun h => by
    have := example_series
    rw [h] at this
    simp at this
  exact ⟨v, hv, (C46_chebyshev_depth _ _ (by simp) v hv).trans (by
    exact_mod_cast (Nat.clog_le_iff_le_pow (by norm_num)).2 (show [(0 : ℤ), 0, 1, 0, 4].length ≤ 2 ^ 3 by simp))⟩

end Heir.PolyEval
