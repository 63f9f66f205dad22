import Verif.PolyEval.Cheb

/-! # Paterson-Stockmeyer in the Chebyshev basis -/

namespace Heir.PolyEval

open Heir.Loop Heir.PolyClass Polynomial

variable {R : Type} [CommRing R] [DecidableEq R]

/-- Coefficients below the threshold are dropped. -/
def keep (small : R → Bool) (c : R) : R := if small c then 0 else c

/-- Depth of an optional node is at most `e`. -/
def DepthLe (e : Int) : Option (Node R) → Prop
  | none => True
  | some v => depth v ≤ e

theorem DepthLe.mono {e f : Int} (h : e ≤ f) {v : Option (Node R)} (hv : DepthLe e v) : DepthLe f v := by
  cases v with
  | none => trivial
  | some v => exact le_trans hv h

theorem depth_ge (v : Node R) : -1 ≤ depth v := by
  induction v with
  | leaf => simp [depth]
  | const => simp [depth]
  | add a b iha ihb => simp only [depth]; omega
  | sub a b iha ihb => simp only [depth]; omega
  | mul a b iha ihb => simp only [depth]; split <;> [skip; split] <;> omega

theorem depth_mul_le {a b : Node R} {e : Int} (ha : depth a ≤ e) (hb : depth b ≤ e) :
    depth (.mul a b) ≤ e + 1 := by
  have h1 := depth_ge a
  have h2 := depth_ge b
  simp only [depth]; split <;> [skip; split] <;> omega

theorem babyLoop_ok (a : R) (small : R → Bool) (vals : Cache R) {k : Nat} {e : Int}
    (hvals : ∀ i, i ≤ k → ∃ v, vals i = some v ∧ eval a v = (Chebyshev.T R (i : ℤ)).eval a ∧ depth v ≤ e)
    (cs : List R) (j : Nat) (acc : Option (Node R)) (hj : cs.length + j ≤ k) (hd : DepthLe e acc) :
    ∃ v, babyLoop small vals j cs acc = some v ∧ DepthLe e v ∧
      (v = none ↔ acc = none ∧ ∀ c ∈ cs, small c = true) ∧
      evalOpt a v = evalOpt a acc +
        ∑ i ∈ Finset.range cs.length, keep small (cs.getD i 0) * (Chebyshev.T R ((j + i : Nat) : ℤ)).eval a := by
  induction cs generalizing j acc with
  | nil => exact ⟨acc, rfl, hd, by simp, by simp⟩
  | cons c cs ih =>
    rw [List.length_cons] at hj
    have hsum : ∑ i ∈ Finset.range (c :: cs).length, keep small ((c :: cs).getD i 0) * (Chebyshev.T R ((j + i : Nat) : ℤ)).eval a =
        keep small c * (Chebyshev.T R (j : ℤ)).eval a +
          ∑ i ∈ Finset.range cs.length, keep small (cs.getD i 0) * (Chebyshev.T R ((j + 1 + i : Nat) : ℤ)).eval a := by
      rw [List.length_cons, Finset.sum_range_succ', add_comm]
      refine congrArg₂ _ rfl (Finset.sum_congr rfl fun i _ => ?_)
      rw [List.getD_cons_succ, show j + (i + 1) = j + 1 + i by omega]
    rw [babyLoop]
    by_cases h : small c = true
    · obtain ⟨v, h1, h2, h3, h4⟩ := ih (j + 1) acc (by omega) hd
      refine ⟨v, by rw [if_pos h]; exact h1, h2, ?_, ?_⟩
      · rw [h3]; simp [h]
      · rw [h4, hsum, keep, if_pos h]; ring
    · obtain ⟨t, ht, ht1, ht2⟩ := hvals j (by omega)
      have hterm : depth (.mul (.const c) t) ≤ e := by simp [depth, ht2]
      obtain ⟨v, h1, h2, h3, h4⟩ := ih (j + 1) (accAdd acc (.mul (.const c) t)) (by omega) (by
          cases acc with
          | none => exact hterm
          | some u => exact max_le hd hterm)
      refine ⟨v, by rw [if_neg h]; simp only [ht, Option.bind_eq_bind, Option.bind_some]; exact h1, h2, ?_, ?_⟩
      · rw [h3]; cases acc <;> simp [accAdd, h]
      · rw [h4, hsum, keep, if_neg h]
        cases acc <;> simp [accAdd, evalOpt, eval, ht1]; ring

theorem babyStep_ok (a : R) (small : R → Bool) (vals : Cache R) {k : Nat} {e : Int}
    (hvals : ∀ i, i ≤ k → ∃ v, vals i = some v ∧ eval a v = (Chebyshev.T R (i : ℤ)).eval a ∧ depth v ≤ e)
    (cs : List R) (hj : cs.length ≤ k) :
    ∃ v, babyStep small vals cs = some v ∧ DepthLe e v ∧ (v = none ↔ ∀ c ∈ cs, small c = true) ∧
      evalOpt a v = (chebSeries (cs.map (keep small))).eval a := by
  have hval : (chebSeries (cs.map (keep small))).eval a =
      ∑ i ∈ Finset.range cs.length, keep small (cs.getD i 0) * (Chebyshev.T R ((0 + i : Nat) : ℤ)).eval a := by
    rw [chebSeries, eval_finsetSum, List.length_map]
    refine Finset.sum_congr rfl fun i hi => ?_
    have hi := Finset.mem_range.1 hi
    rw [eval_mul, eval_C, Nat.zero_add, List.getD_eq_getElem?_getD, List.getD_eq_getElem?_getD, List.getElem?_map,
      List.getElem?_eq_getElem hi]
    rfl
  rw [babyStep]
  by_cases h : cs.any (fun c => !small c) = true
  · rw [if_pos h]
    obtain ⟨v, h1, h2, h3, h4⟩ := babyLoop_ok a small vals hvals cs 0 none (by omega) trivial
    refine ⟨v, h1, h2, by rw [h3]; simp, ?_⟩
    rw [h4, hval]; simp [evalOpt]
  · rw [if_neg h]
    have hall : ∀ c ∈ cs, small c = true := by
      intro c hc
      by_contra hne
      exact h (List.any_eq_true.2 ⟨c, hc, by simpa using hne⟩)
    refine ⟨none, rfl, trivial, by simpa using hall, ?_⟩
    rw [hval]
    refine (Finset.sum_eq_zero fun i hi => ?_).symm
    have hi := Finset.mem_range.1 hi
    rw [keep, if_pos, zero_mul]
    rw [List.getD_eq_getElem?_getD, List.getElem?_eq_getElem hi]
    exact hall _ (List.getElem_mem hi)

/-- `Σ_j v_j u^j` with null pointers as zero. -/
def hsum (a u : R) : List (Option (Node R)) → R
  | [] => 0
  | v :: t => evalOpt a v + u * hsum a u t

theorem babySteps_ok (a : R) (small : R → Bool) (vals : Cache R) {k : Nat} {e : Int}
    (hvals : ∀ i, i ≤ k → ∃ v, vals i = some v ∧ eval a v = (Chebyshev.T R (i : ℤ)).eval a ∧ depth v ≤ e)
    (bs : List (List R)) (hb : ∀ b ∈ bs, b.length ≤ k) :
    ∃ vs, babySteps small vals bs = some vs ∧ vs.length = bs.length ∧ (∀ v ∈ vs, DepthLe e v) ∧
      ((∀ v ∈ vs, v = none) ↔ ∀ b ∈ bs, ∀ c ∈ b, small c = true) ∧
      hsum a ((Chebyshev.T R (k : ℤ)).eval a) vs = (recombine k (bs.map fun b => b.map (keep small))).eval a := by
  induction bs with
  | nil => exact ⟨[], rfl, rfl, by simp, by simp, by simp [hsum, recombine]⟩
  | cons b bs ih =>
    obtain ⟨vs, h1, h2, h3, h4, h5⟩ := ih fun b hb' => hb b (List.mem_cons_of_mem _ hb')
    obtain ⟨v, e1, e2, e3, e4⟩ := babyStep_ok a small vals hvals b (hb b List.mem_cons_self)
    refine ⟨v :: vs, by simp only [babySteps, e1, h1, Option.bind_eq_bind, Option.bind_some], by simp [h2], ?_, ?_, ?_⟩
    · intro w hw
      rcases List.mem_cons.1 hw with rfl | hw
      · exact e2
      · exact h3 w hw
    · rw [List.forall_mem_cons, List.forall_mem_cons, e3, h4]
    · rw [hsum, List.map_cons, recombine_cons, eval_add, eval_mul, e4, h5]

theorem pairUp_value (a : R) (y : Node R) (v w : Option (Node R)) :
    evalOpt a (pairUp y v w) = evalOpt a v + eval a y * evalOpt a w := by
  cases w with
  | none => simp [pairUp, evalOpt]
  | some w => cases v <;> simp [pairUp, evalOpt, eval] <;> ring

theorem pairUp_none (y : Node R) (v w : Option (Node R)) : pairUp y v w = none ↔ v = none ∧ w = none := by
  cases w <;> simp [pairUp]

theorem pairUp_depth {e : Int} {y : Node R} {v w : Option (Node R)} (hy : depth y ≤ e) (hv : DepthLe e v)
    (hw : DepthLe e w) : DepthLe (e + 1) (pairUp y v w) := by
  cases w with
  | none => exact hv.mono (by omega)
  | some w =>
    have := depth_mul_le (a := w) (b := y) hw hy
    cases v with
    | none => exact this
    | some v =>
      have hv' : depth v ≤ e := hv
      exact max_le (by omega) this

theorem combineRound_ok (a : R) (y : Node R) (e : Int) (hy : depth y ≤ e) : ∀ l : List (Option (Node R)),
    (∀ v ∈ l, DepthLe e v) →
    hsum a (eval a y * eval a y) (combineRound y l) = hsum a (eval a y) l ∧
      (∀ v ∈ combineRound y l, DepthLe (e + 1) v) ∧
      ((∀ v ∈ combineRound y l, v = none) ↔ ∀ v ∈ l, v = none)
  | [], _ => by simp [combineRound, hsum]
  | [v], h => by
    refine ⟨by simp [combineRound, hsum], ?_, by simp [combineRound]⟩
    intro w hw
    rw [combineRound, List.mem_singleton] at hw
    rw [hw]
    exact (h v List.mem_cons_self).mono (by omega)
  | v :: w :: t, h => by
    obtain ⟨h1, h2, h3⟩ := combineRound_ok a y e hy t fun z hz => h z (by simp [hz])
    refine ⟨?_, ?_, ?_⟩
    · simp only [combineRound, hsum, h1, pairUp_value]; ring
    · intro z hz
      rw [combineRound, List.mem_cons] at hz
      rcases hz with rfl | hz
      · exact pairUp_depth hy (h v (by simp)) (h w (by simp))
      · exact h2 z hz
    · rw [combineRound, List.forall_mem_cons, List.forall_mem_cons, List.forall_mem_cons, h3, pairUp_none, and_assoc]

theorem clog_half (n : Nat) (h : 1 < n) : Nat.clog 2 n = Nat.clog 2 ((n + 1) / 2) + 1 := by
  exact Nat.clog_of_two_le (by norm_num) h

theorem combineLoop_ok (a : R) (y : Node R) (l : List (Option (Node R))) (e : Int) (hy : depth y ≤ e)
    (hl : ∀ v ∈ l, DepthLe e v) (h0 : l ≠ []) :
    ∃ v, combineLoop y l = [v] ∧ evalOpt a v = hsum a (eval a y) l ∧ (v = none ↔ ∀ w ∈ l, w = none) ∧
      DepthLe (e + Nat.clog 2 l.length) v := by
  induction hn : l.length using Nat.strong_induction_on generalizing l y e with
  | _ n ih =>
    rw [combineLoop]
    by_cases h : 1 < l.length
    · obtain ⟨h1, h2, h3⟩ := combineRound_ok a y e hy l hl
      have hlen := combineRound_length y l
      rw [if_pos h]
      obtain ⟨v, e1, e2, e3, e4⟩ := ih _ (by omega) (.mul y y) (combineRound y l) (e + 1) (depth_mul_le hy hy) h2
        (fun hc => by rw [hc] at hlen; simp at hlen; omega) rfl
      refine ⟨v, e1, ?_, by rw [e3, h3], ?_⟩
      · rw [e2, ← h1]; rfl
      · rw [hlen] at e4
        rw [← hn, clog_half _ h]
        exact e4.mono (by push_cast; omega)
    · rw [if_neg h]
      match l, h0, h with
      | [v], _, _ =>
        refine ⟨v, rfl, by simp [hsum], by simp, ?_⟩
        exact (hl v List.mem_cons_self).mono (by omega)
      | _ :: _ :: _, _, h => exact absurd (by simp) h

theorem optimalSplit_le {L : Nat} (h : 1 ≤ L) : optimalSplit L ≤ L := by
  rw [optimalSplit, Nat.shiftRight_eq_div_pow]
  simp only [pow_one]
  split <;> omega

/-- Everything there is to say about the builder for at least two coefficients. -/
theorem psChebyshev_ok (a : R) (small : R → Bool) (c : List R) (hc : 2 ≤ c.length) :
    ∃ k bs v, 1 ≤ k ∧ psChebyshev small c = some v ∧ decompose k c.length c = some bs ∧
      evalOpt a v = (recombine k (bs.map fun b => b.map (keep small))).eval a ∧
      (v = none ↔ ∀ b ∈ bs, ∀ x ∈ b, small x = true) ∧
      DepthLe (Nat.log 2 (c.length - 1) + 1) v := by
  set L := Nat.log 2 (c.length - 1) + 1 with hL
  set s := optimalSplit L with hs
  have hsL : s ≤ L := optimalSplit_le (by omega)
  have hk : 1 ≤ 2 ^ s := Nat.one_le_two_pow
  obtain ⟨bs, b1, b2, b3, b4, b5⟩ := decompose_ok hk c.length c le_rfl
  obtain ⟨vals, g1, g2⟩ := genPowers_ok a (.leaf : Node R) (2 ^ s)
  have hvals : ∀ i, i ≤ 2 ^ s → ∃ v, vals i = some v ∧ eval a v = (Chebyshev.T R (i : ℤ)).eval a ∧ depth v ≤ s := by
    intro i hi
    obtain ⟨v, hv, hg⟩ := g2 i hi
    refine ⟨v, hv, hg.value, ?_⟩
    rcases Nat.eq_zero_or_pos i with h | h
    · rw [hg.depth0 h]; omega
    · rw [hg.depth1 h rfl]
      exact_mod_cast (Nat.clog_le_iff_le_pow (by norm_num)).2 hi
  obtain ⟨vs, v1, v2, v3, v4, v5⟩ := babySteps_ok a small vals hvals bs fun b hb => (b3 b hb).1
  obtain ⟨y, y1, y2, y3⟩ := hvals (2 ^ s) le_rfl
  have hne : vs ≠ [] := by
    intro h
    rw [h] at v2
    have := List.length_eq_zero_iff.1 v2.symm
    rw [this] at b4
    simp at b4; omega
  obtain ⟨v, c1, c2, c3, c4⟩ := combineLoop_ok a y vs s y3 v3 hne
  refine ⟨2 ^ s, bs, v, hk, ?_, b1, ?_, by rw [c3, v4], c4.mono ?_⟩
  · have hget : (combineLoop y vs)[0]? = some v := by rw [c1]; rfl
    match c, hc, hL, b1 with
    | x :: z :: t, hc, hL, b1 =>
      rw [psChebyshev]
      · simp only [← hL, ← hs, b1, g1, v1, y1, hget, Option.bind_eq_bind, Option.bind_some]
      all_goals simp
  · rw [c2, y2]
    push_cast at v5 ⊢
    exact v5
  · have h1 : Nat.clog 2 vs.length ≤ L - s := by
      rw [Nat.clog_le_iff_le_pow (by norm_num), v2, b2]
      have h2 := Nat.lt_pow_succ_log_self (b := 2) (by norm_num) (c.length - 1)
      have h3 : 2 ^ L = 2 ^ (L - s) * 2 ^ s := by rw [← pow_add]; congr 1; omega
      have h4 : c.length ≤ 2 ^ (L - s) * 2 ^ s := by rw [← h3, hL]; omega
      rw [← Nat.lt_succ_iff, Nat.div_lt_iff_lt_mul hk, Nat.succ_mul]
      omega
    have : (Nat.clog 2 vs.length : Int) ≤ L - s := by omega
    push_cast at *
    omega

end Heir.PolyEval
