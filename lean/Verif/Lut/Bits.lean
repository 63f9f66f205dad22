import Verif.Lut.Lemmas
import Mathlib.Data.List.GetD

/-! # Lemmas about selections, concealed integers and imported tables -/

namespace Heir.Lut

/-! ## Selections -/

theorem buildSelect_eval (ins : List Bool) : ∀ (n : Nat) (lut : BitVec (2 ^ n)), n ≤ ins.length →
    (buildSelect n lut).eval ins = lut.getLsbD (index ((ins.take n).map not).reverse)
  | 0, lut, _ => by
    have h1 : lut = 0 ∨ lut = 1 := by
      have := lut.isLt
      rcases (by omega : lut.toNat = 0 ∨ lut.toNat = 1) with h | h
      · left; apply BitVec.eq_of_toNat_eq; simpa using h
      · right; apply BitVec.eq_of_toNat_eq; simpa using h
    simp only [List.take_zero, List.map_nil, List.reverse_nil, index]
    rcases h1 with rfl | rfl <;> simp [buildSelect, Sel.eval]
  | n + 1, lut, h => by
    have ih1 := buildSelect_eval ins n (lut.extractLsb' 0 (2 ^ n)) (by omega)
    have ih2 := buildSelect_eval ins n (lut.extractLsb' (2 ^ n) (2 ^ n)) (by omega)
    have hlt : n < ins.length := by omega
    have hk : index ((ins.take n).map not).reverse < 2 ^ n := by
      have := index_lt ((ins.take n).map not).reverse
      simpa [Nat.min_eq_left (by omega : n ≤ ins.length)] using this
    have e : ((ins.take (n + 1)).map not).reverse = (!ins[n]) :: ((ins.take n).map not).reverse := by
      rw [List.take_succ_eq_append_getElem hlt, List.map_append, List.reverse_append]
      rfl
    rw [e, index]
    simp only [buildSelect, Sel.eval, List.getD_eq_getElem _ _ hlt, ih1, ih2, List.length_reverse,
      List.length_map, List.length_take, Nat.min_eq_left (by omega : n ≤ ins.length)]
    generalize index ((ins.take n).map not).reverse = k at hk ⊢
    cases ins[n]
    · simp [BitVec.getLsbD_extractLsb', hk]
    · simp [BitVec.getLsbD_extractLsb', hk]

/-! ## Bits of integers -/

theorem bitOf_eq {w : Nat} (x : BitVec w) {i : Nat} (h : i < w) :
    (bitOf x i).getLsbD 0 = x.getLsbD i := by
  unfold bitOf
  rw [BitVec.getLsbD_setWidth, BitVec.getLsbD_sshiftRight, BitVec.getLsbD_and,
    BitVec.getLsbD_shiftLeft]
  have h0 : ¬ w = 0 := by omega
  simp [h, h0]
  intro _; omega

theorem encodeElement_eq {w : Nat} (x : BitVec w) :
    encodeElement x = (List.range w).map fun i => x.getLsbD i := by
  unfold encodeElement
  split
  · rename_i h
    subst h
    rfl
  · apply List.map_congr_left
    intro i hi
    exact bitOf_eq x (List.mem_range.1 hi)

/-! ## Positions -/

theorem rowMajor_eq : ∀ {idx : List Int} {shape : List Nat}, InShape idx shape →
    ∃ k, extractAt.rowMajor shape idx = some k ∧ k < shape.prod ∧
      ∀ off : Int, flattenIndex off idx (rowStrides shape) = some (off + k)
  | [], [], _ => ⟨0, rfl, by simp, fun off => by simp [flattenIndex, rowStrides]⟩
  | [], _ :: _, h => h.elim
  | _ :: _, [], h => h.elim
  | i :: is, d :: ds, h => by
    obtain ⟨k, hk, hlt, hf⟩ := rowMajor_eq h.2
    obtain ⟨h0, hd⟩ := h.1
    refine ⟨i.toNat * ds.prod + k, by simp [extractAt.rowMajor, h0, hd, hk], ?_, ?_⟩
    · rw [List.prod_cons]
      have : i.toNat + 1 ≤ d := by omega
      calc i.toNat * ds.prod + k < i.toNat * ds.prod + ds.prod := by omega
        _ = (i.toNat + 1) * ds.prod := by ring
        _ ≤ d * ds.prod := Nat.mul_le_mul_right _ this
    · intro off
      simp only [rowStrides, flattenIndex, hf]
      push_cast
      rw [Int.toNat_of_nonneg h0]
      congr 1
      ring

theorem unflatten_go : ∀ {idx : List Int} {shape : List Nat}, InShape idx shape →
    ∀ k, extractAt.rowMajor shape idx = some k →
      unflattenIndex.go k (rowStrides shape) = some idx
  | [], [], _, _, _ => rfl
  | [], _ :: _, h, _, _ => h.elim
  | _ :: _, [], h, _, _ => h.elim
  | i :: is, d :: ds, h, k, hk => by
    obtain ⟨r, hr, hlt, -⟩ := rowMajor_eq h.2
    obtain ⟨h0, hd⟩ := h.1
    simp only [extractAt.rowMajor, h0, hd, and_self, if_true, hr, Option.map_some,
      Option.some.injEq] at hk
    have hp : (0 : Int) < ds.prod := by
      have : 0 < ds.prod := by omega
      exact_mod_cast this
    have hk' : (k : Int) = i * ds.prod + r := by
      rw [← hk]
      push_cast
      rw [Int.toNat_of_nonneg h0]
    have hr0 : (0 : Int) ≤ r := Int.natCast_nonneg r
    have hrlt : (r : Int) < ds.prod := by exact_mod_cast hlt
    have hdiv : (k : Int).tdiv ds.prod = i := by
      rw [Int.tdiv_eq_ediv_of_nonneg (Int.natCast_nonneg k), hk', add_comm,
        Int.add_mul_ediv_right _ _ (by omega), Int.ediv_eq_zero_of_lt hr0 hrlt, zero_add]
    have hmod : (k : Int).tmod ds.prod = r := by
      rw [Int.tmod_eq_emod_of_nonneg (Int.natCast_nonneg k), hk', add_comm,
        Int.add_mul_emod_self_right, Int.emod_eq_of_lt hr0 hrlt]
    simp only [rowStrides, unflattenIndex.go, hdiv, hmod]
    rw [if_neg (by omega), unflatten_go h.2 r hr]
    rfl

/-! ## Imported tables -/

theorem port_bit (b : Bool) {i j : Nat} (hi : i < 32) (hj : j < 32) :
    ((((if b then 1#32 else 0#32) <<< i).signExtend 64)).getLsbD j = (b && decide (j = i)) := by
  rw [BitVec.getLsbD_signExtend]
  have hj64 : j < 64 := by omega
  simp only [hj64, decide_true, Bool.true_and, hj, if_true]
  cases b
  · simp
  · simp only [if_true, BitVec.getLsbD_shiftLeft, Bool.true_and, hj, decide_true]
    by_cases h : j = i
    · subst h; simp
    · by_cases hl : j < i
      · simp [hl, h]
      · have : j - i ≠ 0 := by omega
        simp [hl, h, this]

theorem importLoop_eq : ∀ (bs : List Bool) (i : Nat) (acc : BitVec 64), i + bs.length ≤ 32 →
    ∃ r, importLoop i acc bs = some r ∧ ∀ j < 32, r.getLsbD j =
      (acc.getLsbD j || (decide (i ≤ j) && bs.getD (j - i) false))
  | [], i, acc, _ => ⟨acc, rfl, fun j _ => by simp⟩
  | b :: bs, i, acc, h => by
    have hi : i < 32 := by simp at h; omega
    obtain ⟨r, hr, he⟩ := importLoop_eq bs (i + 1)
      (acc ||| ((if b then 1#32 else 0#32) <<< i).signExtend 64) (by simp at h; omega)
    refine ⟨r, by simp [importLoop, hi, hr], fun j hj => ?_⟩
    rw [he j hj, BitVec.getLsbD_or, port_bit b hi hj]
    rcases Nat.lt_trichotomy j i with h1 | h1 | h1
    · have a1 : ¬ i + 1 ≤ j := by omega
      have a2 : ¬ i ≤ j := by omega
      have a3 : j ≠ i := by omega
      simp [a1, a2, a3]
    · subst h1
      have a1 : ¬ j + 1 ≤ j := by omega
      simp
    · have a1 : i + 1 ≤ j := by omega
      have a2 : i ≤ j := by omega
      have a3 : j ≠ i := by omega
      obtain ⟨m, hm⟩ : ∃ m, j - i = m + 1 := ⟨j - i - 1, by omega⟩
      have hm' : j - (i + 1) = m := by omega
      simp [a1, a2, a3, hm, hm']

theorem importLoop_ub : ∀ (bs : List Bool) (i : Nat) (acc : BitVec 64), 32 < i + bs.length → i ≤ 32 →
    importLoop i acc bs = none
  | [], i, acc, h, h32 => by simp at h; omega
  | b :: bs, i, acc, h, h32 => by
    unfold importLoop
    split
    · rename_i hi
      exact importLoop_ub bs (i + 1) _ (by simp at h; omega) (by omega)
    · rfl

theorem importInputs_eq {α : Type} (l : List α) : importInputs l = l.reverse := by
  have e : ∀ n ≤ l.length, (List.range n).filterMap (fun i => l[l.length - i - 1]?) =
      l.reverse.take n := by
    intro n
    induction n with
    | zero => intro _; simp
    | succ n ih =>
      intro h
      have h1 : l.length - n - 1 < l.length := by omega
      have h2 : n < l.reverse.length := by rw [List.length_reverse]; omega
      rw [List.range_succ, List.filterMap_append, ih (by omega),
        List.take_succ_eq_append_getElem h2]
      congr 1
      simp only [List.filterMap_cons, List.getElem?_eq_getElem h1, List.filterMap_nil,
        List.getElem_reverse]
      congr 2
      omega
  unfold importInputs
  rw [e _ (le_refl _), List.take_of_length_le (by simp)]

theorem index_reverse : ∀ l : List Bool, index l.reverse = lsbIndex l := by
  have happ : ∀ (l : List Bool) (b : Bool), index (l ++ [b]) = 2 * index l + b.toNat := by
    intro l b
    induction l with
    | nil => simp [index]
    | cons a l ih =>
      simp only [List.cons_append, index, ih, List.length_append, List.length_cons,
        List.length_nil, pow_succ]
      ring
  intro l
  induction l with
  | nil => rfl
  | cons b l ih =>
    rw [List.reverse_cons, happ, ih, lsbIndex]
    omega

end Heir.Lut
