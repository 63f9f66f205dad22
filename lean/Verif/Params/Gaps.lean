import Mathlib.Analysis.SpecialFunctions.Pow.Real
import Verif.Params.Lemmas2

/-! # Lemmas about the sizes that the noise asks for -/

namespace Heir.Params

/-- The levels of a map. -/
def keys (m : List (Nat × ℚ)) : List Nat := m.map Prod.fst

theorem keys_update (m : List (Nat × ℚ)) (l : Nat) (g : ℚ) :
    keys (updateGap m l g) = if l ∈ keys m then keys m else keys m ++ [l] := by
  induction m with
  | nil => simp [updateGap, keys]
  | cons e rest ih =>
    obtain ⟨a, b⟩ := e
    rw [updateGap]
    by_cases h : a = l
    · simp [h, keys]
    · rw [if_neg h]
      simp only [keys, List.map_cons, List.mem_cons] at ih ⊢
      rw [ih]
      by_cases h2 : l ∈ List.map Prod.fst rest
      · simp [h2]
      · simp [h2, Ne.symm h]

theorem mem_update {m : List (Nat × ℚ)} (hn : (keys m).Nodup) {l : Nat} {g : ℚ} {a : Nat} {b : ℚ}
    (h : (a, b) ∈ updateGap m l g) :
    (a ≠ l ∧ (a, b) ∈ m) ∨ (a = l ∧ ((∃ g0, (l, g0) ∈ m ∧ b = max g0 g) ∨ (l ∉ keys m ∧ b = g))) := by
  induction m with
  | nil =>
    simp only [updateGap, List.mem_singleton, Prod.mk.injEq] at h
    exact Or.inr ⟨h.1, Or.inr ⟨by simp [keys], h.2⟩⟩
  | cons e rest ih =>
    obtain ⟨x, y⟩ := e
    simp only [keys, List.map_cons, List.nodup_cons] at hn
    rw [updateGap] at h
    by_cases hx : x = l
    · rw [if_pos hx] at h
      subst hx
      rcases List.mem_cons.1 h with h | h
      · simp only [Prod.mk.injEq] at h
        exact Or.inr ⟨h.1, Or.inl ⟨y, List.mem_cons_self, h.2⟩⟩
      · have : a ≠ x := by
          intro hax
          exact hn.1 (List.mem_map.2 ⟨(a, b), h, hax⟩)
        exact Or.inl ⟨this, List.mem_cons_of_mem _ h⟩
    · rw [if_neg hx] at h
      rcases List.mem_cons.1 h with h | h
      · simp only [Prod.mk.injEq] at h
        exact Or.inl ⟨h.1 ▸ hx, by rw [h.1, h.2]; exact List.mem_cons_self⟩
      · rcases ih hn.2 h with ⟨h1, h2⟩ | ⟨h1, ⟨g0, h2, h3⟩ | ⟨h2, h3⟩⟩
        · exact Or.inl ⟨h1, List.mem_cons_of_mem _ h2⟩
        · exact Or.inr ⟨h1, Or.inl ⟨g0, List.mem_cons_of_mem _ h2, h3⟩⟩
        · refine Or.inr ⟨h1, Or.inr ⟨?_, h3⟩⟩
          simp only [keys, List.map_cons, List.mem_cons, not_or]
          exact ⟨Ne.symm hx, h2⟩

/-- A map holds the largest gaps of a list. -/
structure Largest (m gs : List (Nat × ℚ)) : Prop where
  nodup : (keys m).Nodup
  max : ∀ l g, (l, g) ∈ m → (l, g) ∈ gs ∧ ∀ g', (l, g') ∈ gs → g' ≤ g
  all : ∀ l g, (l, g) ∈ gs → l ∈ keys m

theorem Largest.step {m gs : List (Nat × ℚ)} (h : Largest m gs) (l : Nat) (g : ℚ) :
    Largest (updateGap m l g) (gs ++ [(l, g)]) := by
  refine ⟨?_, ?_, ?_⟩
  · rw [keys_update]
    split
    · exact h.nodup
    · rename_i hl
      rw [List.nodup_append]
      refine ⟨h.nodup, by simp, ?_⟩
      intro a ha b hb
      simp only [List.mem_singleton] at hb
      rintro rfl
      exact hl (hb ▸ ha)
  · intro a b hab
    simp only [List.mem_append, List.mem_singleton, Prod.mk.injEq]
    rcases mem_update h.nodup hab with ⟨h1, h2⟩ | ⟨rfl, ⟨g0, h2, rfl⟩ | ⟨h2, rfl⟩⟩
    · obtain ⟨h3, h4⟩ := h.max a b h2
      exact ⟨Or.inl h3, fun g' hg => hg.elim (h4 g') (fun hg => absurd hg.1 h1)⟩
    · obtain ⟨h3, h4⟩ := h.max a g0 h2
      refine ⟨?_, fun g' hg => hg.elim (fun hg => (h4 g' hg).trans (le_max_left _ _))
        (fun hg => hg.2 ▸ le_max_right _ _)⟩
      rcases le_total g0 g with hg | hg
      · exact Or.inr ⟨rfl, max_eq_right hg⟩
      · rw [max_eq_left hg]; exact Or.inl h3
    · exact ⟨Or.inr ⟨rfl, rfl⟩, fun g' hg => hg.elim (fun hg => absurd (h.all _ _ hg) h2)
        (fun hg => hg.2.le)⟩
  · intro a b hab
    rw [keys_update]
    simp only [List.mem_append, List.mem_singleton, Prod.mk.injEq] at hab
    rcases hab with hab | ⟨rfl, rfl⟩
    · have := h.all a b hab
      split
      · exact this
      · exact List.mem_append_left _ this
    · split
      · assumption
      · exact List.mem_append_right _ (by simp)

theorem largest_fold (gs : List (Nat × ℚ)) (m done : List (Nat × ℚ)) (h : Largest m done) :
    Largest (gs.foldl (fun m e => updateGap m e.1 e.2) m) (done ++ gs) := by
  induction gs generalizing m done with
  | nil => simpa using h
  | cons e rest ih =>
    have := ih _ _ (h.step e.1 e.2)
    rw [List.append_assoc] at this
    exact this

theorem largest (gs : List (Nat × ℚ)) : Largest (levelToGap gs) gs := by
  simpa [levelToGap] using largest_fold gs [] [] ⟨by simp [keys], by simp, by simp⟩

theorem levelToGap_length (gs : List (Nat × ℚ)) :
    (levelToGap gs).length = (gs.map Prod.fst).toFinset.card := by
  have h := largest gs
  have : (keys (levelToGap gs)).toFinset = (gs.map Prod.fst).toFinset := by
    ext a
    simp only [List.mem_toFinset, keys, List.mem_map, Prod.exists, exists_and_right, exists_eq_right]
    constructor
    · rintro ⟨b, hb⟩; exact ⟨b, (h.max _ _ hb).1⟩
    · rintro ⟨b, hb⟩
      have := h.all _ _ hb
      simpa [keys] using this
  rw [← this, List.toFinset_card_of_nodup h.nodup]
  simp [keys]

theorem writeSizes_some {m : List (Nat × ℚ)} (hn : (keys m).Nodup) {v : List Int}
    (hl : ∀ l ∈ keys m, l < v.length) :
    ∃ out, writeSizes m v = some out ∧ out.length = v.length ∧
      (∀ l g, (l, g) ∈ m → out[l]? = some (1 + ⌈g⌉)) ∧ ∀ i, i ∉ keys m → out[i]? = v[i]? := by
  induction m generalizing v with
  | nil => exact ⟨v, rfl, rfl, by simp, fun i _ => rfl⟩
  | cons e rest ih =>
    obtain ⟨a, b⟩ := e
    simp only [keys, List.map_cons, List.nodup_cons, List.mem_cons, forall_eq_or_imp] at hn hl
    obtain ⟨out, h1, h2, h3, h4⟩ := ih (v := v.set a (1 + ⌈b⌉)) hn.2 (by
      intro l h; rw [List.length_set]; exact hl.2 l h)
    refine ⟨out, by rw [writeSizes, if_pos hl.1, h1], by rw [h2, List.length_set], ?_, ?_⟩
    · intro l g h
      rcases List.mem_cons.1 h with h | h
      · simp only [Prod.mk.injEq] at h
        rw [h.1, h.2, h4 a hn.1, List.getElem?_set_self hl.1]
      · exact h3 l g h
    · intro i hi
      simp only [keys, List.map_cons, List.mem_cons, not_or] at hi
      rw [h4 i hi.2, List.getElem?_set_ne (Ne.symm hi.1)]

theorem writeSizes_none {m : List (Nat × ℚ)} {v : List Int} (h : writeSizes m v = none) :
    ∃ l ∈ keys m, v.length ≤ l := by
  induction m generalizing v with
  | nil => simp [writeSizes] at h
  | cons e rest ih =>
    obtain ⟨a, b⟩ := e
    rw [writeSizes] at h
    split at h
    · obtain ⟨l, h1, h2⟩ := ih h
      rw [List.length_set] at h2
      exact ⟨l, List.mem_cons_of_mem _ h1, h2⟩
    · exact ⟨a, List.mem_cons_self, by omega⟩

theorem writeSizes_ub {m : List (Nat × ℚ)} {v : List Int} {l : Nat} (hl : l ∈ keys m)
    (hv : v.length ≤ l) : writeSizes m v = none := by
  induction m generalizing v with
  | nil => simp [keys] at hl
  | cons e rest ih =>
    obtain ⟨a, b⟩ := e
    rw [writeSizes]
    simp only [keys, List.map_cons, List.mem_cons] at hl
    split
    · rcases hl with rfl | hl
      · omega
      · exact ih hl (by rw [List.length_set]; exact hv)
    · rfl

theorem firstModSize_ge (bounds : List ℚ) (a : Int) :
    a ≤ bounds.foldl (fun a b => max a (2 + ⌈b⌉)) a ∧
    ∀ b ∈ bounds, 2 + ⌈b⌉ ≤ bounds.foldl (fun a b => max a (2 + ⌈b⌉)) a := by
  induction bounds generalizing a with
  | nil => simp
  | cons b rest ih =>
    obtain ⟨h1, h2⟩ := ih (max a (2 + ⌈b⌉))
    simp only [List.foldl_cons, List.mem_cons, forall_eq_or_imp]
    exact ⟨(le_max_left _ _).trans h1, (le_max_right _ _).trans h1, h2⟩

theorem splitBits_spec (b : Int) (hb : 0 < b) : ∀ (k : Nat) (q : Int), 0 < q → q ≤ b * k →
    b * ((k : Int) - 1) < q → (splitBits b k q).sum = q ∧ (splitBits b k q).length = k ∧
      ∀ x ∈ splitBits b k q, 1 ≤ x ∧ x ≤ b
  | 0, q, h1, h2, _ => by simp at h2; omega
  | k + 1, q, h1, h2, h3 => by
    have e1 : ((k + 1 : Nat) : Int) = (k : Int) + 1 := by push_cast; ring
    rw [e1] at h2 h3
    rw [mul_add, mul_one] at h2
    rw [add_sub_cancel_right] at h3
    rw [splitBits]
    rcases Nat.eq_zero_or_pos k with hk | hk
    · subst hk
      have : q ≤ b := by simpa using h2
      simp only [splitBits, List.sum_cons, List.sum_nil, List.length_cons, List.length_nil,
        List.mem_singleton, forall_eq, min_eq_right this]
      exact ⟨by ring, trivial, by omega, this⟩
    · have hbk : b ≤ b * k := by
        have : (1 : Int) ≤ k := by exact_mod_cast hk
        nlinarith
      obtain ⟨r1, r2, r3⟩ := splitBits_spec b hb k (q - b) (by omega) (by omega) (by
        rw [mul_sub, mul_one]; omega)
      rw [min_eq_left (by omega)]
      simp only [List.sum_cons, r1, List.length_cons, r2, List.mem_cons, forall_eq_or_imp]
      exact ⟨by ring, trivial, ⟨by omega, le_refl _⟩, r3⟩

theorem noiseSizes_spec {b : Nat} (hb : 0 < b) {q : Int} (hq : 0 < q) :
    (noiseSizes b q).sum = q ∧ noiseSizes b q ≠ [] ∧ ∀ x ∈ noiseSizes b q, 1 ≤ x ∧ x ≤ b := by
  have hb' : (0 : Int) < b := by exact_mod_cast hb
  have h1 := Int.mul_ediv_add_emod (q + b - 1) b
  have h2 := Int.emod_nonneg (q + b - 1) hb'.ne'
  have h3 := Int.emod_lt_of_pos (q + b - 1) hb'
  have h4 : 0 < (q + b - 1) / (b : Int) := by
    by_contra hc
    have : (b : Int) * ((q + b - 1) / (b : Int)) ≤ 0 := by nlinarith
    omega
  have e : (((q + b - 1) / (b : Int)).toNat : Int) = (q + b - 1) / (b : Int) := Int.toNat_of_nonneg h4.le
  obtain ⟨r1, r2, r3⟩ := splitBits_spec b hb' ((q + b - 1) / (b : Int)).toNat q hq (by rw [e]; omega)
    (by rw [e, mul_sub, mul_one]; omega)
  refine ⟨r1, ?_, r3⟩
  intro hc
  rw [noiseSizes] at hc
  rw [hc] at r2
  simp at r2
  omega

/-- Moduli above the sizes multiply to more than the sum of the sizes. -/
theorem prod_gt {l : List ℚ} {q : List Nat} (h : List.Forall₂ (fun (x : ℚ) r => 2 ^ ⌊x⌋.toNat < r ∧
    2 ^ 20 < r) l q) (hl : ∀ x ∈ l, 0 ≤ x) (hne : l ≠ []) :
    2 ^ (l.map fun x => ⌊x⌋.toNat).sum < q.prod := by
  induction h with
  | nil => exact absurd rfl hne
  | @cons x r l' q' hx hrest ih =>
    simp only [List.map_cons, List.sum_cons, List.prod_cons, pow_add]
    rcases l'.eq_nil_or_concat with rfl | ⟨a, b, hab⟩
    · cases hrest
      simpa using hx.1
    · have hne' : l' ≠ [] := by rw [hab]; simp
      exact Nat.mul_lt_mul'' hx.1 (ih (fun y hy => hl y (List.mem_cons_of_mem _ hy)) hne')

theorem sum_floor (l : List Int) (h : ∀ x ∈ l, 0 ≤ x) :
    (((l.map (Int.cast : Int → ℚ)).map fun x => ⌊x⌋.toNat).sum : Int) = l.sum := by
  induction l with
  | nil => simp
  | cons x l ih =>
    have := ih fun y hy => h y (List.mem_cons_of_mem _ hy)
    simp only [List.map_cons, List.sum_cons, Int.floor_intCast, Nat.cast_add, this]
    rw [Int.toNat_of_nonneg (h x List.mem_cons_self)]

theorem forall₂_get {α β : Type} {R : α → β → Prop} {l : List α} {m : List β} (h : List.Forall₂ R l m)
    {i : Nat} {x : α} (hx : l[i]? = some x) : ∃ y, m[i]? = some y ∧ R x y := by
  induction h generalizing i with
  | nil => simp at hx
  | cons h1 h2 ih =>
    cases i with
    | zero => simp only [List.getElem?_cons_zero, Option.some.injEq] at hx ⊢; subst hx; exact ⟨_, rfl, h1⟩
    | succ i => exact ih (by simpa using hx)

theorem rpow_lt {x : Int} {g : ℚ} {c r : Nat} (hg : (c : ℚ) + g ≤ x) (h : 2 ^ x.toNat < r) :
    (2 : ℝ) ^ ((c : ℝ) + (g : ℝ)) < r := by
  have h1 : ((c : ℝ) + (g : ℝ)) ≤ (x.toNat : ℝ) := by
    have h2 : ((c : ℝ) + (g : ℝ)) ≤ (x : ℝ) := by exact_mod_cast hg
    have h3 : (x : ℝ) ≤ (x.toNat : ℝ) := by exact_mod_cast Int.self_le_toNat x
    linarith
  calc (2 : ℝ) ^ ((c : ℝ) + (g : ℝ)) ≤ (2 : ℝ) ^ (x.toNat : ℝ) :=
        Real.rpow_le_rpow_of_exponent_le (by norm_num) h1
    _ = ((2 ^ x.toNat : Nat) : ℝ) := by rw [Real.rpow_natCast]; push_cast; rfl
    _ < r := by exact_mod_cast h

end Heir.Params
