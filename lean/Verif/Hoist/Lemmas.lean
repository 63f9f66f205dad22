import Verif.Hoist.Spec
import Mathlib.Data.List.Forall2
import Mathlib.Tactic.Ring
import Mathlib.Algebra.Order.BigOperators.Group.List

/-!
# Lemmas on collapsed and padded layouts
-/

namespace Heir.Hoist

open Heir.Layout

variable {R : Type}

/-- The index in the source of an index of one collapsed dimension. -/
def spreadG (g : List Nat) (o : Nat) : List Nat :=
  (List.range g.length).map fun p => if p = repDim g then o else 0

def spread : List (List Nat) → List Nat → List Nat
  | g :: gs, o :: out => spreadG g o ++ spread gs out
  | _, _ => []

@[simp] theorem spreadG_length (g : List Nat) (o : Nat) : (spreadG g o).length = g.length := by
  simp [spreadG]

theorem groupRel_iff {g idx : List Nat} {o : Nat} : groupRel g idx o ↔ idx = spreadG g o := by
  constructor
  · rintro ⟨hl, h⟩
    refine List.ext_getElem (by simp [hl]) fun p h1 h2 => ?_
    have := h p (by omega)
    rw [List.getD_eq_getElem?_getD, List.getElem?_eq_getElem h1, Option.getD_some] at this
    rw [this]
    simp [spreadG]
  · rintro rfl
    refine ⟨by simp, fun p hp => ?_⟩
    simp [spreadG, List.getD_eq_getElem?_getD, hp]

theorem mapRel_iff {gs : List (List Nat)} {idx out : List Nat} :
    mapRel gs idx out ↔ out.length = gs.length ∧ idx = spread gs out := by
  induction gs generalizing idx out with
  | nil =>
    constructor
    · rintro ⟨rfl, rfl⟩; exact ⟨rfl, rfl⟩
    · rintro ⟨h, rfl⟩
      rw [List.eq_nil_of_length_eq_zero h]
      exact ⟨rfl, rfl⟩
  | cons g gs ih =>
    cases out with
    | nil => simp [mapRel]
    | cons o out =>
      rw [mapRel, groupRel_iff, ih]
      constructor
      · rintro ⟨h1, h2, h3⟩
        refine ⟨by simp [h2], ?_⟩
        rw [spread, ← h1, ← h3, List.take_append_drop]
      · rintro ⟨h1, rfl⟩
        refine ⟨?_, by simpa using h1, ?_⟩
        · rw [spread, List.take_left' (by simp)]
        · rw [spread, List.drop_left' (by simp)]

theorem repDim_cons_ne {d : Nat} (g : List Nat) (h : d ≠ 1) : repDim (d :: g) = 0 := by
  simp [repDim, List.findIdx?_cons, h]

theorem repDim_cons_one {g : List Nat} (h : ∃ x ∈ g, x ≠ 1) : repDim (1 :: g) = repDim g + 1 := by
  unfold repDim
  rw [List.findIdx?_cons]
  simp only [ne_eq, not_true_eq_false, decide_false]
  cases hf : g.findIdx? (fun x => decide (¬ x = 1)) with
  | none =>
    rw [List.findIdx?_eq_none_iff] at hf
    obtain ⟨x, hx, hne⟩ := h
    have := hf x hx
    simp at this
    exact absurd this hne
  | some p => simp

theorem repDim_ones {g : List Nat} (h : ∀ x ∈ g, x = 1) : repDim g = 0 := by
  unfold repDim
  have : g.findIdx? (· ≠ 1) = none := by
    rw [List.findIdx?_eq_none_iff]
    intro x hx
    simp [h x hx]
  rw [this]

theorem spreadG_cons_zero {d o : Nat} {g : List Nat} (h : repDim (d :: g) = 0) :
    spreadG (d :: g) o = o :: List.replicate g.length 0 := by
  unfold spreadG
  rw [h, List.length_cons, List.range_succ_eq_map, List.map_cons, List.map_map]
  simp only [if_true, List.cons.injEq, true_and]
  rw [List.eq_replicate_iff]
  refine ⟨by simp, fun b hb => ?_⟩
  simp at hb
  exact hb.2.symm

theorem spreadG_cons_succ {d o : Nat} {g : List Nat} (h : repDim (d :: g) = repDim g + 1) :
    spreadG (d :: g) o = 0 :: spreadG g o := by
  unfold spreadG
  rw [h, List.length_cons, List.range_succ_eq_map, List.map_cons, List.map_map]
  simp

theorem number_zeros (g : List Nat) (k : Nat) : number g (List.replicate k 0) = 0 := by
  induction g generalizing k with
  | nil => rfl
  | cons d g ih =>
    cases k with
    | zero => rfl
    | succ k => simp [List.replicate_succ, number, ih]

theorem prod_ones {g : List Nat} (h : ∀ x ∈ g, x = 1) : g.prod = 1 := by
  induction g with
  | nil => rfl
  | cons d g ih =>
    rw [List.prod_cons, h d (by simp), ih fun x hx => h x (List.mem_cons_of_mem _ hx)]

theorem inBounds_zeros {g : List Nat} (h : ∀ x ∈ g, x = 1) :
    InBounds g (List.replicate g.length 0) := by
  induction g with
  | nil => exact .nil
  | cons d g ih =>
    rw [List.length_cons, List.replicate_succ]
    refine .cons ?_ (ih fun x hx => h x (List.mem_cons_of_mem _ hx))
    rw [h d (by simp)]
    omega

theorem ones_of_filter {g : List Nat} (h : (g.filter (· ≠ 1)).length = 0) : ∀ x ∈ g, x = 1 := by
  intro x hx
  by_contra hne
  have : x ∈ g.filter (· ≠ 1) := by simp [hx, hne]
  rw [List.eq_nil_of_length_eq_zero h] at this
  simp at this

/-- The index found for a collapsed dimension is an index of the group, with that number. -/
theorem spreadG_ok {g : List Nat} {o : Nat} (h : (g.filter (· ≠ 1)).length ≤ 1) (ho : o < g.prod) :
    InBounds g (spreadG g o) ∧ number g (spreadG g o) = o := by
  induction g with
  | nil =>
    have : o = 0 := by simpa using ho
    subst this
    exact ⟨.nil, rfl⟩
  | cons d g ih =>
    by_cases hd : d = 1
    · subst hd
      rw [List.prod_cons, one_mul] at ho
      have h' : (g.filter (· ≠ 1)).length ≤ 1 := by simpa using h
      by_cases hex : ∃ x ∈ g, x ≠ 1
      · obtain ⟨h1, h2⟩ := ih h' ho
        rw [spreadG_cons_succ (repDim_cons_one hex)]
        refine ⟨.cons (by omega) h1, ?_⟩
        rw [number, h2]
        simp
      · have hone : ∀ x ∈ g, x = 1 := by
          intro x hx
          by_contra hc
          exact hex ⟨x, hx, hc⟩
        have hone' : ∀ x ∈ 1 :: g, x = 1 := by
          intro x hx
          rcases List.mem_cons.1 hx with rfl | hx
          · rfl
          · exact hone x hx
        have : o = 0 := by
          have := prod_ones hone
          omega
        subst this
        rw [spreadG_cons_zero (repDim_ones hone')]
        refine ⟨.cons (by omega) (inBounds_zeros hone), ?_⟩
        rw [number, number_zeros]
        simp
    · have hone : ∀ x ∈ g, x = 1 := by
        apply ones_of_filter
        rw [List.filter_cons_of_pos (by simpa using hd), List.length_cons] at h
        omega
      rw [List.prod_cons, prod_ones hone, mul_one] at ho
      rw [spreadG_cons_zero (repDim_cons_ne g hd)]
      refine ⟨.cons ho (inBounds_zeros hone), ?_⟩
      rw [number, number_zeros, prod_ones hone]
      simp

theorem number_lt {g idx : List Nat} (h : InBounds g idx) : number g idx < g.prod := by
  induction h with
  | nil => simp [number]
  | @cons i d is ds h1 _ ih =>
    rw [number, List.prod_cons]
    calc i * ds.prod + number ds is < i * ds.prod + ds.prod := by omega
      _ = (i + 1) * ds.prod := by ring
      _ ≤ d * ds.prod := Nat.mul_le_mul_right _ h1

theorem number_inj {g idx idx' : List Nat} (h : InBounds g idx) (h' : InBounds g idx')
    (he : number g idx = number g idx') : idx = idx' := by
  induction h generalizing idx' with
  | nil => cases h'; rfl
  | @cons i d is ds h1 h2 ih =>
    obtain ⟨i', is', hi', his', rfl⟩ : ∃ i' is', i' < d ∧ InBounds ds is' ∧ idx' = i' :: is' := by
      cases h' with
      | cons a b => exact ⟨_, _, a, b, rfl⟩
    rw [number, number] at he
    have l1 := number_lt h2
    have l2 := number_lt his'
    have hp : 0 < ds.prod := by omega
    have e1 : i = i' := by
      have a1 : (i * ds.prod + number ds is) / ds.prod = i := by
        rw [mul_comm, Nat.mul_add_div hp, Nat.div_eq_of_lt l1, add_zero]
      have a2 : (i' * ds.prod + number ds is') / ds.prod = i' := by
        rw [mul_comm, Nat.mul_add_div hp, Nat.div_eq_of_lt l2, add_zero]
      rw [← a1, ← a2, he]
    subst e1
    rw [ih his' (by omega)]

theorem inBounds_append {a b i j : List Nat} (h1 : InBounds a i) (h2 : InBounds b j) :
    InBounds (a ++ b) (i ++ j) := by
  induction h1 with
  | nil => exact h2
  | cons h _ ih => exact .cons h ih

theorem inBounds_split {a b idx : List Nat} (h : InBounds (a ++ b) idx) :
    InBounds a (idx.take a.length) ∧ InBounds b (idx.drop a.length) := by
  induction a generalizing idx with
  | nil => exact ⟨.nil, h⟩
  | cons d a ih =>
    obtain ⟨i, is, hi, his, rfl⟩ : ∃ i is, i < d ∧ InBounds (a ++ b) is ∧ idx = i :: is := by
      cases h with
      | cons x y => exact ⟨_, _, x, y, rfl⟩
    obtain ⟨h1, h2⟩ := ih his
    exact ⟨.cons hi h1, h2⟩

theorem trivial_cons {g : List Nat} {gs : List (List Nat)} (h : isTrivialRankReduction (g :: gs) = true) :
    (g.filter (· ≠ 1)).length ≤ 1 ∧ isTrivialRankReduction gs = true := by
  unfold isTrivialRankReduction at h ⊢
  rw [List.all_cons, Bool.and_eq_true] at h
  exact ⟨of_decide_eq_true h.1, h.2⟩

theorem spread_ok {gs : List (List Nat)} {out : List Nat} (h : isTrivialRankReduction gs = true)
    (ho : InBounds (collapsedShape gs) out) :
    InBounds gs.flatten (spread gs out) ∧ collapsedIdx gs (spread gs out) = out := by
  induction gs generalizing out with
  | nil =>
    cases ho
    exact ⟨.nil, rfl⟩
  | cons g gs ih =>
    obtain ⟨hg, hgs⟩ := trivial_cons h
    obtain ⟨o, os, h1, h2, rfl⟩ :
        ∃ o os, o < g.prod ∧ InBounds (collapsedShape gs) os ∧ out = o :: os := by
      cases ho with
      | cons x y => exact ⟨_, _, x, y, rfl⟩
    obtain ⟨a1, a2⟩ := spreadG_ok hg h1
    obtain ⟨b1, b2⟩ := ih hgs h2
    refine ⟨inBounds_append a1 b1, ?_⟩
    rw [spread, collapsedIdx, List.take_left' (by simp), List.drop_left' (by simp), a2, b2]

theorem collapsedIdx_inBounds {gs : List (List Nat)} {idx : List Nat}
    (h : InBounds gs.flatten idx) : InBounds (collapsedShape gs) (collapsedIdx gs idx) := by
  induction gs generalizing idx with
  | nil => exact .nil
  | cons g gs ih =>
    obtain ⟨h1, h2⟩ := inBounds_split h
    exact .cons (number_lt h1) (ih h2)

theorem collapsedIdx_inj {gs : List (List Nat)} {idx idx' : List Nat}
    (h : InBounds gs.flatten idx) (h' : InBounds gs.flatten idx')
    (he : collapsedIdx gs idx = collapsedIdx gs idx') : idx = idx' := by
  induction gs generalizing idx idx' with
  | nil => cases h; cases h'; rfl
  | cons g gs ih =>
    obtain ⟨h1, h2⟩ := inBounds_split h
    obtain ⟨h1', h2'⟩ := inBounds_split h'
    rw [collapsedIdx, collapsedIdx, List.cons.injEq] at he
    rw [← List.take_append_drop g.length idx, ← List.take_append_drop g.length idx',
      number_inj h1 h1' he.1, ih h2 h2' he.2]

end Heir.Hoist
