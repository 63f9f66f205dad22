import Verif.Linalg.Spec
import Verif.Fold.Lemmas
import Mathlib.Data.Multiset.AddSub
import Mathlib.Data.List.GetD
import Mathlib.Data.List.Sort
import Mathlib.Data.List.Range

/-! # Lemmas on reshapes and broadcasts -/

namespace Heir.Linalg

open Fold (keep pos without)

variable {α : Type}

/-! ## Reassociation -/

theorem reassociate_spec (positions : List Nat) : ∀ (dims group : List Nat) (started : Bool),
    (started = true ∨ ∃ d ∈ dims, d ∉ positions) →
    (group.filter (· ∉ positions)).length = (if started then 1 else 0) →
    (reassociate positions dims group started).flatten = group ++ dims ∧
      ∀ g ∈ reassociate positions dims group started, (g.filter (· ∉ positions)).length = 1
  | [], group, started, h, hg => by
    rcases h with h | ⟨d, hd, -⟩
    · subst h
      refine ⟨by simp [reassociate], fun g hm => ?_⟩
      simp only [reassociate, if_true, List.mem_singleton] at hm
      subst hm
      simpa using hg
    · exact absurd hd (by simp)
  | dim :: dims, group, started, h, hg => by
    rw [reassociate]
    by_cases hp : dim ∈ positions
    · rw [if_pos hp]
      obtain ⟨i1, i2⟩ := reassociate_spec positions dims (group ++ [dim]) started (by
        rcases h with h | ⟨d, hd, hn⟩
        · exact Or.inl h
        · rcases List.mem_cons.1 hd with rfl | hd
          · exact absurd hp hn
          · exact Or.inr ⟨d, hd, hn⟩) (by
        rw [List.filter_append, List.length_append, hg]
        simp [hp])
      exact ⟨by rw [i1]; simp, i2⟩
    · rw [if_neg hp]
      cases started with
      | true =>
        rw [if_pos rfl]
        obtain ⟨i1, i2⟩ := reassociate_spec positions dims [dim] true (Or.inl rfl) (by simp [hp])
        refine ⟨by rw [List.flatten_cons, i1]; simp, fun g hm => ?_⟩
        rcases List.mem_cons.1 hm with rfl | hm
        · simpa using hg
        · exact i2 g hm
      | false =>
        rw [if_neg (by simp)]
        obtain ⟨i1, i2⟩ := reassociate_spec positions dims (group ++ [dim]) true (Or.inl rfl) (by
          rw [List.filter_append, List.length_append, hg]
          simp [hp])
        exact ⟨by rw [i1]; simp, i2⟩

theorem reassociate_all (positions : List Nat) : ∀ (dims group : List Nat),
    (∀ d ∈ dims, d ∈ positions) → reassociate positions dims group false = []
  | [], _, _ => rfl
  | dim :: dims, group, h => by
    rw [reassociate, if_pos (h dim List.mem_cons_self)]
    exact reassociate_all positions dims _ fun d hd => h d (List.mem_cons_of_mem _ hd)

/-- The product over a group whose positions have extent 1 is the extent of the other dimension. -/
theorem group_prod {positions : List Nat} {ext : Nat → Nat} : ∀ (g : List Nat),
    (∀ d ∈ g, d ∈ positions → ext d = 1) →
    (g.map ext).prod = ((g.filter (· ∉ positions)).map ext).prod
  | [], _ => rfl
  | d :: g, h => by
    have ih := group_prod g fun x hx => h x (List.mem_cons_of_mem _ hx)
    by_cases hd : d ∈ positions
    · rw [List.map_cons, List.prod_cons, h d List.mem_cons_self hd, Nat.one_mul, ih]
      simp [hd]
    · rw [List.map_cons, List.prod_cons, ih]
      simp [hd]

theorem groups_prod {positions : List Nat} {ext : Nat → Nat} : ∀ (gs : List (List Nat)),
    (∀ d ∈ gs.flatten, d ∈ positions → ext d = 1) →
    (∀ g ∈ gs, (g.filter (· ∉ positions)).length = 1) →
    gs.map (fun g => (g.map ext).prod) = (gs.flatten.filter (· ∉ positions)).map ext
  | [], _, _ => rfl
  | g :: gs, h1, hl => by
    rw [List.map_cons, List.flatten_cons, List.filter_append, List.map_append,
      ← groups_prod gs (fun d hd => h1 d (by rw [List.flatten_cons]; exact List.mem_append_right _ hd))
        fun x hx => hl x (List.mem_cons_of_mem _ hx),
      group_prod g fun d hd => h1 d (by rw [List.flatten_cons]; exact List.mem_append_left _ hd)]
    have := hl g List.mem_cons_self
    obtain ⟨x, hx⟩ := List.length_eq_one_iff.1 this
    rw [hx]
    simp

/-! ## Dropping dimensions of extent 1 -/

/-- The entries at the dropped positions. -/
theorem keep_map_range {dims : List Nat} (v : List Nat) :
    without dims v = ((List.range v.length).filter (· ∉ dims)).map fun i => v.getD i 0 := by
  have key : ∀ (v : List Nat) (n : Nat), keep dims n v =
      ((List.range' n v.length).filter (· ∉ dims)).map fun i => v.getD (i - n) 0 := by
    intro v
    induction v with
    | nil => intro n; rfl
    | cons x v ih =>
      intro n
      rw [keep, List.length_cons, List.range'_succ, ih (n + 1)]
      have shift : ∀ l : List Nat, (∀ i ∈ l, n + 1 ≤ i) →
          l.map (fun i => v.getD (i - (n + 1)) 0) = l.map fun i => (x :: v).getD (i - n) 0 := by
        intro l hl
        refine List.map_congr_left fun i hi => ?_
        have := hl i hi
        rw [show i - n = (i - (n + 1)) + 1 by omega]
        simp
      rw [shift _ fun i hi => by
        have := List.mem_range'_1.1 (List.mem_of_mem_filter hi); omega]
      by_cases h : n ∈ dims
      · rw [if_pos h]; simp [h]
      · rw [if_neg h]; simp [h]
  rw [← Fold.keep_zero, key, List.range_eq_range']
  simp

theorem keep_prod {dims : List Nat} : ∀ {s : List Nat} {n : Nat},
    (∀ i < s.length, n + i ∈ dims → s.getD i 0 = 1) → (keep dims n s).prod = s.prod
  | [], _, _ => rfl
  | d :: ds, n, h => by
    have ih := keep_prod (dims := dims) (s := ds) (n := n + 1) fun i hi hm => by
      simpa using h (i + 1) (by simpa using hi) (by rw [show n + (i + 1) = n + 1 + i by omega]; exact hm)
    rw [keep]
    by_cases hd : n ∈ dims
    · rw [if_pos hd, ih, List.prod_cons]
      have := h 0 (by simp) (by simpa using hd)
      simp only [List.getD_cons_zero] at this
      rw [this, Nat.one_mul]
    · rw [if_neg hd, List.prod_cons, List.prod_cons, ih]

/-- Dropping dimensions of extent 1 does not move elements. -/
theorem keep_pos {dims : List Nat} : ∀ {s is : List Nat} {n k : Nat},
    (∀ i < s.length, n + i ∈ dims → s.getD i 0 = 1) → pos s is = some k →
    pos (keep dims n s) (keep dims n is) = some k
  | [], [], _, _, _, h => h
  | d :: ds, i :: is, n, k, hu, h => by
    obtain ⟨h1, k', h2, h3⟩ := Fold.pos_cons.1 h
    have hu' : ∀ i < ds.length, n + 1 + i ∈ dims → ds.getD i 0 = 1 := fun i hi hm => by
      simpa using hu (i + 1) (by simpa using hi) (by rw [show n + (i + 1) = n + 1 + i by omega]; exact hm)
    have ih := keep_pos (n := n + 1) hu' h2
    rw [keep, keep]
    by_cases hd : n ∈ dims
    · rw [if_pos hd, if_pos hd, ih, h3]
      have := hu 0 (by simp) (by simpa using hd)
      simp only [List.getD_cons_zero] at this
      subst this
      have : i = 0 := by omega
      subst this
      simp
    · rw [if_neg hd, if_neg hd]
      exact Fold.pos_cons.2 ⟨h1, k', ih, by rw [keep_prod hu', h3]⟩
  | [], _ :: _, _, _, _, h => absurd h (by simp [pos])
  | _ :: _, [], _, _, _, h => absurd h (by simp [pos])

/-! ## Rank reduction -/

/-- A rank-reduced shape lacks only ones. -/
theorem isRankReduced_ones : ∀ {s r : List Nat}, isRankReduced s r = true →
    ∃ m : Multiset Nat, (s : Multiset Nat) = (r : Multiset Nat) + m ∧ ∀ x ∈ m, x = 1
  | [], r, h => by
    have : r = [] := by simpa [isRankReduced] using h
    subst this
    exact ⟨0, by simp, by simp⟩
  | d :: ds, [], h => by
    rw [isRankReduced, Bool.and_eq_true, decide_eq_true_eq] at h
    obtain ⟨m, h1, h2⟩ := isRankReduced_ones h.2
    refine ⟨d ::ₘ m, ?_, ?_⟩
    · rw [← Multiset.cons_coe, h1]; simp
    · intro x hx
      rcases Multiset.mem_cons.1 hx with rfl | hx
      · exact h.1
      · exact h2 x hx
  | d :: ds, r :: rs, h => by
    rw [isRankReduced] at h
    split at h
    · rename_i e
      subst e
      obtain ⟨m, h1, h2⟩ := isRankReduced_ones h
      exact ⟨m, by rw [← Multiset.cons_coe, h1, ← Multiset.cons_coe, Multiset.cons_add], h2⟩
    · rw [Bool.and_eq_true, decide_eq_true_eq] at h
      obtain ⟨m, h1, h2⟩ := isRankReduced_ones h.2
      refine ⟨d ::ₘ m, ?_, ?_⟩
      · rw [← Multiset.cons_coe, h1, Multiset.add_cons]
      · intro x hx
        rcases Multiset.mem_cons.1 hx with rfl | hx
        · exact h.1
        · exact h2 x hx

/-- The entries of a list are those kept and those not. -/
theorem keep_split (dims : List Nat) : ∀ (s : List Nat) (n : Nat), ∃ m : Multiset Nat,
    (s : Multiset Nat) = (keep dims n s : Multiset Nat) + m ∧
      ∀ i < s.length, n + i ∈ dims → s.getD i 0 ∈ m
  | [], _ => ⟨0, by simp [keep], by simp⟩
  | d :: ds, n => by
    obtain ⟨m, h1, h2⟩ := keep_split dims ds (n + 1)
    rw [keep]
    by_cases hd : n ∈ dims
    · rw [if_pos hd]
      refine ⟨d ::ₘ m, by rw [← Multiset.cons_coe, h1, Multiset.add_cons], fun i hi hm => ?_⟩
      cases i with
      | zero => simp
      | succ i =>
        refine Multiset.mem_cons_of_mem ?_
        simpa using h2 i (by simpa using hi) (by rw [show n + 1 + i = n + (i + 1) by omega]; exact hm)
    · rw [if_neg hd]
      refine ⟨m, by rw [← Multiset.cons_coe, h1, ← Multiset.cons_coe, Multiset.cons_add],
        fun i hi hm => ?_⟩
      cases i with
      | zero => exact absurd (by simpa using hm) hd
      | succ i =>
        simpa using h2 i (by simpa using hi) (by rw [show n + 1 + i = n + (i + 1) by omega]; exact hm)

/-- The added dimensions of a broadcast that only changes the rank have extent 1. -/
theorem broadcast_ones {s dims : List Nat} (h : isRankReduced s (without dims s) = true) :
    ∀ i < s.length, i ∈ dims → s.getD i 0 = 1 := by
  intro i hi hm
  obtain ⟨m, h1, h2⟩ := isRankReduced_ones h
  obtain ⟨m', h3, h4⟩ := keep_split dims s 0
  rw [Fold.keep_zero, h1] at h3
  have : m = m' := add_left_cancel h3
  subst this
  exact h2 _ (h4 i hi (by simpa using hm))

/-! ## Operands of element-wise ops -/

theorem dimsToDrop_spec : ∀ (es : List Expr) (s : List Nat) (j : Nat),
    ∀ x ∈ dimsToDrop j es s, j ≤ x ∧ x < j + s.length ∧ s.getD (x - j) 0 = 1
  | [], _, _, x, hx => absurd hx (by simp [dimsToDrop])
  | _ :: _, [], _, x, hx => by
    rename_i e es j
    exact absurd hx (by cases e <;> simp [dimsToDrop])
  | e :: es, d :: ds, j, x, hx => by
    have ih : ∀ x ∈ dimsToDrop (j + 1) es ds,
        j ≤ x ∧ x < j + (d :: ds).length ∧ (d :: ds).getD (x - j) 0 = 1 := by
      intro x hx
      obtain ⟨a, b, c⟩ := dimsToDrop_spec es ds (j + 1) x hx
      refine ⟨by omega, by rw [List.length_cons]; omega, ?_⟩
      rw [show x - j = (x - (j + 1)) + 1 by omega]
      simpa using c
    cases e with
    | dim i => exact ih x hx
    | other i => exact ih x hx
    | const c =>
      rw [dimsToDrop] at hx
      split at hx
      · rename_i hd
        rcases List.mem_cons.1 hx with rfl | hx
        · exact ⟨Nat.le_refl _, by rw [List.length_cons]; omega, by simpa using hd⟩
        · exact ih x hx
      · exact ih x hx

/-- If no more entries remain than there are dimensions in the map, the remaining indices are the
dimensions in the order of the map. -/
theorem dropped_eval {other : Nat → List Nat → Nat} {idx : List Nat} :
    ∀ (es : List Expr) (s : List Nat) (j : Nat) (D : List Nat), es.length = s.length →
      (∀ x ≥ j, x ∈ D ↔ x ∈ dimsToDrop j es s) →
      (usedDims es).length + (dimsToDrop j es s).length ≤ es.length ∧
      (es.length ≤ (usedDims es).length + (dimsToDrop j es s).length →
        keep D j (es.map (Expr.eval other idx)) = (usedDims es).map fun i => idx.getD i 0)
  | [], [], _, _, _, _ => ⟨by simp [usedDims, dimsToDrop], fun _ => rfl⟩
  | [], _ :: _, _, _, h, _ => absurd h (by simp)
  | _ :: _, [], _, _, h, _ => absurd h (by simp)
  | e :: es, d :: ds, j, D, hl, hD => by
    have hl' : es.length = ds.length := by simpa using hl
    have hnot : j ∉ dimsToDrop (j + 1) es ds := fun h => by
      have := (dimsToDrop_spec es ds (j + 1) j h).1
      omega
    have plain : (∀ x, dimsToDrop j (e :: es) (d :: ds) = dimsToDrop (j + 1) es ds →
        x ≥ j + 1 → (x ∈ D ↔ x ∈ dimsToDrop (j + 1) es ds)) := fun x h hx => by
      rw [hD x (by omega), h]
    cases e with
    | dim i =>
      have hd : dimsToDrop j (.dim i :: es) (d :: ds) = dimsToDrop (j + 1) es ds := rfl
      obtain ⟨i1, i2⟩ := dropped_eval (other := other) (idx := idx) es ds (j + 1) D hl'
        fun x hx => plain x hd hx
      rw [hd]
      refine ⟨by simp only [usedDims, List.length_cons]; omega, fun h => ?_⟩
      simp only [usedDims, List.length_cons] at h
      rw [List.map_cons, keep, if_neg (by rw [hD j (Nat.le_refl _), hd]; exact hnot),
        i2 (by omega)]
      rfl
    | other i =>
      have hd : dimsToDrop j (.other i :: es) (d :: ds) = dimsToDrop (j + 1) es ds := rfl
      obtain ⟨i1, i2⟩ := dropped_eval (other := other) (idx := idx) es ds (j + 1) D hl'
        fun x hx => plain x hd hx
      rw [hd]
      refine ⟨by simp only [usedDims, List.length_cons]; omega, fun h => ?_⟩
      simp only [usedDims, List.length_cons] at h
      omega
    | const c =>
      by_cases h1 : d = 1
      · have hd : dimsToDrop j (.const c :: es) (d :: ds) = j :: dimsToDrop (j + 1) es ds := by
          rw [dimsToDrop, if_pos h1]
        obtain ⟨i1, i2⟩ := dropped_eval (other := other) (idx := idx) es ds (j + 1) D hl'
          fun x hx => by
            rw [hD x (by omega), hd, List.mem_cons]
            exact or_iff_right (by omega)
        rw [hd]
        refine ⟨by simp only [usedDims, List.length_cons]; omega, fun h => ?_⟩
        simp only [usedDims, List.length_cons] at h
        rw [List.map_cons, keep, if_pos (by rw [hD j (Nat.le_refl _), hd]; exact List.mem_cons_self),
          i2 (by omega)]
        rfl
      · have hd : dimsToDrop j (.const c :: es) (d :: ds) = dimsToDrop (j + 1) es ds := by
          rw [dimsToDrop, if_neg h1]
        obtain ⟨i1, i2⟩ := dropped_eval (other := other) (idx := idx) es ds (j + 1) D hl'
          fun x hx => plain x hd hx
        rw [hd]
        refine ⟨by simp only [usedDims, List.length_cons]; omega, fun h => ?_⟩
        simp only [usedDims, List.length_cons] at h
        omega

/-- The dimensions that are not added, in order. -/
theorem target_dims {es : List Expr} {numDims : Nat} (idx : List Nat) (hidx : idx.length = numDims) :
    without (getBroadcastDimensions es numDims) idx =
        ((List.range numDims).filter (· ∈ usedDims es)).map (fun i => idx.getD i 0) ∧
      numDims - (getBroadcastDimensions es numDims).length =
        ((List.range numDims).filter (· ∈ usedDims es)).length := by
  have hf : (List.range numDims).filter (· ∉ getBroadcastDimensions es numDims) =
      (List.range numDims).filter (· ∈ usedDims es) := by
    refine List.filter_congr fun x hx => ?_
    unfold getBroadcastDimensions
    simp [List.mem_filter, List.mem_range.1 hx]
  refine ⟨by rw [keep_map_range, hidx, hf], ?_⟩
  have := List.length_eq_length_filter_add (l := List.range numDims) (fun i => decide (i ∈ usedDims es))
  rw [List.length_range] at this
  unfold getBroadcastDimensions
  have e : (List.range numDims).filter (fun i => decide (i ∉ usedDims es)) =
      (List.range numDims).filter (fun i => !decide (i ∈ usedDims es)) := by
    refine List.filter_congr fun x _ => ?_
    simp
  rw [e]
  omega

end Heir.Linalg
