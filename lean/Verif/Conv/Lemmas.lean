import Verif.Conv.Spec
import Mathlib.Data.List.GetD
import Mathlib.Algebra.Order.Ring.Nat
import Mathlib.Tactic.Ring
import Mathlib.Tactic.Linarith

/-! # Nested loops over filters -/

namespace Heir.Conv

variable {α τ : Type}

open Finset

/-! ## Loops as folds over lists of index tuples -/

theorem loop_pure (n : Nat) (step : Nat → List α → Option (List α)) (a : List α) :
    loop n step a = (List.range n).foldlM (fun a i => step i a) a := rfl

theorem foldlM_flatMap {β : Type} (L : β → List τ) (step : List α → τ → Option (List α)) :
    ∀ (l : List β) (a : List α),
      (l.flatMap L).foldlM step a = l.foldlM (fun a i => (L i).foldlM step a) a := by
  intro l
  induction l with
  | nil => intro a; rfl
  | cons x l ih =>
    intro a
    rw [List.flatMap_cons, List.foldlM_append, List.foldlM_cons]
    congr 1
    funext a'
    exact ih a'

/-- One more loop around a loop that is a fold. -/
theorem loop_flatMap {L : Nat → List τ} {step : List α → τ → Option (List α)}
    {body : Nat → List α → Option (List α)} (n : Nat)
    (h : ∀ i a, body i a = (L i).foldlM step a) (a : List α) :
    loop n body a = ((List.range n).flatMap L).foldlM step a := by
  rw [foldlM_flatMap]
  unfold loop
  congr 1
  funext a i
  exact h i a

/-- The innermost loop. -/
theorem loop_map {g : Nat → τ} {step : List α → τ → Option (List α)}
    {body : Nat → List α → Option (List α)} (n : Nat)
    (h : ∀ i a, body i a = step a (g i)) (a : List α) :
    loop n body a = ((List.range n).map g).foldlM step a := by
  unfold loop
  rw [List.foldlM_map]
  congr 1
  funext a i
  exact h i a

/-! ## Loops that set -/

theorem set_loop {dst : τ → Nat} {val : τ → Option α} : ∀ (ts : List τ) (a : List α),
    (∀ t ∈ ts, dst t < a.length) → (∀ t ∈ ts, ∃ x, val t = some x) →
    (∀ t ∈ ts, ∀ t' ∈ ts, dst t = dst t' → val t = val t') →
    ∃ r, ts.foldlM (fun a t => (val t).bind fun x => write a (dst t) x) a = some r ∧
      r.length = a.length ∧ (∀ t ∈ ts, r[dst t]? = val t) ∧
      ∀ j, (∀ t ∈ ts, dst t ≠ j) → r[j]? = a[j]? := by
  intro ts
  induction ts with
  | nil => intro a _ _ _; exact ⟨a, rfl, rfl, by simp, fun _ _ => rfl⟩
  | cons t ts ih =>
    intro a hd hv hc
    obtain ⟨x, hx⟩ := hv t List.mem_cons_self
    have hlt := hd t List.mem_cons_self
    obtain ⟨r, h1, h2, h3, h4⟩ := ih (a.set (dst t) x)
      (fun s hs => by rw [List.length_set]; exact hd s (List.mem_cons_of_mem _ hs))
      (fun s hs => hv s (List.mem_cons_of_mem _ hs))
      (fun s hs s' hs' => hc s (List.mem_cons_of_mem _ hs) s' (List.mem_cons_of_mem _ hs'))
    refine ⟨r, ?_, by rw [h2, List.length_set], ?_, ?_⟩
    · rw [List.foldlM_cons, hx]
      simp only [Option.bind_some, write, if_pos hlt]
      exact h1
    · intro s hs
      rcases List.mem_cons.1 hs with rfl | hs
      · by_cases e : ∃ s' ∈ ts, dst s' = dst s
        · obtain ⟨s', hs', e⟩ := e
          rw [← e, h3 s' hs']
          exact hc s' (List.mem_cons_of_mem _ hs') s List.mem_cons_self e
        · rw [h4 _ fun s' hs' e' => e ⟨s', hs', e'⟩, List.getElem?_set_self hlt, hx]
      · exact h3 s hs
    · intro j hj
      rw [h4 j fun s hs => hj s (List.mem_cons_of_mem _ hs),
        List.getElem?_set_ne (hj t List.mem_cons_self)]

/-! ## Loops that accumulate -/

theorem add_loop [AddCommMonoid α] {dst : τ → Nat} {val : τ → Option α} :
    ∀ (ts : List τ) (a : List α), (∀ t ∈ ts, dst t < a.length) → (∀ t ∈ ts, ∃ x, val t = some x) →
    ∃ r, ts.foldlM (fun a t => (val t).bind fun x => (a[dst t]?).bind fun old =>
        write a (dst t) (old + x)) a = some r ∧ r.length = a.length ∧
      ∀ j, r.getD j 0 = a.getD j 0 +
        (ts.map fun t => if dst t = j then (val t).getD 0 else 0).sum := by
  intro ts
  induction ts with
  | nil => intro a _ _; exact ⟨a, rfl, rfl, fun j => by simp⟩
  | cons t ts ih =>
    intro a hd hv
    obtain ⟨x, hx⟩ := hv t List.mem_cons_self
    have hlt := hd t List.mem_cons_self
    obtain ⟨r, h1, h2, h3⟩ := ih (a.set (dst t) (a[dst t] + x))
      (fun s hs => by rw [List.length_set]; exact hd s (List.mem_cons_of_mem _ hs))
      (fun s hs => hv s (List.mem_cons_of_mem _ hs))
    refine ⟨r, ?_, by rw [h2, List.length_set], ?_⟩
    · rw [List.foldlM_cons, hx, List.getElem?_eq_getElem hlt]
      simp only [Option.bind_some, write, if_pos hlt]
      exact h1
    · intro j
      rw [h3 j, List.map_cons, List.sum_cons, hx, ← add_assoc]
      congr 1
      simp only [List.getD_eq_getElem?_getD, List.getElem?_set]
      by_cases e : dst t = j
      · subst e
        simp [hlt]
      · simp [e]

theorem sum_flatMap [AddCommMonoid α] (n : Nat) (L : Nat → List τ) (g : τ → α) :
    (((List.range n).flatMap L).map g).sum = ∑ i ∈ range n, ((L i).map g).sum := by
  induction n with
  | zero => simp
  | succ n ih =>
    rw [List.range_succ, List.flatMap_append, List.map_append, List.sum_append, ih,
      Finset.sum_range_succ]
    simp

theorem sum_map_range [AddCommMonoid α] (n : Nat) (h : Nat → τ) (g : τ → α) :
    (((List.range n).map h).map g).sum = ∑ i ∈ range n, g (h i) := by
  induction n with
  | zero => simp
  | succ n ih =>
    rw [List.range_succ, List.map_append, List.map_append, List.sum_append, ih,
      Finset.sum_range_succ]
    simp

/-! ## Positions -/

theorem pair_inj {n a b x y : Nat} (hx : x < n) (hy : y < n) :
    a * n + x = b * n + y ↔ a = b ∧ x = y := by
  constructor
  · intro h
    have h1 : (a * n + x) / n = (b * n + y) / n := by rw [h]
    have h2 : (a * n + x) % n = (b * n + y) % n := by rw [h]
    have hn : 0 < n := by omega
    rw [Nat.mul_comm a, Nat.mul_comm b, Nat.mul_add_div hn, Nat.mul_add_div hn,
      Nat.div_eq_of_lt hx, Nat.div_eq_of_lt hy] at h1
    rw [Nat.mul_comm a, Nat.mul_comm b, Nat.mul_add_mod, Nat.mul_add_mod, Nat.mod_eq_of_lt hx,
      Nat.mod_eq_of_lt hy] at h2
    exact ⟨by omega, h2⟩
  · rintro ⟨rfl, rfl⟩; rfl

theorem pair_lt {m n a x : Nat} (ha : a < m) (hx : x < n) : a * n + x < m * n := by
  calc a * n + x < a * n + n := by omega
    _ = (a + 1) * n := by ring
    _ ≤ m * n := Nat.mul_le_mul_right n ha

theorem extent_lt {d k i : Nat} (hi : i < k) : i * d < newKernelExtent d k := by
  unfold newKernelExtent
  have : i * d ≤ (k - 1) * d := Nat.mul_le_mul_right d (by omega)
  rw [Nat.mul_comm d]
  omega

/-- A sum over the undilated positions is one over the dilated ones. -/
theorem sum_undilate [AddCommMonoid α] {d k : Nat} (hd : 1 ≤ d) {F : Nat → α}
    (hz : ∀ u < newKernelExtent d k, (∀ i < k, i * d ≠ u) → F u = 0) :
    ∑ u ∈ range (newKernelExtent d k), F u = ∑ i ∈ range k, F (i * d) := by
  have himg : (range k).image (· * d) ⊆ range (newKernelExtent d k) := by
    intro u hu
    obtain ⟨i, hi, rfl⟩ := mem_image.1 hu
    exact mem_range.2 (extent_lt (mem_range.1 hi))
  rw [← Finset.sum_subset himg, Finset.sum_image]
  · intro i _ j _ h
    exact Nat.eq_of_mul_eq_mul_right hd h
  · intro u hu hn
    refine hz u (mem_range.1 hu) fun i hi e => hn ?_
    exact mem_image.2 ⟨i, mem_range.2 hi, e⟩

end Heir.Conv
