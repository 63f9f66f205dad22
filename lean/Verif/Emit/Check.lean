import Verif.Emit.Lemmas5
import Verif.Dag.Check

/-! # Deciding the hypotheses on a concrete DAG -/

namespace Heir.Emit

open Heir.Dag

variable {O : Type} {D : Heap O}

/-- Everything a node reads or runs. -/
def edges (K : Kind O) : List Nat :=
  scopeChildren K ++ match K with
    | .loop l => [l.body]
    | _ => []

theorem mem_edges {q c : Nat} : c ∈ edges (D q) ↔ Edge D q c := by
  unfold edges Edge
  cases h : D q <;> simp [scopeChildren]

def reachB (D : Heap O) : Nat → Nat → Nat → Bool
  | 0, _, _ => false
  | k + 1, n, m => m == n || (edges (D n)).any fun c => reachB D k c m

theorem reach_of_B {k n m : Nat} (h : reachB D k n m = true) : Reach D n m := by
  induction k generalizing n with
  | zero => cases h
  | succ k ih =>
    simp only [reachB, Bool.or_eq_true, beq_iff_eq, List.any_eq_true] at h
    rcases h with rfl | ⟨c, hc, h⟩
    · exact .refl
    · exact edge_reach (mem_edges.1 hc) (ih h)

theorem reach_head {n m : Nat} (h : Reach D n m) : m = n ∨ ∃ c, Edge D n c ∧ Reach D c m := by
  induction h with
  | refl => exact Or.inl rfl
  | child _ hc ih =>
    rcases ih with rfl | ⟨d, hd, hr⟩
    · exact Or.inr ⟨_, Or.inl hc, .refl⟩
    · exact Or.inr ⟨d, hd, .child hr hc⟩
  | body _ hl ih =>
    rcases ih with rfl | ⟨d, hd, hr⟩
    · exact Or.inr ⟨_, Or.inr ⟨_, hl, rfl⟩, .refl⟩
    · exact Or.inr ⟨d, hd, .body hr hl⟩

theorem edge_lt (hD : Ordered D) {n c : Nat} (h : Edge D n c) : c < n := by
  rcases h with h | ⟨l, hl, rfl⟩
  · exact hD n c (scope_clear h)
  · exact hD n _ (by simp [hl, clearChildren])

theorem reachB_of (hD : Ordered D) {k n m : Nat} (hk : n < k) (h : Reach D n m) :
    reachB D k n m = true := by
  induction k generalizing n with
  | zero => omega
  | succ k ih =>
    simp only [reachB, Bool.or_eq_true, beq_iff_eq, List.any_eq_true]
    rcases reach_head h with h | ⟨c, hc, hr⟩
    · exact Or.inl h
    · have := edge_lt hD hc
      exact Or.inr ⟨c, mem_edges.2 hc, ih (by omega) hr⟩

def bodies : Kind O → List Nat
  | .loop l => [l.body]
  | .ifElse _ t e => [t, e]
  | _ => []

theorem mem_bodies {p b : Nat} : b ∈ bodies (D p) ↔ Region D p b := by
  unfold bodies Region
  cases h : D p <;> simp

def isVar : Kind O → Bool
  | .var => true
  | _ => false

def ownB (D : Heap O) (k p b m q : Nat) : Bool :=
  !reachB D k b m || isVar (D m) || !(edges (D q)).contains m || reachB D k b q || (q == p && m == b)

def checkPrivate (ks : List (Kind O)) : Bool :=
  (List.range ks.length).all fun p => (bodies (ofList ks p)).all fun b =>
    ((List.range ks.length).all fun m => (List.range ks.length).all fun q =>
      ownB (ofList ks) ks.length p b m q) &&
    match ofList ks p with
    | .ifElse _ t e => t != e
    | _ => true

theorem lt_of_edges {ks : List (Kind O)} {q c : Nat} (h : c ∈ edges (ofList ks q)) : q < ks.length := by
  by_contra hn
  rw [show ofList ks q = .var from by simp [ofList, List.getElem?_eq_none (Nat.le_of_not_lt hn)]] at h
  simp [edges, scopeChildren] at h

theorem private_of_check {ks : List (Kind O)} {roots : List Nat} (hD : Ordered (ofList ks))
    (h : checkPrivate ks = true) : Private (ofList ks) roots := by
  simp only [checkPrivate, List.all_eq_true, List.mem_range, Bool.and_eq_true] at h
  have hlt : ∀ p b, Region (ofList ks) p b → p < ks.length ∧ b < p := by
    intro p b hr
    have he : Edge (ofList ks) p b := by
      rcases hr with ⟨l, hl, rfl⟩ | ⟨c, t, e, hl, rfl | rfl⟩
      · exact Or.inr ⟨l, hl, rfl⟩
      · exact Or.inl (by simp [hl, scopeChildren])
      · exact Or.inl (by simp [hl, scopeChildren])
    exact ⟨lt_of_edges (mem_edges.2 he), edge_lt hD he⟩
  constructor
  · intro p b m q _ hr hm hv _ he
    obtain ⟨hp, hb⟩ := hlt p b hr
    have hq := lt_of_edges (mem_edges.2 he)
    have := (h p hp b (mem_bodies.2 hr)).1 m (by have := edge_lt hD he; omega) q hq
    simp only [ownB, reachB_of hD (show b < ks.length by omega) hm, List.contains_iff_mem.2 (mem_edges.2 he),
      Bool.not_true, Bool.false_or, Bool.or_eq_true, Bool.and_eq_true, beq_iff_eq, Bool.or_false] at this
    rcases this with (h | h) | h
    · exfalso; apply hv
      revert h; cases ofList ks m <;> simp [isVar]
    · exact Or.inl (reach_of_B h)
    · exact Or.inr h
  · intro p c t e _ hl
    obtain ⟨hp, _⟩ := hlt p t (Or.inr ⟨c, t, e, hl, Or.inl rfl⟩)
    have := (h p hp t (by simp [bodies, hl])).2
    rw [hl] at this
    simpa using this

def checkArity (ks : List (Kind O)) : Bool :=
  (List.range ks.length).all fun p =>
    match ofList ks p with
    | .loop l => match ofList ks l.body with
      | .yield cs => cs.length == l.inits.length
      | _ => true
    | _ => true

theorem arity_of_check {ks : List (Kind O)} {roots : List Nat} (h : checkArity ks = true) :
    Arity (ofList ks) roots := by
  intro p l cs _ hl hb
  simp only [checkArity, List.all_eq_true, List.mem_range] at h
  have := h p (by
    by_contra hn
    rw [show ofList ks p = .var from by simp [ofList, List.getElem?_eq_none (Nat.le_of_not_lt hn)]] at hl
    cases hl)
  rw [hl] at this
  simp only [hb] at this
  simpa using this

end Heir.Emit
