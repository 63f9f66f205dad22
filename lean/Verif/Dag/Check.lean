import Verif.Dag.Spec

/-! # Deciding the hypotheses on a concrete DAG -/

namespace Heir.Dag

variable {O : Type} {D : Heap O}

/-- A heap given by its first nodes. -/
def ofList (ks : List (Kind O)) : Heap O := fun n => ks.getD n .var

/-- Free variables, by depth. -/
def freeVars (D : Heap O) : Nat → Nat → List Nat
  | 0, _ => []
  | k + 1, n =>
    (match D n with
      | .var => [n]
      | .loop l => (freeVars D k l.body).filter fun x => x ≠ l.iv ∧ x ∉ l.iterArgs
      | _ => []) ++ (scopeChildren (D n)).flatMap (freeVars D k)

theorem scope_clear {K : Kind O} {c : Nat} (h : c ∈ scopeChildren K) : c ∈ clearChildren K := by
  cases K <;> simp_all [scopeChildren, clearChildren]

theorem mem_freeVars (hD : Ordered D) {n x : Nat} (h : FreeVar D n x) :
    ∀ k, n < k → x ∈ freeVars D k n := by
  induction h with
  | var hv =>
    intro k hk
    obtain ⟨k, rfl⟩ : ∃ j, k = j + 1 := ⟨k - 1, by omega⟩
    simp [freeVars, hv]
  | @child n c x hc _ ih =>
    intro k hk
    obtain ⟨k, rfl⟩ : ∃ j, k = j + 1 := ⟨k - 1, by omega⟩
    have := hD n c (scope_clear hc)
    rw [freeVars, List.mem_append]
    exact Or.inr (List.mem_flatMap.2 ⟨c, hc, ih k (by omega)⟩)
  | @body n l x hl _ hb ih =>
    intro k hk
    obtain ⟨k, rfl⟩ : ∃ j, k = j + 1 := ⟨k - 1, by omega⟩
    have := hD n l.body (by simp [hl, clearChildren])
    rw [freeVars, List.mem_append, hl]
    left
    simp only [LoopNode.binds, not_or] at hb
    simpa using ⟨ih k (by omega), hb.1, hb.2⟩

/-- Nodes up to a root. -/
theorem Reach.le_root (hD : Ordered D) {n m : Nat} (h : Reach D n m) : m ≤ n := by
  induction h with
  | refl => exact le_rfl
  | child _ hc ih => exact (hD _ _ (scope_clear hc)).le.trans ih
  | body _ hl ih => exact (hD _ _ (by simp [hl, clearChildren])).le.trans ih

def bindsB (l : LoopNode) (x : Nat) : Bool := x == l.iv || l.iterArgs.contains x

theorem bindsB_iff (l : LoopNode) (x : Nat) : bindsB l x = true ↔ l.binds x := by
  simp [bindsB, LoopNode.binds]

/-- The loops of a list of nodes. -/
def loopsOf : List (Kind O) → Nat → List (Nat × LoopNode)
  | [], _ => []
  | .loop l :: ks, n => (n, l) :: loopsOf ks (n + 1)
  | _ :: ks, n => loopsOf ks (n + 1)

theorem mem_loopsOf {ks : List (Kind O)} {i : Nat} {l : LoopNode} (h : ks[i]? = some (.loop l))
    (n : Nat) : (n + i, l) ∈ loopsOf ks n := by
  induction ks generalizing i n with
  | nil => simp at h
  | cons K ks ih =>
    cases i with
    | zero =>
      simp only [List.getElem?_cons_zero, Option.some.injEq] at h
      subst h
      simp [loopsOf]
    | succ i =>
      have := ih (by simpa using h) (n + 1)
      have e : n + 1 + i = n + (i + 1) := by omega
      rw [e] at this
      cases K <;> simp [loopsOf, this]

/-- Sufficient check for `Ordered` and `Closed`. -/
def checkDag (ks : List (Kind O)) (roots : List Nat) : Bool :=
  (List.range ks.length).all (fun n => (clearChildren (ofList ks n)).all (· < n)) &&
  roots.all (fun n => (freeVars (ofList ks) (n + 1) n).all fun x =>
    (loopsOf ks 0).all fun p => !bindsB p.2 x) &&
  (loopsOf ks 0).all (fun p => (loopsOf ks 0).all fun q =>
    p.1 == q.1 || (p.2.iv :: p.2.iterArgs).all fun x => !bindsB q.2 x)

theorem ofList_loop {ks : List (Kind O)} {n : Nat} {l : LoopNode} (h : ofList ks n = .loop l) :
    (n, l) ∈ loopsOf ks 0 := by
  have : ks[n]? = some (.loop l) := by
    rw [ofList, List.getD_eq_getElem?_getD] at h
    cases hx : ks[n]? with
    | none => rw [hx] at h; exact absurd h (by simp)
    | some K => rw [hx] at h; simpa using h
  simpa using mem_loopsOf this 0

theorem ordered_of_check {ks : List (Kind O)} {roots : List Nat} (h : checkDag ks roots = true) :
    Ordered (ofList ks) := by
  intro n c hc
  by_cases hn : n < ks.length
  · simp only [checkDag, Bool.and_eq_true, List.all_eq_true, List.mem_range] at h
    simpa using h.1.1 n hn c hc
  · rw [show ofList ks n = .var from by simp [ofList, List.getElem?_eq_none (Nat.le_of_not_lt hn)]] at hc
    simp [clearChildren] at hc

theorem closed_of_check {ks : List (Kind O)} {roots : List Nat} (h : checkDag ks roots = true) :
    Closed (ofList ks) roots := by
  have ho := ordered_of_check h
  simp only [checkDag, Bool.and_eq_true, List.all_eq_true] at h
  constructor
  · intro n hn x hx m l _ hl hb
    have := h.1.2 n hn x (mem_freeVars ho hx _ (by omega)) _ (ofList_loop hl)
    rw [(bindsB_iff l x).2 hb] at this
    exact absurd this (by simp)
  · intro m l m' l' x _ _ hl hl' hb hb'
    have := h.2 _ (ofList_loop hl) _ (ofList_loop hl')
    simp only [Bool.or_eq_true, beq_iff_eq, List.all_eq_true] at this
    rcases this with h | h
    · exact h
    · have := h x (by simpa [LoopNode.binds] using hb)
      rw [(bindsB_iff l' x).2 hb'] at this
      exact absurd this (by simp)

end Heir.Dag
