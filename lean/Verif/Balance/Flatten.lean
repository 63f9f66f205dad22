import Verif.Balance.Basic
import Mathlib.Tactic.Ring
import Mathlib.Tactic.Linarith

/-! # The depth-first search -/

namespace Heir.Balance

variable {R : Type} {b : Block} {T : Name} {D : List Nat}

theorem internal_some (hn : (ids b).Nodup) {v : Nat} {ac : Nat × Nat}
    (h : internal b T v = some ac) : (v, .arith T ac.1 ac.2) ∈ b ∧ numUses b v = 1 := by
  unfold internal at h
  split at h
  · rename_i op a c hd
    split at h
    · rename_i hc
      cases h
      obtain ⟨rfl, h2⟩ := hc
      exact ⟨(defOf_eq hn).mp hd, h2⟩
    · cases h
  · cases h

/-! ## The search ends -/

/-- Bounds the number of steps below a value. -/
def weightSem : Sem Nat where
  other _ _ := 1
  arith _ x y := x + y + 1

def weight (b : Block) : Nat → Nat := exec weightSem b fun _ => 1

theorem weight_pos_le (b : Block) : ∀ (e : Nat → Nat) (B : Nat), (∀ v, 1 ≤ e v ∧ e v ≤ B) →
    ∀ v, 1 ≤ exec weightSem b e v ∧ exec weightSem b e v ≤ B * 3 ^ b.length := by
  induction b with
  | nil => intro e B h v; simpa [exec] using h v
  | cons p b ih =>
    obtain ⟨x, i⟩ := p
    intro e B h v
    have := ih (Function.update e x (i.eval weightSem e)) (B * 3) (by
      intro u
      by_cases hu : u = x
      · subst hu
        rw [Function.update_self]
        cases i with
        | other t args =>
          have := h 0
          simp only [Inst.eval, weightSem]
          omega
        | arith op a c =>
          have h1 := h a
          have h2 := h c
          simp only [Inst.eval, weightSem]
          omega
      · rw [Function.update_of_ne hu]
        have := h u
        omega) v
    rw [exec, List.length_cons, pow_succ]
    refine ⟨this.1, this.2.trans (le_of_eq (by ring))⟩

theorem weight_pos (v : Nat) : 1 ≤ weight b v :=
  (weight_pos_le b (fun _ => 1) 1 (by simp) v).1

theorem weight_le (v : Nat) : weight b v ≤ 3 ^ b.length := by
  simpa [weight] using (weight_pos_le b (fun _ => 1) 1 (by simp) v).2

theorem weight_arith (hv : Valid D b) {v a c : Nat} {op : Name} (h : (v, .arith op a c) ∈ b) :
    weight b a + weight b c + 1 = weight b v := exec_sat (S := weightSem) hv _ _ h

/-- Invariants of the loop hold when it ends, and it ends with an empty stack. -/
theorem flattenLoop_inv (hv : Valid D b) (P : List Nat → List Nat → List Nat → Prop)
    (hin : ∀ v a c stack ops inner, internal b T v = some (a, c) → P (v :: stack) ops inner →
      P (a :: c :: stack) ops (inner ++ [v]))
    (hleaf : ∀ v stack ops inner, internal b T v = none → P (v :: stack) ops inner →
      P stack (ops ++ [v]) inner) :
    ∀ (fuel : Nat) (stack ops inner : List Nat), (stack.map (weight b)).sum ≤ fuel →
      P stack ops inner →
      P [] (flattenLoop b T fuel stack ops inner).1 (flattenLoop b T fuel stack ops inner).2 := by
  intro fuel
  induction fuel with
  | zero =>
    intro stack ops inner hf hp
    cases stack with
    | nil => exact hp
    | cons v stack =>
      have := weight_pos (b := b) v
      simp only [List.map_cons, List.sum_cons] at hf
      omega
  | succ fuel ih =>
    intro stack ops inner hf hp
    cases stack with
    | nil => exact hp
    | cons v stack =>
      have hw := weight_pos (b := b) v
      simp only [List.map_cons, List.sum_cons] at hf
      rw [flattenLoop]
      cases hi : internal b T v with
      | none => exact ih _ _ _ (by omega) (hleaf _ _ _ _ hi hp)
      | some ac =>
        obtain ⟨a, c⟩ := ac
        have := weight_arith hv (internal_some hv.nodup.1 hi).1
        refine ih _ _ _ ?_ (hin _ _ _ _ _ _ hi hp)
        simp only [List.map_cons, List.sum_cons]
        simp only at this
        omega

/-- More fuel gives the same result. -/
theorem flattenLoop_fuel (hv : Valid D b) : ∀ (f g : Nat) (stack ops inner : List Nat),
    (stack.map (weight b)).sum ≤ f → (stack.map (weight b)).sum ≤ g →
      flattenLoop b T f stack ops inner = flattenLoop b T g stack ops inner := by
  intro f
  induction f with
  | zero =>
    intro g stack ops inner hf _
    cases stack with
    | nil => cases g <;> rfl
    | cons v stack =>
      have := weight_pos (b := b) v
      simp only [List.map_cons, List.sum_cons] at hf
      omega
  | succ f ih =>
    intro g stack ops inner hf hg
    cases stack with
    | nil => cases g <;> rfl
    | cons v stack =>
      have hw := weight_pos (b := b) v
      simp only [List.map_cons, List.sum_cons] at hf hg
      cases g with
      | zero => omega
      | succ g =>
        rw [flattenLoop, flattenLoop]
        cases hi : internal b T v with
        | none => exact ih _ _ _ _ (by omega) (by omega)
        | some ac =>
          obtain ⟨a, c⟩ := ac
          have := weight_arith hv (internal_some hv.nodup.1 hi).1
          simp only at this
          refine ih _ _ _ _ ?_ ?_ <;> simp only [List.map_cons, List.sum_cons] <;> omega

/-! ## The tree that is searched -/

/-- `t` is the tree of intermediate ops below `v`. -/
inductive IsTree (b : Block) (T : Name) : Nat → Tree → Prop
  | leaf {v} : internal b T v = none → IsTree b T v (.leaf v)
  | node {v a c l r} : internal b T v = some (a, c) → IsTree b T a l → IsTree b T c r →
      IsTree b T v (.node l r)

def Tree.eval (S : Sem R) (T : Name) (E : Nat → R) : Tree → R
  | .leaf v => E v
  | .node l r => S.arith T (l.eval S T E) (r.eval S T E)

theorem isTree_exists (hv : Valid D b) : ∀ (n v : Nat), weight b v ≤ n → ∃ t, IsTree b T v t := by
  intro n
  induction n with
  | zero => intro v h; have := weight_pos (b := b) v; omega
  | succ n ih =>
    intro v h
    cases hi : internal b T v with
    | none => exact ⟨_, .leaf hi⟩
    | some ac =>
      obtain ⟨a, c⟩ := ac
      have := weight_arith hv (internal_some hv.nodup.1 hi).1
      simp only at this
      obtain ⟨l, hl⟩ := ih a (by omega)
      obtain ⟨r, hr⟩ := ih c (by omega)
      exact ⟨_, .node hi hl hr⟩

theorem IsTree.eval_eq (hv : Valid D b) {S : Sem R} {E : Nat → R} (hs : Sat S Eq b E) {v : Nat}
    {t : Tree} (h : IsTree b T v t) : t.eval S T E = E v := by
  induction h with
  | leaf _ => rfl
  | node hi _ _ ihl ihr =>
    rw [Tree.eval, ihl, ihr]
    exact hs _ (internal_some hv.nodup.1 hi).1

theorem flattenLoop_tree (hv : Valid D b) {a c : Nat} {l r : Tree} (hl : IsTree b T a l)
    (hr : IsTree b T c r) {fuel : Nat} (hf : weight b a + weight b c ≤ fuel) :
    (flattenLoop b T fuel [a, c] [] []).1 = l.leaves ++ r.leaves := by
  have := flattenLoop_inv (T := T) hv
    (fun stack ops _ => ∃ ts, List.Forall₂ (IsTree b T) stack ts ∧
      ops ++ ts.flatMap Tree.leaves = l.leaves ++ r.leaves)
    (by
      rintro v a c stack ops inner hi ⟨ts, h1, h2⟩
      cases h1 with
      | cons h3 h4 =>
        cases h3 with
        | leaf h => rw [hi] at h; cases h
        | node h p q =>
          rw [hi] at h; cases h
          refine ⟨_ :: _ :: _, .cons p (.cons q h4), ?_⟩
          rw [← h2]
          simp [Tree.leaves])
    (by
      rintro v stack ops inner hi ⟨ts, h1, h2⟩
      cases h1 with
      | cons h3 h4 =>
        cases h3 with
        | leaf h =>
          refine ⟨_, h4, ?_⟩
          rw [← h2]
          simp [Tree.leaves]
        | node h p q => rw [hi] at h; cases h)
    fuel [a, c] [] [] (by simpa using hf)
    ⟨[l, r], .cons hl (.cons hr .nil), by simp⟩
  obtain ⟨ts, h1, h2⟩ := this
  cases h1
  simpa using h2

/-! ## What a root is -/

structure FlatOK (D : List Nat) (b : Block) (T : Name) (r : Root) : Prop where
  def_ : ∃ a c, (r.root, .arith T a c) ∈ b
  leaf : ∀ o ∈ r.operands, internal b T o = none
  int : ∀ d ∈ r.inner, ∃ ac, internal b T d = some ac
  nodup : (r.root :: r.inner).Nodup
  before : ∀ x ∈ r.operands ++ r.inner, x ∈ D ∨ (x ∈ ids b ∧ pos b x < pos b r.root)
  parents : ∀ I₁ d I₂, r.inner = I₁ ++ d :: I₂ → ∃ p ∈ r.root :: I₁, d ∈ opsOf b p
  tree : ∃ t : Tree, t.leaves = r.operands ∧
    ∀ (R : Type) (S : Sem R) (E : Nat → R), Sat S Eq b E → t.eval S T E = E r.root

theorem flattenRoot_ok (hv : Valid D b) {v a c : Nat} (h : (v, .arith T a c) ∈ b) :
    FlatOK D b T (flattenRoot b T v a c) := by
  have hn := hv.nodup.1
  have hfuel : (([a, c] : List Nat).map (weight b)).sum ≤ 3 ^ b.length := by
    have h1 := weight_arith hv h
    have h2 := weight_le (b := b) v
    simp only [List.map_cons, List.map_nil, List.sum_cons, List.sum_nil]
    omega
  obtain ⟨l, hl⟩ := isTree_exists (T := T) hv _ a le_rfl
  obtain ⟨r, hr⟩ := isTree_exists (T := T) hv _ c le_rfl
  have hops : opsOf b v = [a, c] := opsOf_eq hn h
  have inv := flattenLoop_inv (T := T) hv
    (fun stack ops inner =>
      (∀ o ∈ ops, internal b T o = none) ∧ (∀ d ∈ inner, ∃ ac, internal b T d = some ac) ∧
      (v :: inner).Nodup ∧
      (∀ x ∈ stack ++ (ops ++ inner), x ∈ D ∨ (x ∈ ids b ∧ pos b x < pos b v)) ∧
      (∀ x ∈ stack, ∃ p ∈ v :: inner, x ∈ opsOf b p) ∧
      (∀ I₁ d I₂, inner = I₁ ++ d :: I₂ → ∃ p ∈ v :: I₁, d ∈ opsOf b p) ∧
      (stack ++ (ops ++ inner)).Perm ((v :: inner).flatMap (opsOf b)))
    (by
      rintro x a c stack ops inner hi ⟨h1, h2, h3, h4, h5, h6, h7⟩
      obtain ⟨hx, hu⟩ := internal_some hn hi
      simp only at hx
      have hxops : opsOf b x = [a, c] := opsOf_eq hn hx
      have hxv : pos b x < pos b v := by
        rcases h4 x (by simp) with h | h
        · exact (hv.nodup.2 x (mem_ids.mpr ⟨_, hx⟩) h).elim
        · exact h.2
      have hxi : x ∉ inner := by
        intro hmem
        have hc := count_opsOf_le hn h3 x
        rw [hu, ← h7.count_eq, List.cons_append, List.count_cons_self, List.count_append,
          List.count_append] at hc
        have := List.count_pos_iff.mpr hmem
        omega
      have hne : v ≠ x := by rintro rfl; omega
      refine ⟨h1, ?_, ?_, ?_, ?_, ?_, ?_⟩
      · intro d hd
        rcases List.mem_append.mp hd with hd | hd
        · exact h2 d hd
        · rw [List.mem_singleton] at hd; subst hd; exact ⟨_, hi⟩
      · rw [← List.cons_append, List.nodup_append]
        refine ⟨h3, by simp, ?_⟩
        rintro p hp q hq rfl
        rw [List.mem_singleton] at hq
        subst hq
        rcases List.mem_cons.mp hp with h | h
        · exact hne h.symm
        · exact hxi h
      · intro y hy
        have hy' : y ∈ [a, c] ∨ y ∈ x :: stack ++ (ops ++ inner) := by
          simp only [List.mem_append, List.mem_cons, List.not_mem_nil, or_false] at hy ⊢
          tauto
        rcases hy' with hy' | hy'
        · rcases hv.before hx (o := y) hy' with h | ⟨h, h'⟩
          · exact .inl h
          · exact .inr ⟨h, by omega⟩
        · exact h4 y hy'
      · intro y hy
        have hy' : y ∈ [a, c] ∨ y ∈ stack := by
          simp only [List.mem_cons, List.not_mem_nil, or_false] at hy ⊢
          tauto
        rcases hy' with hy' | hy'
        · exact ⟨x, by simp, by rw [hxops]; exact hy'⟩
        · obtain ⟨p, hp, hq⟩ := h5 y (List.mem_cons_of_mem _ hy')
          refine ⟨p, ?_, hq⟩
          rw [← List.cons_append]
          exact List.mem_append_left _ hp
      · intro I₁ d I₂ he
        rcases List.eq_nil_or_concat I₂ with rfl | ⟨I₃, z, rfl⟩
        · obtain ⟨e1, e2⟩ := List.append_inj' he rfl
          cases e2
          subst e1
          exact h5 x List.mem_cons_self
        · rw [List.concat_eq_append, ← List.cons_append, ← List.append_assoc] at he
          obtain ⟨e1, e2⟩ := List.append_inj' he rfl
          exact h6 I₁ d I₃ e1
      · rw [← List.cons_append, List.flatMap_append]
        simp only [List.flatMap_cons, List.flatMap_nil, List.append_nil]
        rw [hxops]
        have : (x :: (stack ++ (ops ++ inner))).Perm (opsOf b v ++ inner.flatMap (opsOf b)) := by
          simpa using h7
        refine List.Perm.trans ?_ (List.Perm.append_right [a, c] this)
        rw [List.perm_iff_count]
        intro z
        simp only [List.count_append, List.cons_append, List.count_cons, List.count_nil]
        omega)
    (by
      rintro x stack ops inner hi ⟨h1, h2, h3, h4, h5, h6, h7⟩
      refine ⟨?_, h2, h3, ?_, fun y hy => h5 y (List.mem_cons_of_mem _ hy), h6, ?_⟩
      · intro o ho
        rcases List.mem_append.mp ho with ho | ho
        · exact h1 o ho
        · rw [List.mem_singleton] at ho; subst ho; exact hi
      · intro y hy
        apply h4
        simp only [List.mem_append, List.mem_cons, List.not_mem_nil, or_false] at hy ⊢
        tauto
      · refine List.Perm.trans ?_ h7
        rw [List.perm_iff_count]
        intro z
        simp only [List.count_append, List.cons_append, List.count_cons, List.count_nil]
        omega)
    (3 ^ b.length) [a, c] [] [] hfuel
    (by
      refine ⟨by simp, by simp, by simp, ?_, ?_, by simp, ?_⟩
      · intro x hx
        have hx' : x ∈ [a, c] := by simpa using hx
        rcases hv.before h (o := x) hx' with h | h
        · exact .inl h
        · exact .inr h
      · intro x hx
        exact ⟨v, by simp, by rw [hops]; exact hx⟩
      · simp [hops])
  obtain ⟨h1, h2, h3, h4, -, h6, -⟩ := inv
  refine ⟨⟨a, c, h⟩, h1, h2, h3, h4, h6, .node l r, ?_, ?_⟩
  · exact (flattenLoop_tree hv hl hr (by simpa using hfuel)).symm
  · intro R S E hs
    rw [Tree.eval, hl.eval_eq hv hs, hr.eval_eq hv hs]
    exact hs _ h

end Heir.Balance
