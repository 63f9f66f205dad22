import Verif.Balance.Flatten
import Mathlib.Algebra.Group.WithOne.Basic
import Mathlib.Algebra.BigOperators.Group.List.Basic

/-! # Balanced trees and the ops made from them -/

namespace Heir.Balance

variable {R : Type} {T : Name}

theorem balancedTree_ok : ∀ (fuel : Nat) (l : List Nat), 2 ≤ l.length → l.length ≤ fuel →
    ∃ t, balancedTree fuel l = some t ∧ t.leaves = l ∧ t.depth = Nat.clog 2 l.length := by
  intro fuel
  induction fuel with
  | zero => intro l h1 h2; omega
  | succ fuel ih =>
    intro l h1 h2
    match l, h1, h2 with
    | [a, c], _, _ => exact ⟨_, rfl, rfl, by simp [Tree.depth]; decide⟩
    | [a, c, d], _, _ => exact ⟨_, rfl, rfl, by simp [Tree.depth]; decide⟩
    | a :: c :: d :: e :: l, h1, h2 =>
      generalize hL : a :: c :: d :: e :: l = L at h1 h2
      have hlen : 4 ≤ L.length := by rw [← hL]; simp
      obtain ⟨x, x1, x2, x3⟩ := ih (L.take (L.length / 2)) (by rw [List.length_take]; omega)
        (by rw [List.length_take]; omega)
      obtain ⟨y, y1, y2, y3⟩ := ih (L.drop (L.length / 2)) (by rw [List.length_drop]; omega)
        (by rw [List.length_drop]; omega)
      refine ⟨.node x y, ?_, ?_, ?_⟩
      · subst hL
        simp only [balancedTree]
        rw [x1, y1]
        rfl
      · rw [Tree.leaves, x2, y2, List.take_append_drop]
      · rw [Tree.depth, x3, y3, List.length_take, List.length_drop,
          Nat.clog_of_two_le (by decide) (by omega : 2 ≤ L.length)]
        have h3 : L.length - L.length / 2 = (L.length + 2 - 1) / 2 := by omega
        rw [h3, max_eq_right]
        apply Nat.clog_mono_right
        omega

theorem Tree.leaves_le (t : Tree) : t.leaves.length ≤ 2 ^ t.depth := by
  induction t with
  | leaf v => simp [Tree.leaves, Tree.depth]
  | node l r ihl ihr =>
    rw [Tree.leaves, Tree.depth, List.length_append, pow_succ]
    have h1 := Nat.pow_le_pow_right (n := 2) (by decide) (le_max_left l.depth r.depth)
    have h2 := Nat.pow_le_pow_right (n := 2) (by decide) (le_max_right l.depth r.depth)
    omega

theorem Tree.eval_congr {S : Sem R} {E E' : Nat → R} {t : Tree} (h : ∀ v ∈ t.leaves, E v = E' v) :
    t.eval S T E = t.eval S T E' := by
  induction t with
  | leaf v => exact h v (by simp [Tree.leaves])
  | node l r ihl ihr =>
    rw [Tree.eval, Tree.eval, ihl fun v hv => h v (List.mem_append_left _ hv),
      ihr fun v hv => h v (List.mem_append_right _ hv)]

/-- Two trees with the same leaves have the same value. -/
theorem Tree.eval_perm {S : Sem R} (hac : AC (S.arith T)) {E : Nat → R} {t t' : Tree}
    (h : t.leaves.Perm t'.leaves) : t.eval S T E = t'.eval S T E := by
  letI : CommSemigroup R := { mul := S.arith T, mul_assoc := hac.1, mul_comm := hac.2 }
  have key : ∀ t : Tree, ((t.eval S T E : R) : WithOne R) =
      (t.leaves.map fun v => ((E v : R) : WithOne R)).prod := by
    intro t
    induction t with
    | leaf v => simp [Tree.eval, Tree.leaves]
    | node l r ihl ihr =>
      rw [Tree.leaves, List.map_append, List.prod_append, ← ihl, ← ihr, ← WithOne.coe_mul]
      rfl
  have := (h.map fun v => ((E v : R) : WithOne R)).prod_eq
  rw [← key, ← key] at this
  exact WithOne.coe_inj.mp this

theorem groupPublic_perm (p : Nat → Bool) (l : List Nat) : (groupPublic p l).Perm l :=
  List.filter_append_perm p l

/-! ## Validity -/

theorem Valid.mono {b : Block} {D D' : List Nat} (h : Valid D b) (hs : ∀ v ∈ D, v ∈ D')
    (hd : ∀ v ∈ ids b, v ∉ D') : Valid D' b := by
  induction b generalizing D D' with
  | nil => trivial
  | cons p b ih =>
    obtain ⟨x, i⟩ := p
    have hnd := h.nodup
    obtain ⟨h1, h2, h3⟩ := h
    refine ⟨hd x List.mem_cons_self, fun o ho => hs o (h2 o ho), ih h3 ?_ ?_⟩
    · intro v hv
      rcases List.mem_cons.mp hv with rfl | hv
      · exact List.mem_cons_self
      · exact List.mem_cons_of_mem _ (hs v hv)
    · intro v hv hm
      rcases List.mem_cons.mp hm with rfl | hm
      · exact (List.nodup_cons.mp hnd.1).1 hv
      · exact hd v (List.mem_cons_of_mem _ hv) hm

theorem valid_append {b c : Block} {D : List Nat} :
    Valid D (b ++ c) ↔ Valid D b ∧ Valid ((ids b).reverse ++ D) c := by
  induction b generalizing D with
  | nil => simp [Valid, ids]
  | cons p b ih =>
    obtain ⟨x, i⟩ := p
    simp only [List.cons_append, Valid, ih, ids, List.map_cons, List.reverse_cons, List.append_assoc,
      List.nil_append]
    tauto

/-! ## Emission -/

structure EmitOK (T : Name) (t : Tree) (n : Nat) (x : Block × Nat × Nat) : Prop where
  le : n ≤ x.2.2
  ids_fresh : ∀ v ∈ ids x.1, n ≤ v ∧ v < x.2.2
  res : x.2.1 ∈ t.leaves ∨ (n ≤ x.2.1 ∧ x.2.1 < x.2.2)
  operands : ∀ p ∈ x.1, ∀ o ∈ p.2.operands, o ∈ t.leaves ∨ (n ≤ o ∧ o < x.2.2)
  valid : ∀ D : List Nat, (∀ v ∈ t.leaves, v ∈ D) → (∀ v ∈ D, v < n ∨ x.2.2 ≤ v) →
    Valid D x.1 ∧ (x.2.1 ∈ D ∨ x.2.1 ∈ ids x.1)
  sat : ∀ (R : Type) (S : Sem R) (rel : R → R → Prop), (∀ y, rel y y) → ∀ E : Nat → R,
    (∀ v ∈ t.leaves, v < n) → ∃ E' : Nat → R, (∀ v, v < n ∨ x.2.2 ≤ v → E' v = E v) ∧
      Sat S rel x.1 E' ∧ E' x.2.1 = t.eval S T E

theorem emit_two {l r : Tree} {n : Nat} {x y : Block × Nat × Nat} (hx : EmitOK T l n x)
    (hy : EmitOK T r x.2.2 y) :
    (∀ v ∈ ids (x.1 ++ y.1), n ≤ v ∧ v < y.2.2) ∧
    (∀ p ∈ x.1 ++ y.1, ∀ o ∈ p.2.operands, o ∈ l.leaves ++ r.leaves ∨ (n ≤ o ∧ o < y.2.2)) ∧
    (∀ z ∈ [x.2.1, y.2.1], z ∈ l.leaves ++ r.leaves ∨ (n ≤ z ∧ z < y.2.2)) ∧
    (∀ D : List Nat, (∀ v ∈ l.leaves ++ r.leaves, v ∈ D) → (∀ v ∈ D, v < n ∨ y.2.2 ≤ v) →
      Valid D (x.1 ++ y.1) ∧ ∀ z ∈ [x.2.1, y.2.1], z ∈ D ∨ z ∈ ids (x.1 ++ y.1)) ∧
    (∀ (R : Type) (S : Sem R) (rel : R → R → Prop), (∀ y, rel y y) → ∀ E : Nat → R,
      (∀ v ∈ l.leaves ++ r.leaves, v < n) → ∃ E' : Nat → R,
        (∀ v, v < n ∨ y.2.2 ≤ v → E' v = E v) ∧ Sat S rel (x.1 ++ y.1) E' ∧
        E' x.2.1 = l.eval S T E ∧ E' y.2.1 = r.eval S T E) := by
  have h1 := hx.le
  have h2 := hy.le
  refine ⟨?_, ?_, ?_, ?_, ?_⟩
  · intro v hv
    rw [ids_append, List.mem_append] at hv
    rcases hv with hv | hv
    · have := hx.ids_fresh v hv; omega
    · have := hy.ids_fresh v hv; omega
  · intro p hp o ho
    rw [List.mem_append] at hp ⊢
    rcases hp with hp | hp
    · rcases hx.operands p hp o ho with h | h
      · exact .inl (.inl h)
      · exact .inr (by omega)
    · rcases hy.operands p hp o ho with h | h
      · exact .inl (.inr h)
      · exact .inr (by omega)
  · intro z hz
    rw [List.mem_append]
    simp only [List.mem_cons, List.not_mem_nil, or_false] at hz
    rcases hz with rfl | rfl
    · rcases hx.res with h | h
      · exact .inl (.inl h)
      · exact .inr (by omega)
    · rcases hy.res with h | h
      · exact .inl (.inr h)
      · exact .inr (by omega)
  · intro D hD hn
    obtain ⟨v1, v2⟩ := hx.valid D (fun v hv => hD v (List.mem_append_left _ hv))
      (fun v hv => by have := hn v hv; omega)
    obtain ⟨v3, v4⟩ := hy.valid ((ids x.1).reverse ++ D)
      (fun v hv => List.mem_append_right _ (hD v (List.mem_append_right _ hv)))
      (fun v hv => by
        rcases List.mem_append.mp hv with hv | hv
        · have := hx.ids_fresh v (List.mem_reverse.mp hv); omega
        · have := hn v hv; omega)
    refine ⟨valid_append.mpr ⟨v1, v3⟩, ?_⟩
    intro z hz
    rw [ids_append, List.mem_append]
    simp only [List.mem_cons, List.not_mem_nil, or_false] at hz
    rcases hz with rfl | rfl
    · tauto
    · simp only [List.mem_append, List.mem_reverse] at v4
      tauto
  · intro R S rel hrel E hl
    obtain ⟨E1, a1, a2, a3⟩ := hx.sat R S rel hrel E fun v hv => hl v (List.mem_append_left _ hv)
    obtain ⟨E2, c1, c2, c3⟩ := hy.sat R S rel hrel E1 fun v hv => by
      have := hl v (List.mem_append_right _ hv); omega
    have hlow : ∀ v, v < x.2.2 → E2 v = E1 v := fun v hv => c1 v (.inl hv)
    refine ⟨E2, ?_, ?_, ?_, ?_⟩
    · intro v hv
      rw [c1 v (by omega), a1 v (by omega)]
    · intro p hp
      rcases List.mem_append.mp hp with hp | hp
      · have hp1 := (hx.ids_fresh p.1 (mem_ids.mpr ⟨p.2, hp⟩)).2
        rw [hlow _ hp1, Heir.Balance.eval_congr (e' := E1)]
        · exact a2 p hp
        · intro o ho
          apply hlow
          rcases hx.operands p hp o ho with h | h
          · have := hl o (List.mem_append_left _ h); omega
          · exact h.2
      · exact c2 p hp
    · rw [hlow, a3]
      rcases hx.res with h | h
      · have := hl _ (List.mem_append_left _ h); omega
      · exact h.2
    · rw [c3]
      apply Tree.eval_congr
      intro v hv
      exact a1 v (.inl (hl v (List.mem_append_right _ hv)))

theorem emit_ok : ∀ (t : Tree) (n : Nat), EmitOK T t n (emit T t n) := by
  intro t
  induction t with
  | leaf v =>
    intro n
    refine ⟨le_rfl, by simp [emit, ids], .inl (by simp [emit, Tree.leaves]), by simp [emit], ?_, ?_⟩
    · intro D hD _
      exact ⟨trivial, .inl (hD v (by simp [Tree.leaves]))⟩
    · intro R S rel _ E _
      exact ⟨E, fun _ _ => rfl, (by intro p hp; cases hp), rfl⟩
  | node l r ihl ihr =>
    intro n
    have hx := ihl n
    have hy := ihr (emit T l n).2.2
    rw [emit]
    generalize emit T l n = x at hx hy
    generalize emit T r x.2.2 = y at hy
    have h1 := hx.le
    have h2 := hy.le
    obtain ⟨e1, e2, e3, e4, e5⟩ := emit_two hx hy
    refine ⟨by simp only; omega, ?_, .inr (by simp only; omega), ?_, ?_, ?_⟩
    · intro v hv
      simp only at hv ⊢
      rw [ids_append, List.mem_append] at hv
      rcases hv with hv | hv
      · have := e1 v hv; omega
      · simp only [ids, List.map_cons, List.map_nil, List.mem_singleton] at hv; omega
    · intro p hp o ho
      simp only at hp ⊢
      rw [Tree.leaves]
      rcases List.mem_append.mp hp with hp | hp
      · rcases e2 p hp o ho with h | h
        · exact .inl h
        · exact .inr (by omega)
      · rw [List.mem_singleton] at hp
        subst hp
        rcases e3 o ho with h | h
        · exact .inl h
        · exact .inr (by omega)
    · intro D hD hn
      simp only at hn ⊢
      obtain ⟨v1, v2⟩ := e4 D hD (fun v hv => by have := hn v hv; omega)
      refine ⟨valid_append.mpr ⟨v1, ?_, ?_, trivial⟩, .inr ?_⟩
      · intro hm
        rcases List.mem_append.mp hm with hm | hm
        · have := e1 _ (List.mem_reverse.mp hm); omega
        · have := hn _ hm; omega
      · intro o ho
        rcases v2 o ho with h | h
        · exact List.mem_append_right _ h
        · exact List.mem_append_left _ (List.mem_reverse.mpr h)
      · rw [ids_append]; exact List.mem_append_right _ (by simp [ids])
    · intro R S rel hrel E hl
      obtain ⟨E', f1, f2, f3, f4⟩ := e5 R S rel hrel E hl
      refine ⟨Function.update E' y.2.2 ((Tree.node l r).eval S T E), ?_, ?_, ?_⟩
      · intro v hv
        simp only at hv
        rw [Function.update_of_ne (by omega)]
        exact f1 v (by omega)
      · have hne : ∀ o, (o ∈ l.leaves ++ r.leaves ∨ (n ≤ o ∧ o < y.2.2)) → o ≠ y.2.2 := by
          intro o ho
          rcases ho with h | h
          · have := hl o h; omega
          · omega
        intro p hp
        rcases List.mem_append.mp hp with hp | hp
        · have := e1 p.1 (mem_ids.mpr ⟨p.2, hp⟩)
          rw [Function.update_of_ne (by omega), Heir.Balance.eval_congr (e' := E')]
          · exact f2 p hp
          · intro o ho
            exact Function.update_of_ne (hne o (e2 p hp o ho)) _ _
        · rw [List.mem_singleton] at hp
          subst hp
          simp only [Function.update_self, Inst.eval]
          rw [Function.update_of_ne (hne _ (e3 _ (by simp))),
            Function.update_of_ne (hne _ (e3 _ (by simp))), f3, f4]
          exact hrel _
      · exact Function.update_self _ _ _

/-- The ops that replace a root. -/
structure RootOK (T : Name) (root : Nat) (t : Tree) (n : Nat) (x : Block × Nat) : Prop where
  le : n ≤ x.2
  ids_fresh : ∀ v ∈ ids x.1, v = root ∨ (n ≤ v ∧ v < x.2)
  root_mem : root ∈ ids x.1
  operands : ∀ p ∈ x.1, ∀ o ∈ p.2.operands, o ∈ t.leaves ∨ (n ≤ o ∧ o < x.2)
  valid : ∀ D : List Nat, (∀ v ∈ t.leaves, v ∈ D) → (∀ v ∈ D, v < n) → root ∉ D → root < n →
    Valid D x.1
  sat : ∀ (R : Type) (S : Sem R) (rel : R → R → Prop), (∀ y, rel y y) → ∀ E : Nat → R,
    (∀ v ∈ t.leaves, v < n) → root < n → rel (t.eval S T E) (E root) →
    ∃ E' : Nat → R, (∀ v < n, E' v = E v) ∧ Sat S rel x.1 E'

theorem emitRoot_ok {root : Nat} {l r : Tree} {n : Nat} :
    RootOK T root (.node l r) n (emitRoot T root (.node l r) n) := by
  have hx := emit_ok (T := T) l n
  have hy := emit_ok (T := T) r (emit T l n).2.2
  rw [emitRoot]
  generalize emit T l n = x at hx hy
  generalize emit T r x.2.2 = y at hy
  have h1 := hx.le
  have h2 := hy.le
  obtain ⟨e1, e2, e3, e4, e5⟩ := emit_two hx hy
  refine ⟨by simp only; omega, ?_, ?_, ?_, ?_, ?_⟩
  · intro v hv
    simp only at hv ⊢
    rw [ids_append, List.mem_append] at hv
    rcases hv with hv | hv
    · exact .inr (e1 v hv)
    · simp only [ids, List.map_cons, List.map_nil, List.mem_singleton] at hv; exact .inl hv
  · rw [ids_append]; exact List.mem_append_right _ (by simp [ids])
  · intro p hp o ho
    simp only at hp ⊢
    rw [Tree.leaves]
    rcases List.mem_append.mp hp with hp | hp
    · exact e2 p hp o ho
    · rw [List.mem_singleton] at hp
      subst hp
      exact e3 o ho
  · intro D hD hn hr hrn
    obtain ⟨v1, v2⟩ := e4 D hD (fun v hv => .inl (hn v hv))
    refine valid_append.mpr ⟨v1, ?_, ?_, trivial⟩
    · intro hm
      rcases List.mem_append.mp hm with hm | hm
      · have := e1 _ (List.mem_reverse.mp hm); omega
      · exact hr hm
    · intro o ho
      rcases v2 o ho with h | h
      · exact List.mem_append_right _ h
      · exact List.mem_append_left _ (List.mem_reverse.mpr h)
  · intro R S rel hrel E hl hrn hroot
    obtain ⟨E', f1, f2, f3, f4⟩ := e5 R S rel hrel E hl
    refine ⟨E', fun v hv => f1 v (.inl hv), ?_⟩
    intro p hp
    rcases List.mem_append.mp hp with hp | hp
    · exact f2 p hp
    · rw [List.mem_singleton] at hp
      subst hp
      simp only [Inst.eval]
      rw [f3, f4, f1 root (.inl hrn)]
      exact hroot

end Heir.Balance
