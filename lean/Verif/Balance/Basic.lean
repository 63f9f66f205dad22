import Verif.Balance.Spec
import Mathlib.Algebra.BigOperators.Group.Finset.Basic
import Mathlib.Algebra.Order.BigOperators.Group.Finset
import Mathlib.Data.List.Nodup
import Mathlib.Data.Nat.Log

/-! # Blocks, names and executions -/

namespace Heir.Balance

variable {R : Type}

theorem ids_append (b c : Block) : ids (b ++ c) = ids b ++ ids c := List.map_append

theorem mem_ids {b : Block} {v : Nat} : v ∈ ids b ↔ ∃ i, (v, i) ∈ b := by
  simp [ids]

theorem Valid.nodup {D : List Nat} {b : Block} (h : Valid D b) :
    (ids b).Nodup ∧ ∀ v ∈ ids b, v ∉ D := by
  induction b generalizing D with
  | nil => simp [ids]
  | cons p b ih =>
    obtain ⟨h1, h2, h3⟩ := h
    obtain ⟨i1, i2⟩ := ih h3
    refine ⟨List.nodup_cons.mpr ⟨fun hm => i2 _ hm List.mem_cons_self, i1⟩, ?_⟩
    intro v hv
    rcases List.mem_cons.mp hv with rfl | hv
    · exact h1
    · exact fun hd => i2 v hv (List.mem_cons_of_mem _ hd)

theorem defOf_eq {b : Block} (hn : (ids b).Nodup) {v : Nat} {i : Inst} :
    defOf b v = some i ↔ (v, i) ∈ b := by
  induction b with
  | nil => simp [defOf]
  | cons p b ih =>
    obtain ⟨x, j⟩ := p
    obtain ⟨h1, h2⟩ := List.nodup_cons.mp hn
    by_cases h : x = v
    · subst h
      simp only [defOf, List.find?_cons_of_pos, decide_true, Option.map_some, Option.some.injEq,
        List.mem_cons, Prod.mk.injEq, true_and]
      constructor
      · rintro rfl; exact .inl rfl
      · rintro (h | h)
        · exact h.symm
        · exact (h1 (mem_ids.mpr ⟨i, h⟩)).elim
    · have : defOf ((x, j) :: b) v = defOf b v := by
        simp [defOf, h]
      rw [this, ih h2]
      simp [Ne.symm h]

theorem entry_unique {b : Block} (hn : (ids b).Nodup) {v : Nat} {i j : Inst} (h : (v, i) ∈ b)
    (h' : (v, j) ∈ b) : i = j := by
  have h1 := (defOf_eq hn).mpr h
  have h2 := (defOf_eq hn).mpr h'
  rw [h1] at h2
  exact Option.some.inj h2

/-! ## Uses -/

/-- Operands of the op that defines a value. -/
def opsOf (b : Block) (v : Nat) : List Nat := ((defOf b v).map Inst.operands).getD []

theorem opsOf_eq {b : Block} (hn : (ids b).Nodup) {v : Nat} {i : Inst} (h : (v, i) ∈ b) :
    opsOf b v = i.operands := by
  rw [opsOf, (defOf_eq hn).mpr h]; rfl

theorem opsOf_nil {b : Block} {v : Nat} (h : v ∉ ids b) : opsOf b v = [] := by
  rw [opsOf]
  cases hd : defOf b v with
  | none => rfl
  | some i =>
    refine (h ?_).elim
    unfold defOf at hd
    rw [Option.map_eq_some_iff] at hd
    obtain ⟨p, hp, -⟩ := hd
    have := List.find?_some hp
    simp only [decide_eq_true_eq] at this
    exact mem_ids.mpr ⟨p.2, by rw [← this]; exact List.mem_of_find?_eq_some hp⟩

theorem numUses_eq {b : Block} (hn : (ids b).Nodup) (v : Nat) :
    numUses b v = ∑ x ∈ (ids b).toFinset, (opsOf b x).count v := by
  rw [List.sum_toFinset _ hn, numUses, List.count_flatMap, ids, List.map_map]
  congr 1
  apply List.map_congr_left
  intro p hp
  simp only [Function.comp_apply]
  rw [opsOf_eq hn (v := p.1) (i := p.2) hp]

theorem count_opsOf_le {b : Block} (hn : (ids b).Nodup) {l : List Nat} (hl : l.Nodup) (v : Nat) :
    (l.flatMap (opsOf b)).count v ≤ numUses b v := by
  rw [numUses_eq hn, List.count_flatMap, ← List.sum_toFinset _ hl]
  apply Finset.sum_le_sum_of_ne_zero
  intro x _ hx
  rw [List.mem_toFinset]
  by_contra hmem
  exact hx (by simp [opsOf_nil hmem])

theorem numUses_pos {b : Block} {p : Nat × Inst} (hp : p ∈ b) {v : Nat} (hv : v ∈ p.2.operands) :
    0 < numUses b v := by
  rw [numUses, List.count_pos_iff, List.mem_flatMap]
  exact ⟨p, hp, hv⟩

/-- A value with one use has one user. -/
theorem user_unique {b : Block} (hn : (ids b).Nodup) {v : Nat} (hv : numUses b v = 1)
    {p q : Nat × Inst} (hp : p ∈ b) (hq : q ∈ b) (hvp : v ∈ p.2.operands) (hvq : v ∈ q.2.operands) :
    p.1 = q.1 := by
  by_contra hne
  have := count_opsOf_le hn (l := [p.1, q.1]) (by simp [hne]) v
  rw [hv] at this
  simp only [List.flatMap_cons, List.flatMap_nil, List.append_nil, List.count_append] at this
  rw [opsOf_eq hn (v := p.1) (i := p.2) hp, opsOf_eq hn (v := q.1) (i := q.2) hq] at this
  have h1 := List.count_pos_iff.mpr hvp
  have h2 := List.count_pos_iff.mpr hvq
  omega

theorem numUses_zero {b : Block} {v : Nat} (h : ∀ p ∈ b, v ∉ p.2.operands) : numUses b v = 0 := by
  rw [numUses, List.count_eq_zero, List.mem_flatMap]
  rintro ⟨p, hp, hv⟩
  exact h p hp hv

/-! ## Order -/

/-- Position of a value in the block. -/
def pos (b : Block) (v : Nat) : Nat := (ids b).idxOf v

theorem pairwise_pos {b : Block} (hn : (ids b).Nodup) :
    b.Pairwise fun p q => pos b p.1 < pos b q.1 := by
  rw [List.pairwise_iff_getElem]
  intro i j hi hj hij
  have key : ∀ k (hk : k < b.length), pos b (b[k].1) = k := by
    intro k hk
    have := List.Nodup.idxOf_getElem hn k (by simpa [ids] using hk)
    simpa [pos, ids] using this
  rw [key, key]
  exact hij

theorem Valid.before {D : List Nat} {b : Block} (h : Valid D b) {v : Nat} {i : Inst}
    (hv : (v, i) ∈ b) {o : Nat} (ho : o ∈ i.operands) : o ∈ D ∨ (o ∈ ids b ∧ pos b o < pos b v) := by
  induction b generalizing D with
  | nil => cases hv
  | cons p b ih =>
    obtain ⟨x, j⟩ := p
    have hnd := h.nodup
    obtain ⟨h1, h2, h3⟩ := h
    rcases List.mem_cons.mp hv with hv | hv
    · cases hv
      exact .inl (h2 o ho)
    · have hxv : x ≠ v := by
        rintro rfl
        exact (List.nodup_cons.mp hnd.1).1 (mem_ids.mpr ⟨i, hv⟩)
      have hpos : ∀ y, x ≠ y → pos ((x, j) :: b) y = pos b y + 1 := by
        intro y hy
        simp [pos, ids, List.idxOf_cons_ne _ hy]
      rcases ih h3 hv with h4 | ⟨h4, h5⟩
      · rcases List.mem_cons.mp h4 with rfl | h4
        · refine .inr ⟨List.mem_cons_self, ?_⟩
          rw [hpos v hxv]
          simp [pos, ids]
        · exact .inl h4
      · have hxo : x ≠ o := by
          rintro rfl
          exact (List.nodup_cons.mp hnd.1).1 h4
        refine .inr ⟨List.mem_cons_of_mem _ h4, ?_⟩
        rw [hpos v hxv, hpos o hxo]
        omega

/-! ## Executions as solutions -/

/-- Every op is satisfied, up to `rel`. -/
def Sat (S : Sem R) (rel : R → R → Prop) (b : Block) (E : Nat → R) : Prop :=
  ∀ p ∈ b, rel (p.2.eval S E) (E p.1)

theorem eval_congr {S : Sem R} {i : Inst} {e e' : Nat → R} (h : ∀ o ∈ i.operands, e o = e' o) :
    i.eval S e = i.eval S e' := by
  cases i with
  | other t args =>
    simp only [Inst.eval]
    congr 1
    exact List.map_congr_left h
  | arith op a c =>
    simp only [Inst.eval]
    rw [h a (by simp [Inst.operands]), h c (by simp [Inst.operands])]

theorem exec_not_mem {S : Sem R} {b : Block} {e : Nat → R} {v : Nat} (h : v ∉ ids b) :
    exec S b e v = e v := by
  induction b generalizing e with
  | nil => rfl
  | cons p b ih =>
    obtain ⟨x, i⟩ := p
    have h' : v ≠ x ∧ v ∉ ids b := by simpa [ids] using h
    rw [exec, ih h'.2, Function.update_of_ne h'.1]

theorem exec_sat {S : Sem R} {D : List Nat} {b : Block} (h : Valid D b) (e : Nat → R) :
    Sat S Eq b (exec S b e) := by
  induction b generalizing e D with
  | nil => intro p hp; cases hp
  | cons q b ih =>
    obtain ⟨x, i⟩ := q
    have hnd := h.nodup
    obtain ⟨h1, h2, h3⟩ := h
    intro p hp
    rcases List.mem_cons.mp hp with rfl | hp
    · simp only
      have hx : x ∉ ids b := (List.nodup_cons.mp hnd.1).1
      rw [exec, exec_not_mem hx, Function.update_self]
      apply eval_congr
      intro o ho
      have hox : o ≠ x := by
        rintro rfl; exact h1 (h2 o ho)
      have hob : o ∉ ids b := fun hm => h3.nodup.2 o hm (List.mem_cons_of_mem _ (h2 o ho))
      rw [exec_not_mem hob, Function.update_of_ne hox]
    · exact ih h3 _ p hp

/-- The solution of a block is its execution; more generally executions of monotone ops are below
every solution with `≤`. -/
theorem exec_rel {S : Sem R} {rel : R → R → Prop} (htr : ∀ x y z, rel x y → rel y z → rel x z)
    (hmono : ∀ (i : Inst) (e e' : Nat → R), (∀ o ∈ i.operands, rel (e o) (e' o)) →
      rel (i.eval S e) (i.eval S e'))
    {D : List Nat} {b : Block} (h : Valid D b) {e E : Nat → R} (hs : Sat S rel b E)
    (he : ∀ d ∈ D, rel (e d) (E d)) : ∀ v ∈ D ++ ids b, rel (exec S b e v) (E v) := by
  induction b generalizing e D with
  | nil => intro v hv; exact he v (by simpa [ids] using hv)
  | cons q b ih =>
    obtain ⟨x, i⟩ := q
    obtain ⟨h1, h2, h3⟩ := h
    intro v hv
    refine ih h3 (fun p hp => hs p (List.mem_cons_of_mem _ hp)) ?_ v ?_
    · intro d hd
      rcases List.mem_cons.mp hd with rfl | hd
      · rw [Function.update_self]
        refine htr _ _ _ (hmono i e E fun o ho => he o (h2 o ho)) ?_
        exact hs (d, i) List.mem_cons_self
      · have : d ≠ x := by rintro rfl; exact h1 (by assumption)
        rw [Function.update_of_ne this]
        exact he d hd
    · simp only [ids, List.map_cons, List.mem_append, List.mem_cons] at hv ⊢
      tauto

end Heir.Balance
