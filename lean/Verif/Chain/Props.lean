import Verif.Chain.Lemmas
import Mathlib.Data.List.GetD

namespace Heir.Chain

variable {α : Type} {prog : List Op}

/-- C44: one application of the pattern keeps every execution and the typing. -/
theorem C44_step_partial {prog' : List Op} (hv : Valid prog) (hl : Linear prog)
    (h : Rewrites prog prog') :
    Valid prog' ∧ Linear prog' ∧ ∀ env : Nat → List Int → α, Run prog env → Run prog' env := by
  obtain ⟨users, k, hus, h⟩ := h
  obtain ⟨sh, sc, d, idx, sh', src, eidx, shift, i, r, p1, p2, p3, p4, p5, p6, rfl⟩ :=
    matchAndRewrite_some h
  have key : ∀ {β : Type} (env : Nat → List Int → β), Run prog env →
      Good prog env src shift r.1 r.2 ∧ src < r.1 ∧ r.1 < prog.length := by
    intro β env hr
    obtain ⟨g1, g2⟩ := Good.insert (acc := ∅) hv hr p1 p2 p3 p4 (by simp)
    exact walk_good hv hl hr hus _ _ _ _ g1 g2 (List.getElem?_eq_some_iff.mp p1).1 p5
  refine ⟨?_, hl.set, ?_⟩
  · obtain ⟨s1, s2, s3, s4⟩ := walk_static hv _ _ _ _ (static_insert hv p1 p2 p3 p4) p5
    intro v o ho
    rw [shapeAt_set]
    rcases set_some ho with ⟨rfl, rfl⟩ | ⟨-, ho⟩
    · exact ⟨s3, s1, s2⟩
    · exact hv v o ho
  · intro env hr
    obtain ⟨⟨n, g1, g2, g3⟩, g4, g5⟩ := key env hr
    intro v o ho
    rw [shapeAt_set]
    rcases set_some ho with ⟨rfl, rfl⟩ | ⟨-, ho⟩
    · intro m hm j hj0 hj
      rw [g1] at hm
      injection hm with hm
      subst hm
      have hfull : r.2 = Finset.Ico (0 : Int) n := by
        apply Finset.eq_of_subset_of_card_le
        · intro x hx
          rw [Finset.mem_Ico]
          exact (g3 x hx).1
        · rw [p6, g1]; simp
      exact (g3 j (by rw [hfull, Finset.mem_Ico]; exact ⟨hj0, hj⟩)).2
    · exact hr v o ho

/-- C44: any number of applications of the pattern keeps every execution of the program: every value
that is defined, with its old definition or by a rotation, still holds.

Partial: at most one op inserts an extracted element into any one value. -/
theorem C44_chains_partial {prog' : List Op} (hv : Valid prog) (hl : Linear prog)
    (h : Relation.ReflTransGen Rewrites prog prog') :
    Valid prog' ∧ ∀ env : Nat → List Int → α, Run prog env → Run prog' env := by
  have : Valid prog' ∧ Linear prog' ∧ ∀ env : Nat → List Int → α, Run prog env → Run prog' env := by
    induction h with
    | refl => exact ⟨hv, hl, fun _ h => h⟩
    | tail _ h ih =>
      obtain ⟨h1, h2, h3⟩ := ih
      obtain ⟨k1, k2, k3⟩ := C44_step_partial (α := α) h1 h2 h
      exact ⟨k1, k2, fun env he => k3 env (h3 env he)⟩
  exact ⟨this.1, this.2.2⟩

/-- C44: the walk ends: more fuel than the length of the program gives no other result. -/
theorem C44_terminates (hv : Valid prog) {users : Nat → List Nat} (hus : IsUsers prog users)
    {src k : Nat} {shift : Int} (hk : k < prog.length) (acc : Finset Int) (f : Nat) :
    walk prog users src shift (prog.length + f) k acc = walk prog users src shift prog.length k acc :=
  walk_fuel hv hus _ _ _ _ hk (by omega) (by omega)

/-- A chain of three insertions that rotates by one. -/
def chain3 : List Op :=
  [⟨[3], .other⟩, ⟨[3], .other⟩,
   ⟨[], .extract 0 [⟨1, true⟩]⟩, ⟨[3], .insert 2 1 [⟨0, true⟩]⟩,
   ⟨[], .extract 0 [⟨2, true⟩]⟩, ⟨[3], .insert 4 3 [⟨1, true⟩]⟩,
   ⟨[], .extract 0 [⟨0, true⟩]⟩, ⟨[3], .insert 6 5 [⟨2, true⟩]⟩]

def chain3Users : Nat → List Nat := fun v => [[6, 4, 2], [3], [3], [5], [5], [7], [7]].getD v []

example : matchAndRewrite chain3 chain3Users 3 = some (chain3.set 7 ⟨[3], .rotate 0 1⟩) := by
  decide

/-- Two insertions into one value, which go on separately. -/
def fork3 : List Op :=
  [⟨[3], .other⟩, ⟨[3], .other⟩,
   ⟨[], .extract 0 [⟨0, true⟩]⟩, ⟨[3], .insert 2 1 [⟨0, true⟩]⟩,
   ⟨[], .extract 0 [⟨1, true⟩]⟩, ⟨[3], .insert 4 3 [⟨1, true⟩]⟩,
   ⟨[], .extract 0 [⟨2, true⟩]⟩, ⟨[3], .insert 6 3 [⟨2, true⟩]⟩]

def fork3Users : Nat → List Nat := fun v => [[6, 4, 2], [3], [3], [7, 5], [5], [], [7]].getD v []

/-- C44 fails when the chain branches: the indices of both branches are counted and one of them is
replaced by the whole rotation. -/
theorem C44_violated :
    Valid fork3 ∧ IsUsers fork3 fork3Users ∧ ∃ prog', matchAndRewrite fork3 fork3Users 3 = some prog' ∧
      ∃ env : Nat → List Int → Nat, Run fork3 env ∧ ¬ Run prog' env := by
  refine ⟨?_, ?_, fork3.set 5 ⟨[3], .rotate 0 0⟩, by decide, fun v j =>
    ([[1, 2, 3], [10, 20, 30], [1], [1, 20, 30], [2], [1, 2, 30], [3], [1, 20, 3]].getD v []).getD
      (j.headD 0).toNat 0, ?_, ?_⟩
  · intro v o h
    match v, h with
    | 0, h => cases h; exact trivial
    | 1, h => cases h; exact trivial
    | 2, h => cases h; exact ⟨by decide, rfl, rfl⟩
    | 3, h => cases h; exact ⟨by decide, by decide, rfl, rfl, rfl⟩
    | 4, h => cases h; exact ⟨by decide, rfl, rfl⟩
    | 5, h => cases h; exact ⟨by decide, by decide, rfl, rfl, rfl⟩
    | 6, h => cases h; exact ⟨by decide, rfl, rfl⟩
    | 7, h => cases h; exact ⟨by decide, by decide, rfl, rfl, rfl⟩
  · have : ∀ v < 8, ∀ u ∈ fork3Users v, v < u ∧
        v ∈ (fork3[u]?.map fun o => o.kind.operands).getD [] := by decide
    intro v u hu
    by_cases hv : v < 8
    · obtain ⟨h1, h2⟩ := this v hv u hu
      refine ⟨h1, fun o' ho' _ => ?_⟩
      rw [ho'] at h2
      exact h2
    · simp only [fork3Users] at hu
      rw [List.getD_eq_default _ _ (by simp; omega)] at hu
      cases hu
  · have hb : ∀ j : List Int, InBounds [3] j → j = [0] ∨ j = [1] ∨ j = [2] := by
      intro j hj
      match j, hj with
      | [x], hj =>
        have h1 := hj.1.1
        have h2 : x < 3 := hj.1.2
        have : x = 0 ∨ x = 1 ∨ x = 2 := by omega
        rcases this with rfl | rfl | rfl <;> simp
    intro v o h
    match v, h with
    | 0, h => cases h; exact trivial
    | 1, h => cases h; exact trivial
    | 2, h => cases h; exact ⟨⟨by decide, trivial⟩, rfl⟩
    | 3, h =>
      cases h
      refine ⟨⟨by decide, trivial⟩, fun j hj => ?_⟩
      rcases hb j hj with rfl | rfl | rfl <;> rfl
    | 4, h => cases h; exact ⟨⟨by decide, trivial⟩, rfl⟩
    | 5, h =>
      cases h
      refine ⟨⟨by decide, trivial⟩, fun j hj => ?_⟩
      rcases hb j hj with rfl | rfl | rfl <;> rfl
    | 6, h => cases h; exact ⟨⟨by decide, trivial⟩, rfl⟩
    | 7, h =>
      cases h
      refine ⟨⟨by decide, trivial⟩, fun j hj => ?_⟩
      rcases hb j hj with rfl | rfl | rfl <;> rfl
  · intro h
    have := h 5 _ rfl 3 rfl 2 (by decide) (by decide)
    revert this
    decide

end Heir.Chain
