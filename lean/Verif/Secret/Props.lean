import Verif.Secret.Convert
import Verif.Secret.Flow

/-! # If-to-select and secretness: properties C58 and C59 -/

namespace Heir.Secret

variable {V : Type} {S : Sem V}

/-! ## C58 -/

/-- Rewriting any number of times, anywhere, with any labels. -/
def Rewrites : Blk → Blk → Prop := Relation.ReflTransGen fun b b' => ∃ L, Step L b b'

theorem rewrites_ok {P : List Nat} {b b' : Blk} (h : Rewrites b b') (hv : Valid P b) (hs : SSA P b) :
    OK S P b b' := by
  unfold Rewrites at h
  induction h with
  | refl => exact ⟨sim_refl b P hv, hv, fun _ => Nat.le_refl _⟩
  | tail _ h' ih =>
    obtain ⟨L, h'⟩ := h'
    exact ih.trans (h'.ok P ih.2.1 (ih.ssa hs))

/-- The values visible after the program and the effects are those of the original program. -/
theorem C58_values {P : List Nat} {b b' : Blk} (hv : Valid P b) (hs : SSA P b) (h : Rewrites b b')
    (s s' : St V) (hss : SameOn P s s') :
    SameOn (P ++ topDefs b) (eval S b s) (eval S b' s') :=
  (rewrites_ok h hv hs).1.2 s s' hss

/-- The program stays well formed: uses see their definitions, and values are defined once. -/
theorem C58_wellformed {P : List Nat} {b b' : Blk} (hv : Valid P b) (hs : SSA P b)
    (h : Rewrites b b') : Valid P b' ∧ SSA P b' ∧ topDefs b ⊆ topDefs b' := by
  have S : Sem Unit := ⟨fun _ _ => (), fun _ _ _ => (), fun _ => true, fun _ => 0, fun _ _ => (), ()⟩
  have := rewrites_ok (S := S) h hv hs
  exact ⟨this.2.1, this.ssa hs, this.1.1⟩

theorem ifs_app (a b : Blk) : ifs (a.app b) = ifs a + ifs b := by
  induction a <;> simp_all [Blk.app, ifs] <;> omega

theorem selects_ifs {c : Nat} {rest : Blk} : ∀ (res ty ey : List Nat),
    ifs (selects c res ty ey rest) = ifs rest ∧
    (selects c res ty ey rest).isPure = rest.isPure := by
  intro res
  induction res with
  | nil => intro ty ey; simp [selects]
  | cons r res ih =>
    intro ty ey
    cases ty with
    | nil => simp [selects]
    | cons t ty =>
      cases ey with
      | nil => simp [selects]
      | cons e ey => simpa [selects, ifs, Blk.isPure] using ih ty ey

theorem step_ifs {L : Labels} {b b' : Blk} (h : Step L b b') (hp : b.isPure = true) :
    b'.isPure = true ∧ ifs b' < ifs b := by
  induction h with
  | @convert res c t ty e ey rest b hr h =>
    simp only [Blk.isPure, Bool.and_eq_true] at hp
    unfold convertIf at h
    split at h
    · simp at h
    · rw [if_pos (by simp [hp.1.1, hp.1.2])] at h
      injection h with h
      subst h
      simp only [ifs_app, isPure_app, (selects_ifs res ty ey).1, (selects_ifs res ty ey).2, ifs,
        hp.1.1, hp.1.2, hp.2, Bool.and_self, true_and]
      omega
  | dead ht he =>
    simp only [Blk.isPure, Bool.and_eq_true] at hp
    exact ⟨hp.2, by simp only [ifs]; omega⟩
  | op _ ih => exact ih hp
  | reg _ ih => exact ih hp
  | reveal _ ih => exact ih hp
  | eff _ ih => simp [Blk.isPure] at hp
  | thn _ ih =>
    simp only [Blk.isPure, Bool.and_eq_true] at hp ⊢
    obtain ⟨i1, i2⟩ := ih hp.1.1
    exact ⟨⟨⟨i1, hp.1.2⟩, hp.2⟩, by simp only [ifs]; omega⟩
  | els _ ih =>
    simp only [Blk.isPure, Bool.and_eq_true] at hp ⊢
    obtain ⟨i1, i2⟩ := ih hp.1.2
    exact ⟨⟨⟨hp.1.1, i1⟩, hp.2⟩, by simp only [ifs]; omega⟩
  | after _ ih =>
    simp only [Blk.isPure, Bool.and_eq_true] at hp ⊢
    obtain ⟨i1, i2⟩ := ih hp.2
    exact ⟨⟨hp.1, i1⟩, by simp only [ifs]; omega⟩
  | body _ ih =>
    simp only [Blk.isPure, Bool.and_eq_true] at hp ⊢
    obtain ⟨i1, i2⟩ := ih hp.1
    exact ⟨⟨i1, hp.2⟩, by simp only [ifs]; omega⟩
  | afterLoop _ ih =>
    simp only [Blk.isPure, Bool.and_eq_true] at hp ⊢
    obtain ⟨i1, i2⟩ := ih hp.2
    exact ⟨⟨hp.1, i1⟩, by simp only [ifs]; omega⟩

/-- On a program without side effects at most as many rewrites are possible as there are
`scf.if`s. -/
theorem C58_terminates (p : Nat → Blk) (n : Nat) (hp : (p 0).isPure = true)
    (h : ∀ i < n, ∃ L, Step L (p i) (p (i + 1))) : n ≤ ifs (p 0) := by
  have key : ∀ i ≤ n, (p i).isPure = true ∧ ifs (p i) + i ≤ ifs (p 0) := by
    intro i
    induction i with
    | zero => intro _; exact ⟨hp, Nat.le_refl _⟩
    | succ i ih =>
      intro hi
      obtain ⟨h1, h2⟩ := ih (by omega)
      obtain ⟨L, hs⟩ := h i (by omega)
      obtain ⟨k1, k2⟩ := step_ifs hs h1
      exact ⟨k1, by omega⟩
  have := (key n (Nat.le_refl _)).2
  omega

/-- An `scf.if` on a secret in a loop, one branch of which contains another. -/
def demo : Blk :=
  .loop [10] [1, 1, 1] 11 [12] [2]
    (.op 13 (.other 0) [0, 12]
      (.ite [14] 13
        (.ite [15] 0 (.op 16 (.other 1) [12] .done) [16] .done [12] .done) [15]
        (.op 17 (.other 2) [12, 11] .done) [17] .done)) [14] .done

/-- The same with selects. -/
def demo' : Blk :=
  .loop [10] [1, 1, 1] 11 [12] [2]
    (.op 13 (.other 0) [0, 12]
      (.op 16 (.other 1) [12] (.op 15 .select [0, 16, 12]
        (.op 17 (.other 2) [12, 11] (.op 14 .select [13, 15, 17] .done))))) [14] .done

example : Rewrites demo demo' :=
  .tail (.single ⟨fun _ => some true, .body (.op (.convert (by simp) rfl))⟩)
    ⟨fun _ => some true, .body (.op (.convert (by simp) rfl))⟩

example : Valid [0, 1, 2] demo ∧ SSA [0, 1, 2] demo := by
  refine ⟨?_, by unfold SSA; decide⟩
  simp [Valid, demo, topDefs]

/-- Running `demo` over numbers: the branches matter, and the trip count is the first bound. -/
def natSem : Sem Nat where
  app n l := match n, l with
    | 0, [a, b] => (a + b) % 2
    | 1, [a] => 3 * a
    | 2, [a, b] => a + b + 1
    | _, _ => 0
  eff _ _ m := m.length
  truth x := x != 0
  trips l := l.headD 0
  iv _ k := k
  junk := 0

example : (eval natSem demo ⟨fun v => [1, 3, 1].getD v 0, [], [], []⟩).env 10 =
    (eval natSem demo' ⟨fun v => [1, 3, 1].getD v 0, [], [], []⟩).env 10 ∧
    (eval natSem demo ⟨fun v => [1, 3, 1].getD v 0, [], [], []⟩).env 10 = 18 := by decide

/-- `secret.reveal` counts as pure, so it is hoisted out of the branch that guards it: a run that
revealed nothing reveals the value afterwards. (C58 is about values and effects only.) -/
theorem C58_hoists_reveals : ∃ (b b' : Blk) (s : St Nat), Rewrites b b' ∧ Valid [0, 1] b ∧
    SSA [0, 1] b ∧ (eval natSem b s).rev = [] ∧ (eval natSem b' s).rev = [7] := by
  refine ⟨.ite [2] 0 (.reveal 3 1 .done) [3] .done [0] .done,
    .reveal 3 1 (.op 2 .select [0, 3, 0] .done), ⟨fun v => [0, 7].getD v 0, [], [], []⟩,
    .single ⟨fun _ => some true, .convert (by simp) rfl⟩, ?_, by unfold SSA; decide, by decide,
    by decide⟩
  simp [Valid, topDefs]

/-! ## C59 -/

/-- Two runs that agree on the public inputs agree on all values labelled public, take the same
branches and trip counts and reveal the same values, unless they reveal different values.

Missing: programs that branch on secrets, that yield a value whose label is unknown, and that load
from memory; the labels are wrong there, see below. -/
theorem C59_noninterference_partial {P : List Nat} {b : Blk} {L₀ L : Labels} (hv : Valid P b)
    (hs : SSA P b) (h0 : Fresh b L₀) (hr : Reached b L₀ L) (hst : Stable L b)
    (hy : YieldsKnown L b) (hc : PublicCtl L b) (hS : S.NoLoads) (s s' : St V)
    (h : LowEq L P s s') :
    LowEq L (P ++ topDefs b) (eval S b s) (eval S b s') ∨
      Diverge (eval S b s).rev (eval S b s').rev :=
  noninterference hS b P s s' hv hst
    (hr.grounded (List.nodup_append.mp hs).2.1 h0) hy hc h

/-- Without other region ops than `scf.if` and `scf.for` no label stays unknown, so the hypothesis
on the yielded values of `C59_noninterference_partial` holds. -/
theorem C59_labels_known {P : List Nat} {b : Blk} {L : Labels} (hv : Valid P b) (hf : RegFree b)
    (hst : Stable L b) (hP : ∀ v ∈ P, L v ≠ none) :
    YieldsKnown L b ∧ ∀ v ∈ topDefs b, L v ≠ none :=
  known_of_regFree b P hv hf hst hP

/-- If the program has no side effects, if-to-select has nothing left to do, the loop bounds are
public and nothing is revealed, the control flow does not depend on secrets. -/
theorem C59_oblivious_partial {P : List Nat} {b : Blk} {L₀ L : Labels} (hv : Valid P b)
    (hs : SSA P b) (h0 : Fresh b L₀) (hr : Reached b L₀ L) (hst : Stable L b)
    (hP : ∀ v ∈ P, L v ≠ none) (hf : RegFree b) (hp : b.isPure = true) (hb : PublicBounds L b)
    (hn : ∀ b', ¬ Step L b b') (hrev : NoReveal b) (hS : S.NoLoads) (s s' : St V)
    (hl : ∀ v ∈ P, L v = some false → s.env v = s'.env v) (hc : s.ctl = s'.ctl)
    (hrv : s.rev = s'.rev) :
    (eval S b s).ctl = (eval S b s').ctl ∧
      ∀ v ∈ P ++ topDefs b, L v = some false → (eval S b s).env v = (eval S b s').env v := by
  rcases C59_noninterference_partial hv hs h0 hr hst (C59_labels_known hv hf hst hP).1
    (publicCtl_of_normal b hp hb hn P hv) hS s s' ⟨hl, hc, hrv⟩ with k | ⟨k, x, y, h1, h2, h3⟩
  · exact ⟨k.2.1, k.1⟩
  · rw [eval_noReveal b s hrev] at h1
    rw [eval_noReveal b s' hrev, ← hrv, h1] at h2
    injection h2 with h2
    exact absurd h2 h3

theorem reached_run (b : Blk) : ∀ (l : List (Labels → Labels)) (L : Labels), l ⊆ visits b →
    Reached b L (l.foldl (fun L f => f L) L) := by
  intro l
  induction l with
  | nil => intro L _; exact .refl
  | cons f l ih =>
    intro L h
    obtain ⟨h1, h2⟩ := List.cons_subset.mp h
    exact .head ⟨f, h1, rfl⟩ (ih (f L) h2)

theorem raise_stable {L : Labels} {v : Nat} {s : Secretness} (h : join (L v) s = L v) :
    raise L v s = L := by
  unfold raise
  rw [h]
  exact Function.update_eq_self v L

/-- Secret 0, public 1. -/
def inputs : Labels := fun v => if v = 0 then some true else if v = 1 then some false else none

/-- The labels after visiting every op once. -/
def labels (b : Blk) : Labels := (visits b).foldl (fun L f => f L) inputs

/-- A loop with a public bound that accumulates a secret beside a public counter, then a branch on
the counter. -/
def flow : Blk :=
  .loop [10, 11] [1, 1, 1] 12 [13, 14] [0, 1]
    (.op 15 (.other 2) [13, 12] (.op 16 (.other 2) [14, 12] .done)) [15, 16]
    (.ite [17] 11 (.op 18 (.other 1) [11] .done) [18] .done [11] .done)

example : Valid [0, 1] flow ∧ SSA [0, 1] flow ∧ Fresh flow inputs ∧
    Reached flow inputs (labels flow) ∧ Stable (labels flow) flow ∧ YieldsKnown (labels flow) flow ∧
    PublicCtl (labels flow) flow ∧ labels flow 10 = some true ∧ labels flow 17 = some false := by
  refine ⟨by simp [Valid, flow, topDefs], by unfold SSA; decide, by unfold Fresh; decide,
    reached_run _ _ _ (List.Subset.refl _), ?_, ?_, ?_, by decide, by decide⟩
  · intro f hf
    simp only [flow, visits, List.append_nil, List.mem_cons, List.mem_append,
      List.not_mem_nil, or_false] at hf
    rcases hf with rfl | rfl | rfl | rfl | rfl | (rfl | rfl) | rfl | rfl | rfl <;>
    · simp only [raiseMany]
      repeat rw [raise_stable (by decide)]
  · exact ⟨by decide, trivial, by decide, trivial, trivial, trivial⟩
  · exact ⟨by decide, trivial, by decide, trivial, trivial, trivial⟩

/-- A run-time function that gives every op the sum of its operands and its number. -/
def sumSem : Sem Nat where
  app n l := n + l.sum
  eff n l _ := n + l.sum
  truth x := x != 0
  trips _ := 1
  iv _ k := k
  junk := 0

/-- The claim of the analysis without the hypotheses on control flow, yields and memory fails: a
branch on a secret that picks one of two constants is labelled public. -/
theorem C59_violated_branch : ∃ (b : Blk) (L : Labels) (s s' : St Nat), Valid [0, 1] b ∧
    SSA [0, 1] b ∧ Fresh b inputs ∧ Reached b inputs L ∧ Stable L b ∧ YieldsKnown L b ∧
    sumSem.NoLoads ∧ LowEq L [0, 1] s s' ∧ L 4 = some false ∧ 4 ∈ topDefs b ∧
    (eval sumSem b s).env 4 ≠ (eval sumSem b s').env 4 := by
  refine ⟨.op 2 (.other 5) [] (.op 3 (.other 6) [] (.ite [4] 0 .done [2] .done [3] .done)),
    labels _, ⟨fun _ => 0, [], [], []⟩, ⟨fun v => if v = 0 then 1 else 0, [], [], []⟩,
    by simp [Valid, topDefs], by unfold SSA; decide, by unfold Fresh; decide,
    reached_run _ _ _ (List.Subset.refl _), ?_, ⟨by decide, trivial, trivial, trivial⟩,
    fun _ _ _ _ => rfl, ⟨by decide, rfl, rfl⟩, by decide, by decide, by decide⟩
  intro f hf
  simp only [visits, List.append_nil, List.mem_cons,
    List.not_mem_nil, or_false] at hf
  rcases hf with rfl | rfl | rfl | rfl <;>
  · try simp only [raiseMany]
    repeat rw [raise_stable (by decide)]

/-- An op with regions whose region uses the secret leaves its result unknown, and joined with the
public value of the other branch it becomes public. All branches are on public values here. -/
theorem C59_violated_unknown : ∃ (b : Blk) (L : Labels) (s s' : St Nat), Valid [0, 1] b ∧
    SSA [0, 1] b ∧ Fresh b inputs ∧ Reached b inputs L ∧ Stable L b ∧ PublicCtl L b ∧
    sumSem.NoLoads ∧ LowEq L [0, 1] s s' ∧ L 4 = some false ∧ 4 ∈ topDefs b ∧
    (eval sumSem b s).env 4 ≠ (eval sumSem b s').env 4 := by
  refine ⟨.ite [4] 1 (.op 2 (.other 5) [] .done) [2] (.reg 3 6 [] [0] .done) [3] .done,
    (visits (.ite [4] 1 (.op 2 (.other 5) [] .done) [2] (.reg 3 6 [] [0] .done) [3] .done)
      ++ visits (.ite [4] 1 (.op 2 (.other 5) [] .done) [2] (.reg 3 6 [] [0] .done) [3] .done)).foldl
      (fun L f => f L) inputs, ⟨fun _ => 0, [], [], []⟩,
    ⟨fun v => if v = 0 then 1 else 0, [], [], []⟩,
    by simp [Valid, topDefs], by unfold SSA; decide, by unfold Fresh; decide,
    reached_run _ _ _ (by simp), ?_, ⟨by decide, trivial, trivial, trivial⟩,
    fun _ _ _ _ => rfl, ⟨by decide, rfl, rfl⟩, by decide, by decide, by decide⟩
  intro f hf
  simp only [visits, List.append_nil, List.nil_append, List.mem_cons, List.cons_append,
    List.not_mem_nil, or_false] at hf
  rcases hf with rfl | rfl | rfl | rfl <;>
  · try simp only [raiseMany]
    repeat rw [raise_stable (by decide)]

/-- Loads return the last thing stored. -/
def memSem : Sem Nat where
  app n l := n + l.sum
  eff _ _ m := match m.getLast? with
    | some (_, [_, x]) => x
    | _ => 0
  truth x := x != 0
  trips _ := 1
  iv _ k := k
  junk := 0

/-- Memory has no label: allocate, store the secret, load it, and the result is labelled public. -/
theorem C59_violated_memory : ∃ (b : Blk) (L : Labels) (s s' : St Nat), Valid [0, 1] b ∧
    SSA [0, 1] b ∧ Fresh b inputs ∧ Reached b inputs L ∧ Stable L b ∧ PublicCtl L b ∧
    YieldsKnown L b ∧ LowEq L [0, 1] s s' ∧ L 4 = some false ∧ 4 ∈ topDefs b ∧
    (eval memSem b s).env 4 ≠ (eval memSem b s').env 4 := by
  refine ⟨.eff 2 0 [] (.eff 3 1 [2, 0] (.eff 4 2 [2] .done)),
    labels _, ⟨fun _ => 0, [], [], []⟩,
    ⟨fun v => if v = 0 then 1 else 0, [], [], []⟩,
    by simp [Valid], by unfold SSA; decide, by unfold Fresh; decide,
    reached_run _ _ _ (List.Subset.refl _), ?_, trivial, trivial, ⟨by decide, rfl, rfl⟩, by decide,
    by decide, by decide⟩
  intro f hf
  simp only [visits, List.mem_cons, List.not_mem_nil, or_false] at hf
  rcases hf with rfl | rfl | rfl <;> exact raise_stable (by decide)

end Heir.Secret
