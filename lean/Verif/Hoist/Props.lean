import Verif.Hoist.Lemmas2

/-!
# C154, C155, C157: operations past which conversions of layouts are moved
-/

namespace Heir.Hoist

open Heir.Layout

variable {R : Type}

/-! ## C154: `tensor.collapse_shape` and `tensor.pad` -/

/-- C154: if dimensions of size one are dropped, ciphertexts hold the tensor in the layout of the
hoister if and only if they hold the collapsed tensor in the layout that is asked for. -/
theorem C154_collapse [Zero R] {groups : List (List Nat)} {toRel hoisted : Rel}
    (h : collapseHoister groups toRel = some hoisted)
    (hto : LayoutOf (collapsedShape groups) toRel) {x y : List Nat → R} (hxy : IsCollapse groups x y)
    (cts slots : Nat) (M : Nat → Nat → R) :
    Packs hoisted x cts slots M ↔ Packs toRel y cts slots M := by
  unfold collapseHoister at h
  split at h
  · rename_i htriv
    cases h
    have key : ∀ out ct slot, toRel out ct slot →
        hoistCollapse groups toRel (spread groups out) ct slot ∧ y out = x (spread groups out) := by
      intro out ct slot hr
      obtain ⟨hb, he⟩ := spread_ok htriv (hto _ _ _ hr)
      have hl : out.length = groups.length := by
        have := (hto _ _ _ hr).length_eq
        simpa [collapsedShape] using this
      exact ⟨⟨out, mapRel_iff.2 ⟨hl, rfl⟩, hr⟩, by rw [← hxy _ hb, he]⟩
    constructor
    · intro hp ct hct slot hs
      obtain ⟨h1, h2⟩ := hp ct hct slot hs
      refine ⟨fun out hr => ?_, fun hno => h2 ?_⟩
      · obtain ⟨k1, k2⟩ := key _ _ _ hr
        rw [k2]
        exact h1 _ k1
      · rintro idx ⟨out, _, hr⟩
        exact hno _ hr
    · intro hp ct hct slot hs
      obtain ⟨h1, h2⟩ := hp ct hct slot hs
      refine ⟨?_, fun hno => h2 fun out hr => hno _ (key _ _ _ hr).1⟩
      rintro idx ⟨out, hm, hr⟩
      rw [h1 _ hr, (key _ _ _ hr).2, (mapRel_iff.1 hm).2]
  · cases h

/-- C154: the hoister declines exactly when a group has two dimensions that are not units. -/
theorem C154_collapse_declines (groups : List (List Nat)) (toRel : Rel) :
    collapseHoister groups toRel = none ↔ ∃ g ∈ groups, 2 ≤ (g.filter (· ≠ 1)).length := by
  unfold collapseHoister
  have : isTrivialRankReduction groups = true ↔ ¬ ∃ g ∈ groups, 2 ≤ (g.filter (· ≠ 1)).length := by
    rw [isTrivialRankReduction, List.all_eq_true]
    simp only [decide_eq_true_eq, not_exists, not_and, not_le]
    exact forall₂_congr fun g _ => Nat.lt_succ_iff.symm
  split
  · rename_i h
    exact ⟨fun h => by simp at h, fun h' => absurd h' (this.1 h)⟩
  · rename_i h
    rw [this, not_not] at h
    exact ⟨fun _ => h, fun _ => rfl⟩

/-- C154: the new layout stores all elements and none in a slot of another one. -/
theorem C154_collapse_layout {groups : List (List Nat)} {toRel hoisted : Rel}
    (h : collapseHoister groups toRel = some hoisted)
    (hto : LayoutOf (collapsedShape groups) toRel) :
    LayoutOf groups.flatten hoisted ∧
    (Complete (InBounds (collapsedShape groups)) toRel → Complete (InBounds groups.flatten) hoisted) ∧
    (Unambiguous toRel → Unambiguous hoisted) := by
  unfold collapseHoister at h
  split at h
  · rename_i htriv
    cases h
    refine ⟨?_, ?_, ?_⟩
    · rintro idx ct slot ⟨out, hm, hr⟩
      rw [(mapRel_iff.1 hm).2]
      exact (spread_ok htriv (hto _ _ _ hr)).1
    · intro hc idx hb
      have hcb := collapsedIdx_inBounds hb
      obtain ⟨ct, slot, hr⟩ := hc _ hcb
      obtain ⟨k1, k2⟩ := spread_ok htriv hcb
      have hl : (collapsedIdx groups idx).length = groups.length := by
        have := hcb.length_eq
        simpa [collapsedShape] using this
      exact ⟨ct, slot, _, mapRel_iff.2 ⟨hl, (collapsedIdx_inj k1 hb k2).symm⟩, hr⟩
    · rintro hu i j ct slot ⟨o, hm, hr⟩ ⟨o', hm', hr'⟩
      rw [(mapRel_iff.1 hm).2, (mapRel_iff.1 hm').2, hu _ _ _ _ hr hr']
  · cases h

theorem zipWith_add_inj {S S' low : List Nat} (h : S.length = low.length)
    (h' : S'.length = low.length) (he : S.zipWith (· + ·) low = S'.zipWith (· + ·) low) : S = S' := by
  induction low generalizing S S' with
  | nil => rw [List.eq_nil_of_length_eq_zero h, List.eq_nil_of_length_eq_zero h']
  | cons l low ih =>
    cases S with
    | nil => simp at h
    | cons a S =>
      cases S' with
      | nil => simp at h'
      | cons b S' =>
        simp only [List.zipWith_cons_cons, List.cons.injEq] at he
        rw [ih (by simpa using h) (by simpa using h') he.2, show a = b by omega]

/-- C154: ciphertexts that hold the tensor in the layout of the hoister hold the tensor padded by
zeros in the layout that is asked for. -/
theorem C154_pad [Zero R] {padded unpadded low : List Nat} {toRel : Rel}
    (hto : LayoutOf padded toRel) (hu : Unambiguous toRel) {x y : List Nat → R}
    (hxy : IsPad padded unpadded low x y) {cts slots : Nat} {M : Nat → Nat → R}
    (hM : Packs (hoistPad padded unpadded low toRel) x cts slots M) :
    Packs toRel y cts slots M := by
  intro ct hct slot hs
  obtain ⟨h1, h2⟩ := hM ct hct slot hs
  refine ⟨fun P hr => ?_, fun hno => h2 ?_⟩
  · have hb := hto _ _ _ hr
    by_cases hS : ∃ S, InBounds unpadded S ∧ P = S.zipWith (· + ·) low
    · obtain ⟨S, hS, he⟩ := hS
      rw [(hxy P hb).1 S hS he]
      exact h1 S ⟨P, ⟨hb, hS, he⟩, hr⟩
    · have hS' : ∀ S, InBounds unpadded S → P ≠ S.zipWith (· + ·) low :=
        fun S hb he => hS ⟨S, hb, he⟩
      rw [(hxy P hb).2 hS']
      refine h2 ?_
      rintro S ⟨P', ⟨_, hb', he⟩, hr'⟩
      exact hS' S hb' (by rw [hu _ _ _ _ hr hr', he])
  · rintro S ⟨P, _, hr⟩
    exact hno _ hr

/-- C154: the new layout stores all elements of the source, and none in a slot of another one. -/
theorem C154_pad_layout {padded unpadded low : List Nat} {toRel : Rel}
    (hlow : low.length = unpadded.length) :
    LayoutOf unpadded (hoistPad padded unpadded low toRel) ∧
    ((∀ S, InBounds unpadded S → InBounds padded (S.zipWith (· + ·) low)) →
      Complete (InBounds padded) toRel →
      Complete (InBounds unpadded) (hoistPad padded unpadded low toRel)) ∧
    (Unambiguous toRel → Unambiguous (hoistPad padded unpadded low toRel)) := by
  refine ⟨?_, ?_, ?_⟩
  · rintro S ct slot ⟨P, ⟨_, hb, _⟩, _⟩
    exact hb
  · intro hin hc S hb
    obtain ⟨ct, slot, hr⟩ := hc _ (hin S hb)
    exact ⟨ct, slot, _, ⟨hin S hb, hb, rfl⟩, hr⟩
  · rintro hu S S' ct slot ⟨P, ⟨_, hb, he⟩, hr⟩ ⟨P', ⟨_, hb', he'⟩, hr'⟩
    have := hu _ _ _ _ hr hr'
    subst this
    exact zipWith_add_inj (by rw [hb.length_eq, hlow]) (by rw [hb'.length_eq, hlow]) (he ▸ he')

/-- A tensor of `1 × 4` in one ciphertext of four slots, in reverse order. -/
def rev4 : Rel := fun idx ct slot => ct = 0 ∧ slot < 4 ∧ idx = [3 - slot]

theorem rev4_layout : LayoutOf (collapsedShape [[1, 4]]) rev4 := by
  rintro idx ct slot ⟨_, h, rfl⟩
  exact .cons (by simp; omega) .nil

example : ∃ hoisted, collapseHoister [[1, 4]] rev4 = some hoisted ∧ hoisted [0, 1] 0 2 ∧
    IsCollapse [[1, 4]] (fun i => (i.getD 1 0 : ℤ)) (fun i => i.getD 0 0) := by
  refine ⟨hoistCollapse [[1, 4]] rev4, by unfold collapseHoister; rw [if_pos (by decide)],
    ⟨[1], ?_, rfl, by omega, rfl⟩, ?_⟩
  · exact mapRel_iff.2 ⟨rfl, by decide⟩
  · intro idx h
    have h : List.Forall₂ (· < ·) idx [1, 4] := h
    cases h with
    | cons h1 h2 =>
      cases h2 with
      | cons h2 h3 =>
        cases h3
        have := Nat.lt_one_iff.1 h1
        simp [collapsedIdx, number, this]

example : hoistPad [4] [2] [1] rev4 [0] 0 2 ∧ Unambiguous rev4 := by
  refine ⟨⟨[1], ⟨.cons (by omega) .nil, .cons (by omega) .nil, rfl⟩, rfl, by omega, rfl⟩, ?_⟩
  rintro i j ct slot ⟨_, _, rfl⟩ ⟨_, _, rfl⟩
  rfl

/-! ## C155: the layouts of collapsed and expanded tensors -/

/-- C155: `collapseDimensions`, if one group has several dimensions (all but one of them units) and
the others have one dimension. -/
theorem C155_collapse_partial {pre post : List (List Nat)} {g : List Nat}
    (hpre : ∀ g ∈ pre, g.length = 1) (hpost : ∀ g ∈ post, g.length = 1) (hg : KeepsOne g)
    {full : Rel} (hfull : LayoutOf (pre ++ g :: post).flatten full) :
    Agree (pre ++ g :: post) full (collapseDimensions (pre ++ g :: post) full) := by
  have hf : ∀ g' ∈ pre ++ g :: post, Fine g' := by
    intro g' hg'
    rcases List.mem_append.1 hg' with h | h
    · exact .inl (hpre _ h)
    · rcases List.mem_cons.1 h with rfl | h
      · exact .inr hg
      · exact .inl (hpost _ h)
  exact agree_of_spread hf hfull fun out hl ct slot => by
    rw [collapse_one hpre hpost (.inr hg) full hl]

/-- C155: `expandDimensions`, if every group with several dimensions has exactly one that is not a
unit. -/
theorem C155_expand_partial {groups : List (List Nat)}
    (hf : ∀ g ∈ groups, g.length = 1 ∨ KeepsOne g) (hpos : ∀ g ∈ groups, ∀ d ∈ g, 1 ≤ d)
    {rel : Rel} (hrel : LayoutOf (collapsedShape groups) rel) :
    ∃ full, expandDimensions groups.length groups rel = some full ∧
      LayoutOf groups.flatten full ∧ Agree groups full rel := by
  obtain ⟨_, hv, hlen⟩ := inserts_ok hf hpos [] (List.replicate groups.length 0) (by simp)
  simp only [List.length_nil, Nat.zero_add] at hv hlen
  have hrl : ∀ out ct slot, rel out ct slot → out.length = groups.length := by
    intro out ct slot hr
    have := (hrel _ _ _ hr).length_eq
    simpa [collapsedShape] using this
  have hins : ∀ out, out.length = groups.length → insAll (inserts 0 groups) out = spread groups out :=
    fun out hl => by simpa using (inserts_ok hf hpos [] out hl).1
  refine ⟨_, by rw [expandDimensions, if_pos hlen], ?_, ?_⟩
  · intro idx ct slot h
    obtain ⟨out, rfl, hr⟩ := (foldl_insertZero hrl _ hv idx ct slot).1 h
    rw [hins out (hrl _ _ _ hr)]
    exact (spread_ok (fine_trivial hf) (hrel _ _ _ hr)).1
  · intro out hl ct slot
    constructor
    · intro hr
      obtain ⟨hb, he⟩ := spread_ok (fine_trivial hf) (hrel _ _ _ hr)
      exact ⟨_, hb, he, (foldl_insertZero hrl _ hv _ ct slot).2 ⟨out, (hins out hl).symm, hr⟩⟩
    · rintro ⟨idx, hb, he, h⟩
      obtain ⟨out', rfl, hr⟩ := (foldl_insertZero hrl _ hv idx ct slot).1 h
      have hl' := hrl _ _ _ hr
      rw [hins out' hl', collapsedIdx_spread hf hl'] at he
      exact he ▸ hr

/-- A row-major layout of one ciphertext for two dimensions of size four between units. -/
def grid4 : Rel := fun idx ct slot =>
  ct = 0 ∧ idx.length = 4 ∧ idx.getD 0 0 = 0 ∧ idx.getD 2 0 = 0 ∧ idx.getD 1 0 < 4 ∧
    idx.getD 3 0 < 4 ∧ slot = 4 * idx.getD 1 0 + idx.getD 3 0

/-- C155 is violated by `collapseDimensions` for two groups with units: after the first dimension is
dropped, the positions of the second group have moved.  A tensor of `1 × 4 × 1 × 4` collapsed to
`4 × 4`: the element at `[1, 1]` is in slot 5, but the layout says otherwise. -/
theorem C155_violated_groups :
    LayoutOf [1, 4, 1, 4] grid4 ∧ grid4 [0, 1, 0, 1] 0 5 ∧
    collapsedIdx [[1, 4], [1, 4]] [0, 1, 0, 1] = [1, 1] ∧
    ¬ collapseDimensions [[1, 4], [1, 4]] grid4 [1, 1] 0 5 ∧
    ¬ Agree [[1, 4], [1, 4]] grid4 (collapseDimensions [[1, 4], [1, 4]] grid4) := by
  have hno : ¬ collapseDimensions [[1, 4], [1, 4]] grid4 [1, 1] 0 5 := by
    unfold collapseDimensions
    rw [foldl_setElim]
    have : insAll (elims 0 [[1, 4], [1, 4]]).reverse [1, 1] = [0, 1, 1, 0] := by decide
    rw [this]
    unfold grid4
    simp
  refine ⟨?_, by unfold grid4; simp, by decide, hno, fun h => hno ?_⟩
  · rintro idx ct slot ⟨_, hl, h0, h2, h1, h3, _⟩
    match idx, hl with
    | [a, b, c, d], _ =>
      simp at h0 h2 h1 h3
      exact .cons (by omega) (.cons h1 (.cons (by omega) (.cons h3 .nil)))
  · exact (h [1, 1] rfl 0 5).2 ⟨[0, 1, 0, 1], by
      exact .cons (by omega) (.cons (by omega) (.cons (by omega) (.cons (by omega) .nil))),
      by decide, by unfold grid4; simp⟩

/-- A row-major layout of a tensor of `1 × 1 × 4`. -/
def line4 : Rel := fun idx ct slot => ct = 0 ∧ slot < 4 ∧ idx = [0, 0, slot]

/-- C155 is violated by `collapseDimensions` for a group of units only: all its dimensions are
dropped.  A tensor of `1 × 1 × 4` collapsed to `1 × 4`: the layout has no point of two
coordinates. -/
theorem C155_violated_units :
    LayoutOf [1, 1, 4] line4 ∧ line4 [0, 0, 3] 0 3 ∧
    collapsedIdx [[1, 1], [4]] [0, 0, 3] = [0, 3] ∧
    (∀ i j ct slot, ¬ collapseDimensions [[1, 1], [4]] line4 [i, j] ct slot) ∧
    ¬ Agree [[1, 1], [4]] line4 (collapseDimensions [[1, 1], [4]] line4) := by
  have hno : ∀ i j ct slot, ¬ collapseDimensions [[1, 1], [4]] line4 [i, j] ct slot := by
    intro i j ct slot
    unfold collapseDimensions
    rw [foldl_setElim]
    have : insAll (elims 0 [[1, 1], [4]]).reverse [i, j] = [0, 0, i, j] := by
      simp [elims, elimGroup, insAll, List.zipIdx_cons]
    rw [this]
    rintro ⟨_, _, h⟩
    simp at h
  refine ⟨?_, ⟨rfl, by omega, rfl⟩, by decide, hno, fun h => hno 0 3 0 3 ?_⟩
  · rintro idx ct slot ⟨_, h, rfl⟩
    exact .cons (by omega) (.cons (by omega) (.cons h .nil))
  · exact (h [0, 3] rfl 0 3).2 ⟨[0, 0, 3],
      .cons (by omega) (.cons (by omega) (.cons (by omega) .nil)), by decide, rfl, by omega, rfl⟩

/-- C155 is violated by `expandDimensions` for a group of units: the assertion on the rank fails,
whatever the layout, when `tensor<1>` is expanded to `tensor<1x1>`. -/
theorem C155_violated_expand (rel : Rel) :
    expandDimensions [[1, 1]].length [[1, 1]] rel = none := by
  unfold expandDimensions
  rw [if_neg (by decide)]

/-- The assertion fails for every group of several units beside groups that are fine. -/
theorem C155_expand_asserts {groups : List (List Nat)} (hpos : ∀ g ∈ groups, ∀ d ∈ g, 1 ≤ d)
    (hne : ∀ g ∈ groups, g ≠ []) (hle : ∀ g ∈ groups, (g.filter (· ≠ 1)).length ≤ 1)
    (hu : ∃ g ∈ groups, 2 ≤ g.length ∧ ∀ d ∈ g, d = 1) (rel : Rel) :
    expandDimensions groups.length groups rel = none := by
  have key : ∀ (gs : List (List Nat)) (s : Nat), (∀ g ∈ gs, ∀ d ∈ g, 1 ≤ d) → (∀ g ∈ gs, g ≠ []) →
      (∀ g ∈ gs, (g.filter (· ≠ 1)).length ≤ 1) →
      gs.flatten.length ≤ gs.length + (inserts s gs).length ∧
      ((∃ g ∈ gs, 2 ≤ g.length ∧ ∀ d ∈ g, d = 1) →
        gs.flatten.length < gs.length + (inserts s gs).length) := by
    intro gs
    induction gs with
    | nil => intro s _ _ _; simp
    | cons g gs ih =>
      intro s hpos hne hle
      obtain ⟨i1, i2⟩ := ih (s + g.length) (fun g hg => hpos g (List.mem_cons_of_mem _ hg))
        (fun g hg => hne g (List.mem_cons_of_mem _ hg)) (fun g hg => hle g (List.mem_cons_of_mem _ hg))
      have hn := List.length_pos_iff.2 (hne g (by simp))
      have hu := units_length (g := g) s
      have h1 := hle g (by simp)
      rw [inserts_cons (hpos g (by simp)), List.flatten_cons]
      simp only [List.length_append, List.length_cons]
      by_cases hl : g.length = 1
      · rw [if_pos hl, List.length_nil]
        refine ⟨by omega, fun ⟨g', hg', h2, h3⟩ => ?_⟩
        rcases List.mem_cons.1 hg' with rfl | hg'
        · omega
        · have := i2 ⟨g', hg', h2, h3⟩
          omega
      · rw [if_neg hl]
        refine ⟨by omega, fun ⟨g', hg', h2, h3⟩ => ?_⟩
        rcases List.mem_cons.1 hg' with rfl | hg'
        · have : (g'.filter (· ≠ 1)).length = 0 := by
            rw [List.length_eq_zero_iff, List.filter_eq_nil_iff]
            intro x hx
            simp [h3 x hx]
          omega
        · have := i2 ⟨g', hg', h2, h3⟩
          omega
  have := (key groups 0 hpos hne hle).2 hu
  unfold expandDimensions
  rw [if_neg (by omega)]

/-- A layout of a tensor of `1 × 4`. -/
example : LayoutOf ([] ++ [1, 4] :: []).flatten (fun idx ct slot => ct = 0 ∧ slot < 4 ∧ idx = [0, slot]) ∧
    KeepsOne [1, 4] := by
  refine ⟨?_, by unfold KeepsOne; decide⟩
  rintro idx ct slot ⟨_, h, rfl⟩
  exact .cons (by omega) (.cons h .nil)

/-! ## C157: layouts of slices that are inserted -/

theorem sliceNumber_mul (sizes shape idx : List Nat) (p : Nat) :
    sliceNumber sizes shape idx p = p * sliceNumber sizes shape idx 1 := by
  induction sizes generalizing shape idx p with
  | nil => simp [sliceNumber]
  | cons s ss ih =>
    cases shape with
    | nil => simp [sliceNumber]
    | cons d ds =>
      cases idx with
      | nil => simp [sliceNumber]
      | cons i is =>
        simp only [sliceNumber]
        split
        · rw [ih ds is (p * d), ih ds is (1 * d)]
          ring
        · exact ih ds is p

/-- The number of the slice and the coordinates in it determine the index. -/
theorem slice_inj {sizes shape i j : List Nat} (hi : unitBounds sizes shape i)
    (hj : unitBounds sizes shape j) (hs : strip sizes i = strip sizes j)
    (hn : sliceNumber sizes shape i 1 = sliceNumber sizes shape j 1) : i = j := by
  induction sizes generalizing shape i j with
  | nil =>
    cases shape <;> cases i <;> cases j <;> simp_all [unitBounds]
  | cons s ss ih =>
    cases shape with
    | nil => simp [unitBounds] at hi
    | cons d ds =>
      cases i with
      | nil => simp [unitBounds] at hi
      | cons a i =>
        cases j with
        | nil => simp [unitBounds] at hj
        | cons b j =>
          simp only [unitBounds] at hi hj
          by_cases h1 : s = 1
          · simp only [strip, sliceNumber, h1, if_true] at hs hn
            rw [sliceNumber_mul _ _ i, sliceNumber_mul _ _ j, one_mul, mul_one, mul_one] at hn
            have ha := hi.1 h1
            have hb := hj.1 h1
            have e1 : a = b := by
              have := congrArg (· % d) hn
              simpa [Nat.add_mul_mod_self_left, Nat.mod_eq_of_lt ha, Nat.mod_eq_of_lt hb] using this
            have e2 : sliceNumber ss ds i 1 = sliceNumber ss ds j 1 := by
              subst e1
              exact Nat.eq_of_mul_eq_mul_left (show 0 < d by omega) (by omega)
            rw [e1, ih hi.2 hj.2 hs e2]
          · simp only [strip, sliceNumber, h1, if_false, List.cons.injEq] at hs hn
            rw [hs.1, ih hi.2 hj.2 hs.2 hn]

/-- C157: if no slot of the slice holds two elements, no slot of the result does. -/
theorem C157_unambiguous_partial {sizes shape : List Nat} {numCt : Nat} {rel pushed : Rel}
    (h : pushSlice sizes shape numCt rel = some pushed) (hu : Unambiguous rel) :
    Unambiguous pushed := by
  unfold pushSlice at h
  split at h
  · cases h
    rintro i j ct slot ⟨hi, c, hc, hr, e⟩ ⟨hj, c', hc', hr', e'⟩
    rw [e] at e'
    have h1 : sliceNumber sizes shape i 1 = sliceNumber sizes shape j 1 := by
      have := congrArg (· / (numCt + 1)) e'
      simpa [Nat.mul_add_div, mul_comm, Nat.div_eq_of_lt (Nat.lt_succ_of_le hc),
        Nat.div_eq_of_lt (Nat.lt_succ_of_le hc')] using this
    have h2 : c = c' := by rw [h1] at e'; omega
    exact slice_inj hi hj (hu _ _ _ _ hr (h2 ▸ hr')) h1
  · cases h

theorem strip_inBounds {sizes shape idx : List Nat}
    (hf : List.Forall₂ (fun s d => s ≠ 1 → s = d) sizes shape) (h : InBounds shape idx) :
    InBounds (sizes.filter (· ≠ 1)) (strip sizes idx) ∧ unitBounds sizes shape idx := by
  induction hf generalizing idx with
  | nil =>
    cases h
    exact ⟨.nil, trivial⟩
  | @cons s d ss ds hsd hf ih =>
    cases h with
    | @cons i _ is _ hlt h =>
      obtain ⟨a, b⟩ := ih h
      by_cases h1 : s = 1
      · simp only [strip, h1, if_true, ne_eq, not_true, decide_false, Bool.false_eq_true,
          not_false_iff, List.filter_cons_of_neg, unitBounds]
        exact ⟨by simpa using a, fun _ => hlt, b⟩
      · rw [List.filter_cons_of_pos (by simpa using h1)]
        simp only [strip, h1, if_false, unitBounds]
        exact ⟨.cons (hsd h1 ▸ hlt) a, fun h => h.elim, b⟩

/-- C157: if all elements of the slice are stored, all elements of the result are. -/
theorem C157_complete_partial {sizes shape : List Nat} {numCt : Nat} {rel pushed : Rel}
    (h : pushSlice sizes shape numCt rel = some pushed)
    (hb : ∀ idx ct slot, rel idx ct slot → ct ≤ numCt)
    (hc : Complete (InBounds (sizes.filter (· ≠ 1))) rel) : Complete (InBounds shape) pushed := by
  unfold pushSlice at h
  split at h
  · rename_i hf
    cases h
    intro idx hi
    obtain ⟨h1, h2⟩ := strip_inBounds hf hi
    obtain ⟨ct, slot, hr⟩ := hc _ h1
    exact ⟨_, slot, h2, ct, hb _ _ _ hr, hr, rfl⟩
  · cases h

/-- C157: the ciphertexts of a slice of the result hold that slice in the layout of the slice. -/
theorem C157_slices_partial [Zero R] {sizes shape : List Nat} {numCt : Nat} {rel pushed : Rel}
    (h : pushSlice sizes shape numCt rel = some pushed)
    {T : List Nat → R} {cts slots : Nat} {M : Nat → Nat → R} (hM : Packs pushed T cts slots M)
    {idx : List Nat} (hi : InBounds shape idx) {ct slot : Nat} (hct : ct ≤ numCt) (hs : slot < slots)
    (hr : rel (strip sizes idx) ct slot)
    (hlt : sliceNumber sizes shape idx 1 * (numCt + 1) + ct < cts) :
    M (sliceNumber sizes shape idx 1 * (numCt + 1) + ct) slot = T idx := by
  unfold pushSlice at h
  split at h
  · rename_i hf
    cases h
    exact (hM _ hlt _ hs).1 idx ⟨(strip_inBounds hf hi).2, ct, hct, hr, rfl⟩
  · cases h

/-- C157: the number of dimensions of the new layout is that of the result exactly for slices
without unit dimensions and for slices with all of them. -/
theorem C157_rank {numDomain : Nat} {sizes : List Nat} (h : numDomain ≤ sizes.length) :
    pushedRank numDomain sizes = sizes.length ↔
      numDomain = (sizes.filter (· ≠ 1)).length ∨ numDomain = sizes.length := by
  have key : ∀ l : List Nat, (l.filter (· = 1)).length + (l.filter (· ≠ 1)).length = l.length := by
    intro l
    induction l with
    | nil => rfl
    | cons a l ih =>
      by_cases h1 : a = 1
      · rw [List.filter_cons_of_pos (by simpa using h1), List.filter_cons_of_neg (by simpa using h1),
          List.length_cons, List.length_cons, ← ih]
        omega
      · rw [List.filter_cons_of_neg (by simpa using h1), List.filter_cons_of_pos (by simpa using h1),
          List.length_cons, List.length_cons, ← ih]
        omega
  have := key sizes
  unfold pushedRank
  split <;> omega

/-- C157 is violated for a slice with some of the unit dimensions: `tensor<1x4>` inserted with sizes
`[1, 1, 4]` into a tensor of three dimensions gets a layout of four dimensions. -/
theorem C157_violated_rank : pushedRank 2 [1, 1, 4] = 4 ∧ [1, 1, 4].length = 3 := by decide

/-- Rows of a matrix of `3 × 4`, each in reverse order. -/
example : ∃ pushed, pushSlice [1, 4] [3, 4] 0 rev4 = some pushed ∧ pushed [2, 0] 2 3 ∧
    Complete (InBounds [4]) rev4 := by
  refine ⟨_, by unfold pushSlice; rw [if_pos (by decide)], ?_, ?_⟩
  · refine ⟨by simp [unitBounds], 0, le_rfl, ?_, ?_⟩
    · exact ⟨rfl, by omega, by decide⟩
    · decide
  · intro idx h
    have h : List.Forall₂ (· < ·) idx [4] := h
    cases h with
    | @cons i _ _ _ h1 h2 =>
      cases h2
      exact ⟨0, 3 - i, rfl, by omega, by simp; omega⟩

end Heir.Hoist
