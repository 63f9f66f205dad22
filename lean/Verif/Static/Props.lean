import Verif.Static.Lemmas

namespace Heir.Static

/-- C55: the static loop computes what the loop with secret bounds computes.

Partial: a secret lower bound must lie on the grid of the annotated one, `C55_violated`. That the
annotations enclose the real bounds is what the annotations promise. -/
theorem C55_for_partial {σ : Type} {all : Bool} {sl su : Secretness} {f : ForOp σ}
    {g : AffineFor σ} (h : convertFor all sl su f = .new g)
    (hpos : ∀ s, f.step = some s → 0 < s)
    (hlow : isSecret sl = true → ∀ l s, f.lower = some l → f.step = some s →
      l ≤ f.lb ∧ (s : Int) ∣ f.lb - l)
    (hup : isSecret su = true → ∀ u, f.upper = some u → f.ub ≤ u) (init out : σ) :
    f.Runs init out ↔ g.Runs init out := by
  unfold convertFor at h
  split at h
  · exact absurd h (by simp)
  split at h
  rotate_left
  · exact absurd h (by simp)
  rename_i step lb' ub' e1 e2 e3
  injection h with h
  subst h
  have hs := hpos _ e1
  have key : ∀ o, ForRun f.ub step f.body f.lb init o →
      AffineFor.Runs ⟨lb', ub', step, if !isSecret sl && !isSecret su then f.body
        else fun iv st => if guardCond (isSecret sl) (isSecret su) f.lb f.ub iv then f.body iv st
          else st⟩ init o := by
    intro o ho
    unfold AffineFor.Runs
    simp only
    have hu : f.ub ≤ ub' := by
      unfold newBound at e3
      split at e3
      · rename_i h1; exact hup h1 _ e3
      · injection e3 with e3; omega
    have main := ForRun.widen_up (u := ub') (lb := f.lb) hs hu
      (body' := if !isSecret sl && !isSecret su then f.body
        else fun iv st => if guardCond (isSecret sl) (isSecret su) f.lb f.ub iv then f.body iv st
          else st)
      (by
        intro iv st h1 h2
        split
        · rfl
        · beta_reduce
          rw [if_pos]
          unfold guardCond
          split
          · split
            · simp; omega
            · simp; omega
          · simp; omega)
      (by
        unfold newBound at e3
        split at e3
        · rename_i h1
          refine .inr ?_
          intro iv st h2
          rw [if_neg (by simp [h1]), if_neg]
          unfold guardCond
          rw [h1]
          split
          · simp; omega
          · simp; omega
        · injection e3 with e3; exact .inl e3.symm) ho le_rfl
    unfold newBound at e2
    split at e2
    · rename_i h1
      obtain ⟨h2, k, h3⟩ := hlow h1 _ _ e2 e1
      have hk : 0 ≤ k := by
        by_contra hk
        have : (step : Int) * k < 0 := by
          apply mul_neg_of_pos_of_neg <;> omega
        omega
      refine ForRun.widen_low hs (lb := f.lb) ?_ k.toNat lb' init o ?_ main
      · intro iv st h4
        rw [if_neg (by simp [h1]), if_neg]
        unfold guardCond
        rw [h1, if_pos rfl]
        split
        · simp; omega
        · simp; omega
      · rw [Int.toNat_of_nonneg hk, mul_comm]; omega
    · injection e2 with e2
      rw [← e2]; exact main
  constructor
  · rintro ⟨s, h1, -, h3⟩
    rw [e1] at h1
    injection h1 with h1
    subst h1
    exact key out h3
  · intro hg
    obtain ⟨o, ho⟩ := ForRun.total (ub := f.ub) (body := f.body) hs _ f.lb init le_rfl
    have := ForRun.det (key o ho) hg
    subst this
    exact ⟨step, e1, hs, ho⟩

/-- Summing the induction variable from a secret 3 to a secret 7 in steps of 2, annotated with 1
and 10: 3 + 5. -/
example : ∃ g, convertFor false (some true) (some true)
      (⟨3, 7, some 2, some 1, some 10, fun iv st => st + iv⟩ : ForOp Int) = .new g ∧
    g.Runs 0 8 ∧ (2 : Int) ∣ 3 - 1 :=
  ⟨_, rfl, .next (by decide) (.next (by decide) (.next (by decide) (.next (by decide) (.next (by decide)
    (.stop (by decide)))))), by decide⟩

/-- C55 is violated when the secret lower bound is off the grid of the annotation: from 1 to 4 in
steps of 2 the loop visits 1 and 3, the static loop from 0 visits 2 only. -/
theorem C55_violated : ∃ (f : ForOp Int) (g : AffineFor Int),
    convertFor false (some true) (some false) f = .new g ∧ f.step = some 2 ∧
    f.lower = some 0 ∧ 0 ≤ f.lb ∧ f.Runs 0 4 ∧ g.Runs 0 2 ∧ ¬ g.Runs 0 4 := by
  have hg : AffineFor.Runs (⟨0, 4, 2, fun iv st => if guardCond true false 1 4 iv then st + iv else st⟩
      : AffineFor Int) 0 2 :=
    .next (by decide) (.next (by decide) (.stop (by decide)))
  refine ⟨⟨1, 4, some 2, some 0, none, fun iv st => st + iv⟩, _, rfl, rfl, rfl, by decide,
    ⟨2, rfl, by decide, .next (by decide) (.next (by decide) (.stop (by decide)))⟩, hg, ?_⟩
  intro h
  exact absurd (ForRun.det hg h) (by decide)

/-- C56: the static loop computes what the while loop computes.

Partial: the loop variables are forwarded unchanged and in order, `C56_violated`. -/
theorem C56_while_partial {α : Type} {lat : Option Secretness} {w : WhileOp α}
    {g : AffineFor (List α)} (h : convertWhile lat w = .new g)
    (hid : ∀ i, i < w.arity → w.fwd[i]? = some (.arg i))
    (hafter : ∀ st, st.length = w.arity → (w.after st).length = w.arity)
    {k : Nat} {init out : List α} (hinit : init.length = w.arity) (hr : WhileRun w k init out)
    (hk : ∀ n, w.maxIter = some n → (k : Int) ≤ n) (r : List α) :
    g.Runs init r ↔ r = out := by
  unfold convertWhile at h
  split at h
  · exact absurd h (by simp)
  split at h
  · exact absurd h (by simp)
  split at h
  · exact absurd h (by simp)
  · exact absurd h (by simp)
  · exact absurd h (by simp)
  split at h
  · exact absurd h (by simp)
  rename_i n hn
  split at h
  · exact absurd h (by simp)
  rename_i hc
  have hlen : w.fwd.length = w.arity := by
    by_contra hne
    exact hc (by simp [hne])
  injection h with h
  subst h
  have key : ∀ (k : Nat) (st : List α), st.length = w.arity → WhileRun w k st out → ∀ iv : Int,
      iv + k ≤ n → ForRun n 1 (fun _ st => if w.cond st then w.after st else st) iv st out := by
    intro k
    induction k with
    | zero =>
      intro st hst hr iv hiv
      cases hr with
      | stop h1 h2 =>
        have := Fwd.forwards_id hlen hid hst h2
        subst this
        have : ∀ (m : Nat) (iv : Int), (n - iv).toNat ≤ m →
            ForRun n 1 (fun _ st => if w.cond st then w.after st else st) iv out out := by
          intro m
          induction m with
          | zero => intro iv h; exact .stop (by omega)
          | succ m ih =>
            intro iv h
            by_cases hlt : iv < n
            · refine .next hlt ?_
              rw [h1]
              exact ih _ (by omega)
            · exact .stop (by omega)
        exact this _ iv le_rfl
    | succ k ih =>
      intro st hst hr iv hiv
      cases hr with
      | next h1 h2 h3 =>
        have := Fwd.forwards_id hlen hid hst h2
        subst this
        refine .next (by omega) ?_
        simp only [h1, if_true]
        exact ih _ (hafter _ hst) h3 _ (by omega)
  have hrun := key k init hinit hr 0 (by have := hk n hn; omega)
  constructor
  · intro h
    exact ForRun.det h hrun
  · rintro rfl
    exact hrun

/-- Doubling until the value exceeds 10: 3, 6, 12, two executions, with five allowed. -/
example : ∃ g, convertWhile (some (some true)) (⟨1, true, fun st => decide (st.sum ≤ 10), [.arg 0],
      fun st => st.map (2 * ·), some 5⟩ : WhileOp Nat) = .new g ∧
    WhileRun (⟨1, true, fun st => decide (st.sum ≤ 10), [.arg 0], fun st => st.map (2 * ·), some 5⟩
      : WhileOp Nat) 2 [3] [12] :=
  ⟨_, rfl, .next (fw := [3]) rfl rfl (.next (fw := [6]) rfl rfl (.stop rfl rfl))⟩

/-- C56 is violated when `scf.condition` forwards the loop variables in another order: the check
meant to exclude this compares two null pointers. -/
theorem C56_violated : ∃ (w : WhileOp Nat) (g : AffineFor (List Nat)),
    convertWhile (some (some true)) w = .new g ∧ w.maxIter = some 2 ∧
    WhileRun w 0 [0, 1] [1, 0] ∧ g.Runs [0, 1] [0, 1] ∧ ¬ g.Runs [0, 1] [1, 0] := by
  have hg : AffineFor.Runs (⟨0, 2, 1, fun _ st => if (st[0]? == some 1) then st else st⟩
      : AffineFor (List Nat)) [0, 1] [0, 1] :=
    .next (by decide) (.next (by decide) (.stop (by decide)))
  refine ⟨⟨2, true, fun st => st[0]? == some 1, [.arg 1, .arg 0], id, some 2⟩, _, rfl, rfl,
    .stop rfl rfl, hg, ?_⟩
  intro h
  exact absurd (ForRun.det hg h) (by decide)

/-- C57: the scan is the extraction at the secret index.

Partial: the extent is in the type and below 2^31, `C57_violated_dynamic`, `C57_violated_large`. -/
theorem C57_extract_partial {α : Type} {s : Secretness} {n : Nat} {t : List α} {index : Nat}
    {sc : Scan (Option α)} (h : convertExtract s [some n] t index = .new sc)
    (ht : HasShape t (some n)) (hn : n < 2147483648) (hi : index < t.length) (r : Option α) :
    sc.loop.Runs sc.init r ↔ r = some t[index] := by
  unfold convertExtract at h
  simp only at h
  split at h
  · exact absurd h (by simp)
  injection h with h
  subst h
  simp only [HasShape] at ht
  simp only [shapeFront, toInt32_small hn]
  have key : ∀ (m k : Nat) (x : α), n - k ≤ m → (index < k → x = t[index]) →
      (n ≤ k → x = t[index]) →
      ForRun (n : Int) 1 (fun iv acc => acc.bind fun old => (t[iv.toNat]?).bind fun new =>
        if iv = (index : Int) then some new else some old) k (some x) (some t[index]) := by
    intro m
    induction m with
    | zero =>
      intro k x hm h1 h2
      rw [h2 (by omega)]
      exact .stop (by omega)
    | succ m ih =>
      intro k x hm h1 h2
      by_cases hk : k < n
      · refine .next (by omega) ?_
        have e1 : t[(k : Int).toNat]? = some (t[k]'(by omega)) := by
          simp [List.getElem?_eq_getElem (show k < t.length by omega)]
        simp only [Option.bind_some, e1]
        have e2 : ((k : Int) + (1 : Nat)) = ((k + 1 : Nat) : Int) := by push_cast; rfl
        rw [e2]
        by_cases hki : k = index
        · subst hki
          rw [if_pos rfl]
          exact ih (k + 1) _ (by omega) (fun _ => rfl) (fun _ => rfl)
        · rw [if_neg (by omega)]
          exact ih (k + 1) _ (by omega) (fun h => h1 (by omega)) (fun h => h1 (by omega))
      · rw [h2 (by omega)]
        exact .stop (by omega)
  have e0 : t[0]? = some (t[0]'(by omega)) := List.getElem?_eq_getElem (by omega)
  have hrun := key n 0 (t[0]'(by omega)) (by omega) (by omega) (by omega)
  rw [← e0] at hrun
  constructor
  · intro h
    exact ForRun.det h hrun
  · rintro rfl
    exact hrun

example : ∃ sc, convertExtract (some true) [some 3] [5, 6, 7] 2 = .new sc ∧
    sc.loop.Runs sc.init (some 7) :=
  ⟨_, rfl, .next (by decide) (.next (by decide) (.next (by decide) (.stop (by decide))))⟩

/-- C57: the scan is the insertion at the secret index.

Partial: the extent is in the type and below 2^31. -/
theorem C57_insert_partial {α : Type} {s : Secretness} {n : Nat} {t : List α} {x : α} {index : Nat}
    {sc : Scan (Option (List α))} (h : convertInsert s [some n] t x index = .new sc)
    (ht : HasShape t (some n)) (hn : n < 2147483648) (hi : index < t.length)
    (r : Option (List α)) :
    sc.loop.Runs sc.init r ↔ r = some (t.take index ++ x :: t.drop (index + 1)) := by
  unfold convertInsert at h
  simp only at h
  split at h
  · exact absurd h (by simp)
  injection h with h
  subst h
  simp only [HasShape] at ht
  simp only [shapeFront, toInt32_small hn]
  have eset : t.take index ++ x :: t.drop (index + 1) = t.set index x := by
    rw [List.set_eq_take_append_cons_drop, if_pos hi]
  rw [eset]
  have key : ∀ (m k : Nat), n - k ≤ m → k ≤ n →
      ForRun (n : Int) 1 (fun iv acc => acc.bind fun old => (insertAt old iv.toNat x).bind fun new =>
        if iv = (index : Int) then some new else some old) k
        (some (if index < k then t.set index x else t)) (some (t.set index x)) := by
    intro m
    induction m with
    | zero =>
      intro k hm hk
      rw [if_pos (by omega)]
      exact .stop (by omega)
    | succ m ih =>
      intro k hm hk
      by_cases hk : k < n
      · refine .next (by omega) ?_
        have e1 : insertAt (if index < k then t.set index x else t) (k : Int).toNat x =
            some ((if index < k then t.set index x else t).set k x) := by
          unfold insertAt
          rw [if_pos (by split <;> simp <;> omega), Int.toNat_natCast]
        simp only [Option.bind_some, e1]
        have e2 : ((k : Int) + (1 : Nat)) = ((k + 1 : Nat) : Int) := by push_cast; rfl
        rw [e2]
        have := ih (k + 1) (by omega) (by omega)
        by_cases hki : k = index
        · subst hki
          rw [if_pos rfl, if_neg (by omega)]
          rwa [if_pos (by omega)] at this
        · rw [if_neg (by omega)]
          by_cases hlt : index < k
          · rw [if_pos hlt]
            rwa [if_pos (by omega)] at this
          · rw [if_neg hlt]
            rwa [if_neg (by omega)] at this
      · rw [if_pos (by omega)]
        exact .stop (by omega)
  have hrun := key n 0 (by omega) (by omega)
  rw [if_neg (by omega)] at hrun
  constructor
  · intro h
    exact ForRun.det h hrun
  · rintro rfl
    exact hrun

example : ∃ sc, convertInsert none [some 3] [5, 6, 7] 9 1 = .new sc ∧
    sc.loop.Runs sc.init (some [5, 9, 7]) :=
  ⟨_, rfl, .next (by decide) (.next (by decide) (.next (by decide) (.stop (by decide))))⟩

/-- C57 is violated for tensors of dynamic size: the extent `kDynamic`, narrowed to `int`, is 0, so
the scan yields element 0 and the insertion is lost. -/
theorem C57_violated_dynamic :
    (∃ sc : Scan (Option Nat), convertExtract (some true) [none] [5, 6, 7] 2 = .new sc ∧
      sc.loop.Runs sc.init (some 5) ∧ ¬ sc.loop.Runs sc.init (some 7)) ∧
    (∃ sc : Scan (Option (List Nat)), convertInsert (some true) [none] [5, 6, 7] 9 1 = .new sc ∧
      sc.loop.Runs sc.init (some [5, 6, 7]) ∧ ¬ sc.loop.Runs sc.init (some [5, 9, 7])) := by
  refine ⟨⟨_, rfl, .stop (by decide), ?_⟩, ⟨_, rfl, .stop (by decide), ?_⟩⟩
  · intro h
    exact absurd (ForRun.det (.stop (by decide)) h) (by decide)
  · intro h
    exact absurd (ForRun.det (.stop (by decide)) h) (by decide)

/-- C57: accesses to tensors with more or fewer than one dimension, and with public indices, are left
alone. -/
theorem C57_only_secret_vectors {α : Type} {s : Secretness} {shape : List (Option Nat)} {t : List α}
    {index : Int} :
    ((∃ sc, convertExtract s shape t index = .new sc) ↔ shape.length = 1 ∧ s ≠ some false) ∧
    ∀ x, (∃ sc, convertInsert s shape t x index = .new sc) ↔ shape.length = 1 ∧ s ≠ some false := by
  have aux : ∀ d : Option Nat, (∀ o : Out (Scan (Option α)), o = convertExtract s [d] t index →
      ((∃ sc, o = .new sc) ↔ s ≠ some false)) ∧
      ∀ x, (∃ sc, convertInsert s [d] t x index = .new sc) ↔ s ≠ some false := by
    intro d
    refine ⟨?_, fun x => ?_⟩
    · rintro o rfl
      unfold convertExtract
      by_cases h : s = some false <;> simp [h]
    · unfold convertInsert
      by_cases h : s = some false <;> simp [h]
  match shape with
  | [] => simp [convertExtract, convertInsert]
  | [d] =>
    refine ⟨by simpa using (aux d).1 _ rfl, fun x => by simpa using (aux d).2 x⟩
  | _ :: _ :: _ => simp [convertExtract, convertInsert]

/-- C57 is violated for tensors of 2^31 or more elements: the trip count is computed in `int`. -/
theorem C57_violated_large {t : List Nat} (ht : HasShape t (some 2147483648)) {index : Nat}
    (hi : index < t.length) (hne : t[0]? ≠ some t[index]) :
    ∃ sc : Scan (Option Nat), convertExtract (some true) [some 2147483648] t index = .new sc ∧
      ¬ sc.loop.Runs sc.init (some t[index]) := by
  refine ⟨_, rfl, ?_⟩
  intro h
  have hle : toInt32 (shapeFront (some 2147483648)) ≤ 0 := by decide
  exact hne (ForRun.det (.stop hle) h)

/-- Such tensors exist. -/
example : ∃ (t : List Nat) (h : 1 < t.length), HasShape t (some 2147483648) ∧ t[0]? ≠ some t[1] := by
  obtain ⟨k, hk⟩ : ∃ k, k + 2 = 2147483648 := ⟨2147483646, rfl⟩
  refine ⟨0 :: 1 :: List.replicate k 0, by simp, ?_, by simp⟩
  rw [← hk]
  simp [HasShape]

end Heir.Static
