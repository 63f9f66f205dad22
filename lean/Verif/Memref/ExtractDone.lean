import Verif.Memref.ExtractLemmas

/-!
# When the body of a loop is extracted

Bodies of the intended form: loads and what computes their indices, then a computation, then one
store.
-/

namespace Heir.Memref.Extract

def IsLoad : Op → Prop
  | .load _ _ _ => True
  | _ => False

def IsStore : Op → Prop
  | .store _ _ _ => True
  | _ => False

/-- A value is an operand of an operation with a property, or something computed from it without a
load is. -/
inductive Feeds (P : Op → Prop) (body : List Op) : Nat → Prop where
  | here {o : Op} {r : Nat} : o ∈ body → r ∈ o.args → P o → Feeds P body r
  | step {o : Op} {r x : Nat} : o ∈ body → r ∈ o.args → ¬ IsLoad o → o.res = some x →
      Feeds P body x → Feeds P body r

theorem Feeds.mono {P : Op → Prop} {b b' : List Op} (h : ∀ o ∈ b, o ∈ b') {r : Nat}
    (hf : Feeds P b r) : Feeds P b' r := by
  induction hf with
  | here h1 h2 h3 => exact .here (h _ h1) h2 h3
  | step h1 h2 h3 h4 _ ih => exact .step (h _ h1) h2 h3 h4 ih

theorem Feeds.cons {P : Op → Prop} {sc : List Nat} {o : Op} {os : List Op}
    (hw : wf sc (o :: os)) {r : Nat} (hf : Feeds P (o :: os) r) :
    (r ∈ o.args ∧ (P o ∨ ¬ IsLoad o ∧ ∃ x, o.res = some x ∧ Feeds P os x)) ∨ Feeds P os r := by
  induction hf with
  | here h1 h2 h3 =>
    rcases List.mem_cons.1 h1 with rfl | h1
    · exact .inl ⟨h2, .inl h3⟩
    · exact .inr (.here h1 h2 h3)
  | @step o' r x h1 h2 h3 h4 _ ih =>
    obtain ⟨hu, hd, hw'⟩ := hw
    have hx : x ∉ o.args := by
      intro hx
      rcases List.mem_cons.1 h1 with rfl | h1
      · exact hd x h4 (hu x hx)
      · exact wf_fresh hw' (List.mem_append_right _ (hu x hx)) _ h1 h4
    have ih' : Feeds P os x := ih.resolve_left fun h => hx h.1
    rcases List.mem_cons.1 h1 with rfl | h1
    · exact .inl ⟨h2, .inr ⟨h3, x, h4, ih'⟩⟩
    · exact .inr (.step h1 h2 h3 h4 ih')

/-- The search of the code finds exactly what feeds a load. -/
theorem reachesLoad_iff : ∀ {os : List Op} {sc S : List Nat}, wf sc os →
    (reachesLoad S os = true ↔ ∃ s ∈ S, Feeds IsLoad os s)
  | [], sc, S, _ => by
    simp only [reachesLoad, Bool.false_eq_true, false_iff, not_exists, not_and]
    intro s _ h
    cases h with
    | here h => simp at h
    | step h => simp at h
  | o :: os, sc, S, hw => by
    have hw' := hw.2.2
    have key : (∃ s ∈ S, Feeds IsLoad (o :: os) s) ↔
        (o.args.any (S.contains ·) = true ∧
          (IsLoad o ∨ ¬ IsLoad o ∧ ∃ x, o.res = some x ∧ Feeds IsLoad os x)) ∨
        ∃ s ∈ S, Feeds IsLoad os s := by
      constructor
      · rintro ⟨s, hs, h⟩
        rcases h.cons hw with ⟨h1, h2⟩ | h
        · exact .inl ⟨by simpa using ⟨s, h1, hs⟩, h2⟩
        · exact .inr ⟨s, hs, h⟩
      · rintro (⟨h1, h2⟩ | ⟨s, hs, h⟩)
        · obtain ⟨s, h1, hs⟩ : ∃ s ∈ o.args, s ∈ S := by simpa using h1
          refine ⟨s, hs, ?_⟩
          rcases h2 with h2 | ⟨h2, x, h3, h4⟩
          · exact .here (by simp) h1 h2
          · exact .step (by simp) h1 h2 h3 (h4.mono fun _ => List.mem_cons_of_mem _)
        · exact ⟨s, hs, h.mono fun _ => List.mem_cons_of_mem _⟩
    rw [key]
    simp only [reachesLoad]
    by_cases hany : o.args.any (S.contains ·) = true
    · rw [if_pos hany]
      cases o with
      | load f r as => exact iff_of_true rfl (.inl ⟨hany, .inl trivial⟩)
      | store f v as => simp [IsLoad, reachesLoad_iff hw', Op.res]
      | op f r as =>
        simp only [reachesLoad_iff hw', hany, IsLoad, Op.res]
        simp
      | call r as =>
        simp only [reachesLoad_iff hw', hany, IsLoad, Op.res]
        simp
    · rw [if_neg hany, reachesLoad_iff hw']
      exact ⟨.inr, fun h => h.resolve_left fun h => hany h.1⟩

theorem reachesStore_iff : ∀ {os : List Op} {sc S : List Nat}, wf sc os →
    (reachesStore S os = true ↔ ∃ s ∈ S, Feeds IsStore os s)
  | [], sc, S, _ => by
    simp only [reachesStore, Bool.false_eq_true, false_iff, not_exists, not_and]
    intro s _ h
    cases h with
    | here h => simp at h
    | step h => simp at h
  | o :: os, sc, S, hw => by
    have hw' := hw.2.2
    have key : (∃ s ∈ S, Feeds IsStore (o :: os) s) ↔
        (o.args.any (S.contains ·) = true ∧
          (IsStore o ∨ ¬ IsLoad o ∧ ∃ x, o.res = some x ∧ Feeds IsStore os x)) ∨
        ∃ s ∈ S, Feeds IsStore os s := by
      constructor
      · rintro ⟨s, hs, h⟩
        rcases h.cons hw with ⟨h1, h2⟩ | h
        · exact .inl ⟨by simpa using ⟨s, h1, hs⟩, h2⟩
        · exact .inr ⟨s, hs, h⟩
      · rintro (⟨h1, h2⟩ | ⟨s, hs, h⟩)
        · obtain ⟨s, h1, hs⟩ : ∃ s ∈ o.args, s ∈ S := by simpa using h1
          refine ⟨s, hs, ?_⟩
          rcases h2 with h2 | ⟨h2, x, h3, h4⟩
          · exact .here (by simp) h1 h2
          · exact .step (by simp) h1 h2 h3 (h4.mono fun _ => List.mem_cons_of_mem _)
        · exact ⟨s, hs, h.mono fun _ => List.mem_cons_of_mem _⟩
    rw [key]
    simp only [reachesStore]
    by_cases hany : o.args.any (S.contains ·) = true
    · rw [if_pos hany]
      cases o with
      | load f r as => simp [IsLoad, IsStore, reachesStore_iff hw']
      | store f v as => exact iff_of_true rfl (.inl ⟨hany, .inl trivial⟩)
      | op f r as =>
        simp only [reachesStore_iff hw', hany, IsLoad, IsStore, Op.res]
        simp
      | call r as =>
        simp only [reachesStore_iff hw', hany, IsLoad, IsStore, Op.res]
        simp
    · rw [if_neg hany, reachesStore_iff hw']
      exact ⟨.inr, fun h => h.resolve_left fun h => hany h.1⟩

/-- Loads and the computation of their indices `A`, a computation `B` from loaded values and
constants, and a store of the last result of `B`.  What computes indices is used for nothing
else. -/
structure Shape (L : Loop) (A B : List Op) (f v : Nat) (args : List Nat) : Prop where
  body : L.body = A ++ B ++ [.store f v args]
  loads : ∀ o ∈ A, IsLoad o ∨ ∃ g r as, o = .op g r as ∧ Feeds IsLoad A r ∧
    ∀ o' ∈ B ++ [.store f v args], r ∉ o'.args
  input : ∃ o ∈ A, IsLoad o
  comp : ∀ o ∈ B, ∃ g r as, o = .op g r as ∧
    ∀ x ∈ as, x ∈ L.consts.map (·.1) ∨ ∃ o' ∈ A ++ B, o'.res = some x
  last : ∃ g as, B.getLast? = some (.op g v as)
  index : ∀ x ∈ args, ∀ o ∈ B, o.res ≠ some x

theorem toCopy_none {b : List Op} : ∀ {xs : List Op},
    (∀ g r as, Op.op g r as ∈ xs → reachesLoad [r] b = true ∧ reachesStore [r] b = false) →
    toCopy b xs = []
  | [], _ => rfl
  | .op g r as :: xs, h => by
    obtain ⟨h1, h2⟩ := h g r as (by simp)
    rw [toCopy, h1, h2]
    exact toCopy_none fun g r as hm => h g r as (by simp [hm])
  | .load _ _ _ :: xs, h => by
    rw [toCopy]
    exact toCopy_none fun g r as hm => h g r as (by simp [hm])
    all_goals simp
  | .store _ _ _ :: xs, h => by
    rw [toCopy]
    exact toCopy_none fun g r as hm => h g r as (by simp [hm])
    all_goals simp
  | .call _ _ :: xs, h => by
    rw [toCopy]
    exact toCopy_none fun g r as hm => h g r as (by simp [hm])
    all_goals simp

theorem toCopy_all {b : List Op} : ∀ {xs : List Op},
    (∀ o ∈ xs, ∃ g r as, o = Op.op g r as ∧ reachesLoad [r] b = false) → toCopy b xs = xs
  | [], _ => rfl
  | o :: xs, h => by
    obtain ⟨g, r, as, rfl, h1⟩ := h o (by simp)
    rw [toCopy, h1]
    simp only [Bool.false_and, Bool.false_eq_true, if_false]
    rw [toCopy_all fun o hm => h o (by simp [hm])]

theorem inputs_append : ∀ xs ys : List Op, inputs (xs ++ ys) = inputs xs ++ inputs ys
  | [], _ => rfl
  | .op _ _ _ :: xs, ys => inputs_append xs ys
  | .load _ r _ :: xs, ys => congrArg (r :: ·) (inputs_append xs ys)
  | .store _ _ _ :: xs, ys => inputs_append xs ys
  | .call _ _ :: xs, ys => inputs_append xs ys

theorem results_append : ∀ xs ys : List Op, results (xs ++ ys) = results xs ++ results ys
  | [], _ => rfl
  | .op _ _ _ :: xs, ys => results_append xs ys
  | .load _ _ _ :: xs, ys => results_append xs ys
  | .store _ v _ :: xs, ys => congrArg (v :: ·) (results_append xs ys)
  | .call _ _ :: xs, ys => results_append xs ys

theorem inputs_none : ∀ {xs : List Op}, (∀ o ∈ xs, ¬ IsLoad o) → inputs xs = []
  | [], _ => rfl
  | .op _ _ _ :: xs, h => inputs_none (xs := xs) fun o ho => h o (by simp [ho])
  | .load f r as :: xs, h => absurd trivial (h (.load f r as) (List.mem_cons_self ..))
  | .store _ _ _ :: xs, h => inputs_none (xs := xs) fun o ho => h o (by simp [ho])
  | .call _ _ :: xs, h => inputs_none (xs := xs) fun o ho => h o (by simp [ho])

theorem results_none : ∀ {xs : List Op}, (∀ o ∈ xs, ¬ IsStore o) → results xs = []
  | [], _ => rfl
  | .op _ _ _ :: xs, h => results_none (xs := xs) fun o ho => h o (by simp [ho])
  | .store f r as :: xs, h => absurd trivial (h (.store f r as) (List.mem_cons_self ..))
  | .load _ _ _ :: xs, h => results_none (xs := xs) fun o ho => h o (by simp [ho])
  | .call _ _ :: xs, h => results_none (xs := xs) fun o ho => h o (by simp [ho])

theorem inputs_iff {xs : List Op} {x : Nat} : x ∈ inputs xs ↔ ∃ f as, Op.load f x as ∈ xs := by
  induction xs with
  | nil => simp [inputs]
  | cons o xs ih =>
    cases o with
    | load f r as =>
      simp only [inputs, List.mem_cons, ih, Op.load.injEq]
      constructor
      · rintro (rfl | ⟨f', as', h⟩)
        · exact ⟨f, as, .inl ⟨rfl, rfl, rfl⟩⟩
        · exact ⟨f', as', .inr h⟩
      · rintro ⟨f', as', h | h⟩
        · exact .inl h.2.1
        · exact .inr ⟨f', as', h⟩
    | _ => simp [inputs, ih]

theorem wf_consts {inp : List Nat} : ∀ {cs : List (Nat × Nat)}, (cs.map (·.1)).Nodup →
    (∀ c ∈ cs, c.1 ∉ inp) → wf inp (cs.map fun c => Op.op c.2 c.1 [])
  | [], _, _ => trivial
  | c :: cs, hn, hi => by
    simp only [List.map_cons, List.nodup_cons] at hn
    refine ⟨by simp [Op.args], ?_, ?_⟩
    · intro r hr
      simp only [Op.res, Option.some.injEq] at hr
      subst hr
      exact hi c (by simp)
    · refine wf_consts hn.2 fun d hd => ?_
      simp only [Op.res, Option.toList_some, List.cons_append, List.nil_append, List.mem_cons, not_or]
      refine ⟨?_, hi d (by simp [hd])⟩
      rintro h
      exact hn.1 (h ▸ List.mem_map_of_mem hd)

/-- What remains well formed when the scope changes. -/
theorem wf_change {P : Nat → Prop} : ∀ {os : List Op} {sc sc' : List Nat}, wf sc os →
    (∀ o ∈ os, ∀ x ∈ o.args, P x) → (∀ x, P x → x ∈ sc → x ∈ sc') →
    (∀ x ∈ sc', x ∉ sc → ∀ o ∈ os, o.res ≠ some x) → wf sc' os
  | [], _, _, _, _, _, _ => trivial
  | o :: os, sc, sc', hw, hP, h1, h2 => by
    obtain ⟨hu, hd, hw'⟩ := hw
    refine ⟨fun x hx => h1 x (hP o (by simp) x hx) (hu x hx), fun r hr hm => ?_, ?_⟩
    · by_cases hs : r ∈ sc
      · exact hd r hr hs
      · exact h2 r hm hs o (by simp) hr
    · refine wf_change hw' (fun o' ho' => hP o' (by simp [ho'])) (fun x hx hm => ?_)
        (fun x hm hs o' ho' => ?_)
      · rcases List.mem_append.1 hm with h | h
        · exact List.mem_append_left _ h
        · exact List.mem_append_right _ (h1 x hx h)
      · rcases List.mem_append.1 hm with h | h
        · exact absurd (List.mem_append_left _ h) hs
        · exact h2 x h (fun hsc => hs (List.mem_append_right _ hsc)) o' (by simp [ho'])

section
variable {L : Loop} {A B : List Op} {f v : Nat} {args : List Nat}

theorem Shape.ops (h : Shape L A B f v args) : ∀ o ∈ B, ¬ IsLoad o ∧ ¬ IsStore o := by
  intro o ho
  obtain ⟨g, r, as, rfl, -⟩ := h.comp o ho
  exact ⟨fun h => h, fun h => h⟩

/-- A value defined in `B` is not used in `A`, and is not defined in `A`. -/
theorem Shape.apart (h : Shape L A B f v args) (hL : L.wf) {o : Op} (ho : o ∈ B) {r : Nat}
    (hr : o.res = some r) : r ∉ scope L.scope A := by
  unfold Loop.wf at hL
  rw [h.body, List.append_assoc, wf_append, wf_append] at hL
  intro hm
  exact wf_fresh hL.2.1 hm o ho hr

theorem Shape.argsA (h : Shape L A B f v args) (hL : L.wf) {o : Op} (ho : o ∈ A) {x : Nat}
    (hx : x ∈ o.args) : x ∈ scope L.scope A := by
  unfold Loop.wf at hL
  rw [h.body, List.append_assoc, wf_append] at hL
  exact wf_args hL.1 o ho x hx

theorem Shape.copied (h : Shape L A B f v args) (hL : L.wf) : toCopy L.body L.body = B := by
  have hAll := hL
  unfold Loop.wf at hAll
  have e : toCopy L.body (A ++ B ++ [.store f v args]) = B := by
    rw [toCopy_append, toCopy_append, toCopy_none (xs := A), toCopy_all (xs := B)]
    · simp [toCopy]
    · intro o ho
      obtain ⟨g, r, as, rfl, -⟩ := h.comp o ho
      refine ⟨g, r, as, rfl, ?_⟩
      rw [Bool.eq_false_iff, ne_eq, reachesLoad_iff hAll]
      rintro ⟨s, hs, hf⟩
      obtain rfl : s = r := by simpa using hs
      have gen : ∀ x, Feeds IsLoad L.body x → x ∈ scope L.scope A := by
        intro x hx
        induction hx with
        | @here o x h1 h2 h3 =>
          rw [h.body, List.append_assoc] at h1
          rcases List.mem_append.1 h1 with h1 | h1
          · exact h.argsA hL h1 h2
          · rcases List.mem_append.1 h1 with h1 | h1
            · exact absurd h3 (h.ops o h1).1
            · obtain rfl : o = _ := by simpa using h1
              exact absurd h3 (fun h => h)
        | @step o x y h1 h2 h3 h4 _ ih =>
          rw [h.body, List.append_assoc] at h1
          rcases List.mem_append.1 h1 with h1 | h1
          · exact h.argsA hL h1 h2
          · rcases List.mem_append.1 h1 with h1 | h1
            · exact absurd ih (h.apart hL h1 h4)
            · obtain rfl : o = _ := by simpa using h1
              simp [Op.res] at h4
      exact h.apart hL ho rfl (gen _ hf)
    · intro g r as hm
      have hlo := h.loads _ hm
      rcases hlo with hlo | ⟨g', r', as', he, hfe, hno⟩
      · exact absurd hlo (fun h => h)
      · simp only [Op.op.injEq] at he
        obtain ⟨rfl, rfl, rfl⟩ := he
        refine ⟨(reachesLoad_iff hAll).2 ⟨r, by simp, hfe.mono fun o ho => ?_⟩, ?_⟩
        · rw [h.body]
          simp [ho]
        · rw [Bool.eq_false_iff, ne_eq, reachesStore_iff hAll]
          rintro ⟨s, hs, hf⟩
          obtain rfl : s = r := by simpa using hs
          have gen : ∀ x, Feeds IsStore L.body x →
              ∃ o ∈ B ++ [.store f v args], x ∈ o.args := by
            intro x hx
            induction hx with
            | @here o x h1 h2 h3 =>
              rw [h.body, List.append_assoc] at h1
              rcases List.mem_append.1 h1 with h1 | h1
              · rcases h.loads o h1 with hl | ⟨_, _, _, rfl, -⟩
                · cases o <;> simp [IsLoad, IsStore] at hl h3
                · exact absurd h3 (fun h => h)
              · exact ⟨o, h1, h2⟩
            | @step o x y h1 h2 h3 h4 _ ih =>
              rw [h.body, List.append_assoc] at h1
              rcases List.mem_append.1 h1 with h1 | h1
              · rcases h.loads o h1 with hl | ⟨g', r', as', rfl, -, hno⟩
                · exact absurd hl h3
                · simp only [Op.res, Option.some.injEq] at h4
                  subst h4
                  obtain ⟨o', ho', hx'⟩ := ih
                  exact absurd hx' (hno o' ho')
              · exact ⟨o, h1, h2⟩
          obtain ⟨o', ho', hx'⟩ := gen _ hf
          exact hno o' ho' hx'
  rw [← h.body] at e
  exact e

theorem Shape.constsScope (_ : Shape L A B f v args) {x : Nat} (hx : x ∈ L.consts.map (·.1)) :
    x ∈ L.scope := by
  unfold Loop.scope
  simp only [List.mem_append]
  exact .inl (.inr hx)

/-- The induction variables are other values than the constants. -/
theorem Shape.noIvs (h : Shape L A B f v args) (hL : L.wf)
    (hiv : ∀ x ∈ L.ivs, x ∉ L.consts.map (·.1)) :
    (B.any fun o => o.args.any (L.ivs.contains ·)) = false := by
  rw [Bool.eq_false_iff]
  intro hc
  obtain ⟨o, ho, hx⟩ := List.any_eq_true.1 hc
  obtain ⟨x, hx, hm⟩ := List.any_eq_true.1 hx
  have hm : x ∈ L.ivs := by simpa using hm
  obtain ⟨g, r, as, rfl, hargs⟩ := h.comp o ho
  have hsc : x ∈ L.scope := by unfold Loop.scope; simp [hm]
  rcases hargs x hx with h1 | ⟨o', h1, h2⟩
  · exact hiv x hm h1
  · unfold Loop.wf at hL
    refine wf_fresh hL hsc o' ?_ h2
    rw [h.body]
    exact List.mem_append_left _ h1

/-- The loop is extracted: what computes indices and the loads stay, the computation goes into the
function. -/
theorem extract_done (h : Shape L A B f v args) (hL : L.wf)
    (hiv : ∀ x ∈ L.ivs, x ∉ L.consts.map (·.1)) {c : Nat} (hc : c ∉ scope L.scope L.body) :
    extract L c = .ok (⟨inputs A, constOps L B ++ B, v⟩,
      A ++ [Op.call c (inputs A), Op.store f c args]) := by
  obtain ⟨g, as, hlast⟩ := h.last
  obtain ⟨B', hB⟩ : ∃ B', B = B' ++ [.op g v as] := by
    refine ⟨B.dropLast, ?_⟩
    rw [List.getLast?_eq_some_iff] at hlast
    obtain ⟨ys, rfl⟩ := hlast
    simp
  have hvB : Op.op g v as ∈ B := by rw [hB]; simp
  have hvA : v ∉ scope L.scope A := h.apart hL hvB rfl
  have hin : inputs L.body = inputs A := by
    rw [h.body, List.append_assoc, inputs_append, inputs_none (xs := B ++ _), List.append_nil]
    intro o ho
    rcases List.mem_append.1 ho with ho | ho
    · exact (h.ops o ho).1
    · obtain rfl : o = _ := by simpa using ho
      exact fun h => h
  have hres : results L.body = [v] := by
    rw [h.body, results_append, results_none (xs := A ++ B)]
    · simp [results]
    · intro o ho
      rcases List.mem_append.1 ho with ho | ho
      · rcases h.loads o ho with hl | ⟨_, _, _, rfl, -⟩
        · cases o <;> simp [IsLoad, IsStore] at hl ⊢
        · exact fun h => h
      · exact (h.ops o ho).2
  obtain ⟨i, is, hi⟩ : ∃ i is, inputs A = i :: is := by
    obtain ⟨o, ho, hl⟩ := h.input
    cases o with
    | load f' r' as' =>
      have : r' ∈ inputs A := inputs_iff.2 ⟨f', as', ho⟩
      cases hA : inputs A with
      | nil => rw [hA] at this; simp at this
      | cons i is => exact ⟨i, is, rfl⟩
    | _ => exact absurd hl (fun h => h)
  have hinA : ∀ x ∈ inputs A, x ∈ scope L.scope A := by
    intro x hx
    obtain ⟨f', as', hm⟩ := inputs_iff.1 hx
    exact (scope_mem _ _).2 (.inr ⟨_, hm, rfl⟩)
  have hwB : wf (scope L.scope A) B := by
    have := hL
    unfold Loop.wf at this
    rw [h.body, List.append_assoc, wf_append, wf_append] at this
    exact this.2.1
  have hwB' : v ∉ scope (scope L.scope A) B' := by
    rw [hB, wf_append] at hwB
    exact hwB.2.2.1 v rfl
  have hpre : ∀ o ∈ A ++ B', o.res ≠ some v := by
    intro o ho hr
    refine hwB' ((scope_mem _ _).2 ?_)
    rcases List.mem_append.1 ho with ho | ho
    · exact .inl ((scope_mem _ _).2 (.inr ⟨o, ho, hr⟩))
    · exact .inr ⟨o, ho, hr⟩
  -- the body with the call
  have hbody : (insertCall v c (inputs A) L.body).map (Op.rename v c) =
      A ++ B.map (Op.rename v c) ++ [Op.call c (inputs A), Op.store f c args] := by
    have hsp : L.body = (A ++ B') ++ Op.op g v as :: [.store f v args] := by
      rw [h.body, hB]; simp
    rw [hsp, insertCall_split (by rfl) hpre]
    have hA : A.map (Op.rename v c) = A := by
      conv_rhs => rw [← List.map_id A]
      exact List.map_congr_left fun o ho => rename_id fun hv => hvA (h.argsA hL ho hv)
    have hI : (inputs A).map (ren v c) = inputs A := by
      conv_rhs => rw [← List.map_id (inputs A)]
      refine List.map_congr_left fun x hx => ?_
      rw [ren, if_neg (by rintro rfl; exact hvA (hinA _ hx)), id]
    have hS : args.map (ren v c) = args := by
      conv_rhs => rw [← List.map_id args]
      refine List.map_congr_left fun x hx => ?_
      rw [ren, if_neg (by rintro rfl; exact h.index _ hx _ hvB rfl), id]
    simp only [List.map_append, List.map_cons, List.map_nil, hA, hB, Op.rename, hI, hS]
    simp [ren]
  have hcA : ∀ o ∈ A, ∀ o' ∈ B, ∀ r, o'.res = some r → o.res ≠ some r := by
    intro o ho o' ho' r hr hr'
    exact h.apart hL ho' hr ((scope_mem _ _).2 (.inr ⟨o, ho, hr'⟩))
  have rename_res : ∀ o : Op, (o.rename v c).res = o.res := by
    intro o; cases o <;> rfl
  have hcargs : ∀ o ∈ L.body, c ∉ o.args := fun o ho hx => hc (wf_args hL o ho c hx)
  -- nothing in the new body leads from the computation to a load
  have hreach : ∀ o ∈ B, ∀ r, o.res = some r →
      reachesLoad [r] (A ++ B.map (Op.rename v c) ++ [Op.call c (inputs A), Op.store f c args]) =
        false := by
    intro o ho r hr
    rw [Bool.eq_false_iff]
    have gen : ∀ {S : List Nat} {os : List Op}, reachesLoad S os = true →
        ∃ s ∈ S, Feeds IsLoad os s := by
      intro S os
      induction os generalizing S with
      | nil => simp [reachesLoad]
      | cons o os ih =>
        simp only [reachesLoad]
        have lift : (∃ s ∈ S, Feeds IsLoad os s) → ∃ s ∈ S, Feeds IsLoad (o :: os) s := by
          rintro ⟨s, hs, hf⟩
          exact ⟨s, hs, hf.mono fun _ => List.mem_cons_of_mem _⟩
        split
        next hany =>
          obtain ⟨s, h1, hs⟩ : ∃ s ∈ o.args, s ∈ S := by simpa using hany
          have more : ∀ x, o.res = some x → ¬ IsLoad o → reachesLoad (x :: S) os = true →
              ∃ s ∈ S, Feeds IsLoad (o :: os) s := by
            intro x hx hl hr
            obtain ⟨s', hs', hf⟩ := ih hr
            rcases List.mem_cons.1 hs' with rfl | hs'
            · exact ⟨s, hs, .step (by simp) h1 hl hx (hf.mono fun _ => List.mem_cons_of_mem _)⟩
            · exact lift ⟨s', hs', hf⟩
          cases o with
          | load f' r' as' => exact fun _ => ⟨s, hs, .here (by simp) h1 trivial⟩
          | store f' v' as' => exact fun hr => lift (ih hr)
          | op f' r' as' => exact more r' rfl (fun h => h)
          | call r' as' => exact more r' rfl (fun h => h)
        next => exact fun hr => lift (ih hr)
    intro hre
    obtain ⟨s, hs, hf⟩ := gen hre
    obtain rfl : s = r := by simpa using hs
    have all : ∀ x, Feeds IsLoad
        (A ++ B.map (Op.rename v c) ++ [Op.call c (inputs A), Op.store f c args]) x →
        x ∈ scope L.scope A ∨ x = c := by
      intro x hx
      induction hx with
      | @here o x h1 h2 h3 =>
        rw [List.append_assoc] at h1
        rcases List.mem_append.1 h1 with h1 | h1
        · exact .inl (h.argsA hL h1 h2)
        · rcases List.mem_append.1 h1 with h1 | h1
          · obtain ⟨o', ho', rfl⟩ := List.mem_map.1 h1
            obtain ⟨g', r', as', rfl, -⟩ := h.comp o' ho'
            exact absurd h3 (fun h => h)
          · simp only [List.mem_cons, List.not_mem_nil, or_false] at h1
            rcases h1 with rfl | rfl <;> exact absurd h3 (fun h => h)
      | @step o x y h1 h2 h3 h4 _ ih =>
        rw [List.append_assoc] at h1
        rcases List.mem_append.1 h1 with h1 | h1
        · exact .inl (h.argsA hL h1 h2)
        · rcases List.mem_append.1 h1 with h1 | h1
          · obtain ⟨o', ho', rfl⟩ := List.mem_map.1 h1
            rw [rename_res] at h4
            rcases ih with ih | rfl
            · exact absurd ih (h.apart hL ho' h4)
            · refine absurd ((scope_mem _ _).2 (.inr ⟨o', ?_, h4⟩)) hc
              rw [h.body]; simp [ho']
          · simp only [List.mem_cons, List.not_mem_nil, or_false] at h1
            rcases h1 with rfl | rfl
            · exact .inl (hinA x h2)
            · simp [Op.res] at h4
    rcases all _ hf with h1 | rfl
    · exact h.apart hL ho hr h1
    · refine absurd ((scope_mem _ _).2 (.inr ⟨o, ?_, hr⟩)) hc
      rw [h.body]; simp [ho]
  have herB : ∀ o ∈ B.map (Op.rename v c), erased (B.map (Op.rename v c))
      (A ++ B.map (Op.rename v c) ++ [Op.call c (inputs A), Op.store f c args]) o = true := by
    intro o ho
    obtain ⟨o', ho', rfl⟩ := List.mem_map.1 ho
    obtain ⟨g', r', as', rfl, -⟩ := h.comp o' ho'
    have := hreach _ ho' r' rfl
    simp only [Op.rename, erased, this, Bool.not_false, Bool.and_true, List.contains_iff_mem]
    exact ho
  have herA : ∀ o ∈ A, erased (B.map (Op.rename v c))
      (A ++ B.map (Op.rename v c) ++ [Op.call c (inputs A), Op.store f c args]) o = false := by
    intro o ho
    rcases h.loads o ho with hl | ⟨g', r', as', rfl, -⟩
    · cases o <;> simp [IsLoad] at hl ⊢ <;> rfl
    · rw [Bool.eq_false_iff]
      intro he
      simp only [erased, Bool.and_eq_true, List.contains_iff_mem] at he
      obtain ⟨o', ho', hren⟩ := List.mem_map.1 he.1
      have hr' : o'.res = some r' := by rw [← rename_res, hren]; rfl
      exact hcA _ ho o' ho' r' hr' rfl
  have hkept : (A ++ B.map (Op.rename v c) ++ [Op.call c (inputs A), Op.store f c args]).filter
      (fun o => !erased (B.map (Op.rename v c))
        (A ++ B.map (Op.rename v c) ++ [Op.call c (inputs A), Op.store f c args]) o) =
      A ++ [Op.call c (inputs A), Op.store f c args] := by
    rw [List.filter_append, List.filter_append, List.filter_eq_self.2, List.filter_eq_nil_iff.2]
    · simp [erased]
    · intro o ho
      rw [herB o ho]; simp
    · intro o ho
      rw [herA o ho]; rfl
  have hdang : ((A ++ B.map (Op.rename v c) ++ [Op.call c (inputs A), Op.store f c args]).any fun o =>
      erased (B.map (Op.rename v c))
        (A ++ B.map (Op.rename v c) ++ [Op.call c (inputs A), Op.store f c args]) o &&
      (A ++ [Op.call c (inputs A), Op.store f c args]).any fun k => match o.res with
        | some r => k.args.contains r
        | none => false) = false := by
    rw [Bool.eq_false_iff]
    intro hd
    obtain ⟨o, ho, hd⟩ := List.any_eq_true.1 hd
    rw [Bool.and_eq_true] at hd
    obtain ⟨he, hd⟩ := hd
    obtain ⟨k, hk, hd⟩ := List.any_eq_true.1 hd
    have hoB : o ∈ B.map (Op.rename v c) := by
      rw [List.append_assoc] at ho
      rcases List.mem_append.1 ho with ho | ho
      · rw [herA o ho] at he; simp at he
      · rcases List.mem_append.1 ho with ho | ho
        · exact ho
        · simp only [List.mem_cons, List.not_mem_nil, or_false] at ho
          rcases ho with rfl | rfl <;> simp [erased] at he
    obtain ⟨o', ho', rfl⟩ := List.mem_map.1 hoB
    rw [rename_res] at hd
    cases hr : o'.res with
    | none => rw [hr] at hd; simp at hd
    | some r =>
      rw [hr] at hd
      have hd : r ∈ k.args := by simpa using hd
      rcases List.mem_append.1 hk with hk | hk
      · exact h.apart hL ho' hr (h.argsA hL hk hd)
      · simp only [List.mem_cons, List.not_mem_nil, or_false] at hk
        rcases hk with rfl | rfl
        · exact h.apart hL ho' hr (hinA r hd)
        · simp only [Op.args, List.mem_cons] at hd
          rcases hd with rfl | hd
          · refine hc ((scope_mem _ _).2 (.inr ⟨o', ?_, hr⟩))
            rw [h.body]; simp [ho']
          · exact h.index r hd o' ho' hr
  have hdef : (L.body.any fun o => decide (o.res = some v)) = true := by
    refine List.any_eq_true.2 ⟨.op g v as, ?_, by simp [Op.res]⟩
    rw [h.body]; simp [hvB]
  unfold extract
  simp only [h.copied hL, h.noIvs hL hiv, Bool.false_eq_true, if_false, hlast, hin, hres]
  rw [hi]
  simp only [hdef, not_true_eq_false, if_false]
  rw [← hi, hbody, hkept]
  exact (if_neg (Bool.eq_false_iff.1 hdang)).trans (by simp [Op.res])

/-- The function and the new body are accepted by the verifier. -/
theorem extract_wf (h : Shape L A B f v args) (hL : L.wf) (hn : (L.consts.map (·.1)).Nodup)
    {c : Nat} (hc : c ∉ scope L.scope L.body) :
    Fun.wf ⟨inputs A, constOps L B ++ B, v⟩ ∧
      wf L.scope (A ++ [Op.call c (inputs A), Op.store f c args]) := by
  obtain ⟨g, as, hlast⟩ := h.last
  have hvB : Op.op g v as ∈ B := List.mem_of_getLast? hlast
  have hL' := hL
  unfold Loop.wf at hL'
  rw [h.body, List.append_assoc, wf_append, wf_append] at hL'
  obtain ⟨hwA, hwB, hwS⟩ := hL'
  have hinA : ∀ x ∈ inputs A, x ∈ scope L.scope A := by
    intro x hx
    obtain ⟨f', as', hm⟩ := inputs_iff.1 hx
    exact (scope_mem _ _).2 (.inr ⟨_, hm, rfl⟩)
  have hconst : wf (inputs A) (constOps L B) := by
    unfold constOps
    refine wf_consts (hn.sublist (List.Sublist.map _ List.filter_sublist)) fun d hd hm => ?_
    obtain ⟨f', as', hm⟩ := inputs_iff.1 hm
    exact wf_fresh hwA (h.constsScope (List.mem_map_of_mem (List.mem_filter.1 hd).1)) _ hm rfl
  refine ⟨⟨?_, ?_⟩, ?_⟩
  · refine (wf_append _ _ _).2 ⟨hconst, ?_⟩
    refine wf_change (P := fun x => ∃ o ∈ B, x ∈ o.args) hwB (fun o ho x hx => ⟨o, ho, hx⟩) ?_ ?_
    · rintro x ⟨o, ho, hx⟩ hsc
      obtain ⟨g', r', as', rfl, hargs⟩ := h.comp o ho
      refine (scope_mem _ _).2 ?_
      rcases hargs x hx with h1 | ⟨o', h1, h2⟩
      · obtain ⟨d, hd, rfl⟩ := List.mem_map.1 h1
        refine .inr ⟨.op d.2 d.1 [], ?_, rfl⟩
        unfold constOps
        refine List.mem_map.2 ⟨d, List.mem_filter.2 ⟨hd, ?_⟩, rfl⟩
        exact List.any_eq_true.2 ⟨_, ho, by simpa [Op.args] using hx⟩
      · rcases List.mem_append.1 h1 with h1 | h1
        · left
          rcases h.loads o' h1 with hl | ⟨g2, r2, as2, rfl, -, hno⟩
          · cases o' with
            | load f2 r2 as2 =>
              simp only [Op.res, Option.some.injEq] at h2
              subst h2
              exact inputs_iff.2 ⟨f2, as2, h1⟩
            | _ => exact absurd hl (fun h => h)
          · simp only [Op.res, Option.some.injEq] at h2
            subst h2
            exact absurd hx (hno _ (List.mem_append_left _ ho))
        · exact absurd hsc (h.apart hL h1 h2)
    · intro x hx hns o ho hr
      rcases (scope_mem _ _).1 hx with h1 | ⟨o', h1, h2⟩
      · exact hns (hinA x h1)
      · unfold constOps at h1
        obtain ⟨d, hd, rfl⟩ := List.mem_map.1 h1
        simp only [Op.res, Option.some.injEq] at h2
        subst h2
        refine hns ((scope_mem _ _).2 (.inl (h.constsScope ?_)))
        exact List.mem_map_of_mem (List.mem_filter.1 hd).1
  · refine (scope_mem _ _).2 (.inr ⟨_, List.mem_append_right _ hvB, rfl⟩)
  · have hcA : c ∉ scope L.scope A := by
      intro hm
      rcases (scope_mem _ _).1 hm with h1 | ⟨o, h1, h2⟩
      · exact hc ((scope_mem _ _).2 (.inl h1))
      · refine hc ((scope_mem _ _).2 (.inr ⟨o, ?_, h2⟩))
        rw [h.body]; simp [h1]
    refine (wf_append _ _ _).2 ⟨hwA, hinA, ?_, ?_, ?_, trivial⟩
    · intro r hr
      simp only [Op.res, Option.some.injEq] at hr
      exact hr ▸ hcA
    · intro x hx
      simp only [Op.args, List.mem_cons] at hx
      rcases hx with rfl | hx
      · simp [Op.res]
      · refine List.mem_append_right _ ?_
        have := hwS.1 x (by simp [Op.args, hx])
        rcases (scope_mem _ _).1 this with h1 | ⟨o, h1, h2⟩
        · exact h1
        · exact absurd h2 (h.index x hx o h1)
    · simp [Op.res]

end

end Heir.Memref.Extract
