import Verif.Generic.Typing
import Mathlib.Data.List.Nodup

/-! # Validity after merging and moving operations -/

namespace Heir.Generic

variable {K : Type}

theorem merge_valid {p : Prog K} {pre post : List (Stmt K)} {g h : Gen K} (hv : Valid p)
    (hb : p.body = pre ++ [.generic g, .generic h] ++ post) :
    Valid (p.replace pre post ⟨[.generic (merge g h)], [], [], p.next⟩) := by
  have htg : (Stmt.generic g).typed p.secret := hv.typed (.generic g) (by rw [hb]; simp)
  have hth : (Stmt.generic h).typed p.secret := hv.typed (.generic h) (by rw [hb]; simp)
  have hkn := hv.known
  rw [hb] at hkn
  simp only [List.flatMap_append, List.flatMap_cons, List.flatMap_nil, List.mem_append] at hkn
  have hkg : ∀ x ∈ (Stmt.generic g).uses, x < p.next := fun x hx => hkn x (by tauto)
  have hkh : ∀ x ∈ (Stmt.generic h).uses, x < p.next := fun x hx => hkn x (by tauto)
  have hbl := binders_below hv.toSsa hb
  simp only [bindersOf, List.flatMap_cons, List.flatMap_nil, List.append_nil, List.mem_append] at hbl
  have hmp := (List.nodup_append.mp (mid_post hv.toSsa hb)).1
  simp only [bindersOf, List.flatMap_cons, List.flatMap_nil, List.append_nil] at hmp
  obtain ⟨extra, hex, hxs⟩ := mergeIns_extra g h.ins g.ins
  have hsubx : ∀ x ∈ (merge g h).inner, x ∈ g.inner ∨ x ∈ h.inner := by
    intro x hx
    simp only [merge, Gen.inner, hex, List.map_append, List.flatMap_append, body_rename_results,
      List.mem_append] at hx ⊢
    rcases hx with (hx | hx) | hx | hx
    · tauto
    · exact Or.inr (Or.inl ((hxs.map _).subset hx))
    · tauto
    · tauto
  have hinl : ∀ x, x ∈ g.inner ∨ x ∈ h.inner → x < p.next ∧ p.secret x = false := by
    rintro x (hx | hx)
    · exact ⟨hbl x (Or.inl (List.mem_append_left _ hx)), htg.1 x (List.mem_append_left _ hx)⟩
    · exact ⟨hbl x (Or.inr (List.mem_append_left _ hx)), hth.1 x (List.mem_append_left _ hx)⟩
  have hρ : ∀ x ∈ h.bodyUses, (sub (h.ins.map fun a => (a.1, mergeArg g (mergeIns g g.ins h.ins) a)) x)
      < p.next ∧ p.secret (sub (h.ins.map fun a => (a.1, mergeArg g (mergeIns g g.ins h.ins) a)) x) = false := by
    intro x hx
    rcases sub_cases (h.ins.map fun a => (a.1, mergeArg g (mergeIns g g.ins h.ins) a)) x with
      ⟨q, hq, -, hs⟩ | ⟨-, hs⟩
    · rw [hs]
      obtain ⟨a, ha, rfl⟩ := List.mem_map.mp hq
      simp only
      unfold mergeArg
      split
      · rename_i q hq
        have hm : q.2 ∈ g.bodyUses := List.mem_append_right _
          (List.mem_map_of_mem (List.mem_of_find?_eq_some hq))
        exact ⟨hkg _ (List.mem_append_right _ hm), htg.1 _ (List.mem_append_right _ hm)⟩
      · split
        · rename_i p' hp'
          have hm := List.mem_of_find?_eq_some hp'
          rw [hex] at hm
          rcases List.mem_append.mp hm with hm | hm
          · exact hinl _ (Or.inl (List.mem_append_left _ (List.mem_map_of_mem hm)))
          · exact hinl _ (Or.inr (List.mem_append_left _ (List.mem_map_of_mem (hxs.subset hm))))
        · exact hinl _ (Or.inr (List.mem_append_left _ (List.mem_map_of_mem ha)))
    · rw [hs]
      exact ⟨hkh x (List.mem_append_right _ hx), hth.1 x (List.mem_append_right _ hx)⟩
  have huse : ∀ x ∈ (merge g h).bodyUses, x < p.next ∧ p.secret x = false := by
    intro x hx
    simp only [merge, Gen.bodyUses, List.flatMap_append, body_rename_uses, List.map_append, renameSnd_snd,
      List.mem_append] at hx
    rcases hx with (hx | hx) | hx | hx
    · have hm : x ∈ g.bodyUses := List.mem_append_left _ hx
      exact ⟨hkg _ (List.mem_append_right _ hm), htg.1 _ (List.mem_append_right _ hm)⟩
    · obtain ⟨y, hy, rfl⟩ := List.mem_map.mp hx
      exact hρ y (List.mem_append_left _ hy)
    · have hm : x ∈ g.bodyUses := List.mem_append_right _ hx
      exact ⟨hkg _ (List.mem_append_right _ hm), htg.1 _ (List.mem_append_right _ hm)⟩
    · obtain ⟨y, hy, rfl⟩ := List.mem_map.mp hx
      exact hρ y (List.mem_append_right _ hy)
  have hout : ∀ x ∈ (merge g h).outs.map Prod.fst, x ∈ g.outs.map Prod.fst ∨ x ∈ h.outs.map Prod.fst := by
    intro x hx
    simpa only [merge, List.map_append, renameSnd_fst, List.mem_append] using hx
  refine valid_replace hv hb ?_ ?_ (Nat.le_refl _) ?_ ?_ (by simp)
  · simp only [bindersOf, List.flatMap_cons, List.flatMap_nil, List.append_nil]
    rw [List.nodup_iff_count_le_one] at hmp ⊢
    intro a
    have h₁ := hmp a
    have h₂ := (hxs.map Prod.fst).count_le a
    simp only [Stmt.binders, merge, Gen.inner, hex, List.map_append, List.flatMap_append,
      body_rename_results, renameSnd_fst, List.count_append] at h₁ ⊢
    omega
  · intro b hbm
    simp only [bindersOf, List.flatMap_cons, List.flatMap_nil, List.append_nil, Stmt.binders,
      List.mem_append] at hbm ⊢
    rcases hbm with hbm | hbm
    · have := hsubx b hbm; tauto
    · have := hout b hbm; tauto
  · intro s hs
    obtain rfl := List.mem_singleton.mp hs
    refine ⟨fun x hx => ?_, fun x hx => ?_⟩
    · have : x < p.next ∧ p.secret x = false := by
        rcases List.mem_append.mp hx with hx | hx
        · exact hinl x (hsubx x hx)
        · exact huse x hx
      rw [retype_lt this.1]; exact this.2
    · rcases hout x hx with hx | hx
      · rw [retype_lt (hbl x (Or.inl (List.mem_append_right _ hx)))]; exact htg.2 x hx
      · rw [retype_lt (hbl x (Or.inr (List.mem_append_right _ hx)))]; exact hth.2 x hx
  · intro x hx
    simp only [List.flatMap_cons, List.flatMap_nil, List.append_nil, Stmt.uses, List.mem_append] at hx
    rcases hx with hx | hx
    · simp only [merge, hex, List.map_append, List.mem_append] at hx
      rcases hx with hx | hx
      · exact hkg x (List.mem_append_left _ hx)
      · exact hkh x (List.mem_append_left _ ((hxs.map _).subset hx))
    · exact (huse x hx).1

theorem extractBefore_valid {p : Prog K} {pre post : List (Stmt K)} {ins outs : List (Nat × Nat)}
    {b₁ b₂ : List (Op K)} {o : Op K} {h g' : Gen K} {n : Nat} (hv : Valid p)
    (hb : p.body = pre ++ [.generic ⟨ins, b₁ ++ o :: b₂, outs⟩] ++ post)
    (hx : extractBefore p.next ins b₁ o b₂ outs = (h, g', n)) :
    Valid (p.replace pre post ⟨[.generic h, .generic g'], [], h.outs.map Prod.fst, n⟩) := by
  have ht := gen_typed hv hb
  have hbl := gen_below hv hb
  have hkn := gen_known hv hb
  have hnd := gen_nodup hv hb
  set g : Gen K := ⟨ins, b₁ ++ o :: b₂, outs⟩ with hg
  set used := ins.filter fun q => o.uses.contains q.1 with hused
  simp only [extractBefore, Prod.mk.injEq] at hx
  obtain ⟨rfl, rfl, rfl⟩ := hx
  rw [← hused]
  set A := number p.next used with hA
  set I := number (p.next + used.length) o.results with hI
  set O := number (p.next + used.length + o.results.length) I with hO
  have hAr : ∀ x ∈ A.map Prod.fst, p.next ≤ x ∧ x < p.next + used.length := fun x hx => number_range hx
  have hIr : ∀ x ∈ I.map Prod.fst, p.next + used.length ≤ x ∧ x < p.next + used.length + o.results.length :=
    fun x hx => number_range hx
  have hIl : I.length = o.results.length := number_length _ _
  have hOr : ∀ x ∈ O.map Prod.fst, p.next + used.length + o.results.length ≤ x ∧
      x < p.next + used.length + o.results.length + o.results.length := fun x hx => by
    have := number_range hx; rw [hIl] at this; exact this
  have e₁ : (A.map fun a => (a.1, a.2.2)).map Prod.fst = A.map Prod.fst := by simp
  have e₂ : (A.map fun a => (a.1, a.2.2)).map Prod.snd = used.map Prod.snd := by
    rw [List.map_map, ← number_snd p.next used, List.map_map]; rfl
  have e₃ : (O.map fun a => (a.1, a.2.1)).map Prod.fst = O.map Prod.fst := by simp
  have e₄ : (O.map fun a => (a.1, a.2.1)).map Prod.snd = I.map Prod.fst := by
    rw [List.map_map, ← number_snd (p.next + used.length + o.results.length) I, List.map_map]; rfl
  have e₅ : (O.map fun a => (a.2.2, a.1)).map Prod.fst = o.results := by
    rw [List.map_map]
    have : O.map (Prod.fst ∘ fun a => (a.2.2, a.1)) = (O.map Prod.snd).map Prod.snd := by
      rw [List.map_map]; rfl
    rw [this, number_snd, number_snd]
  have e₆ : (O.map fun a => (a.2.2, a.1)).map Prod.snd = O.map Prod.fst := by simp
  have hres : ∀ x ∈ o.results, x ∈ g.inner := fun x hx => List.mem_append_right _ (by
    simp only [hg, List.flatMap_append, List.flatMap_cons, List.mem_append]; tauto)
  have hsec : ∀ x, x < p.next → p.secret x = false → retype p.next (O.map Prod.fst) p.secret x = false :=
    fun x hx hs => by rw [retype_lt hx]; exact hs
  have hnew : ∀ x, p.next ≤ x → x < p.next + used.length + o.results.length →
      retype p.next (O.map Prod.fst) p.secret x = false := fun x hx hs => by
    rw [retype_ge hx]
    simp only [List.contains_eq_mem, decide_eq_false_iff_not]
    intro hc
    have := hOr x hc
    omega
  have hρ : ∀ x ∈ o.uses, (sub (A.map fun a => (a.2.1, a.1)) x < p.next + used.length) ∧
      retype p.next (O.map Prod.fst) p.secret (sub (A.map fun a => (a.2.1, a.1)) x) = false := by
    intro x hx
    rcases sub_cases (A.map fun a => (a.2.1, a.1)) x with ⟨q, hq, -, hs⟩ | ⟨-, hs⟩
    · rw [hs]
      obtain ⟨a, ha, rfl⟩ := List.mem_map.mp hq
      have := hAr a.1 (List.mem_map_of_mem ha)
      exact ⟨this.2, hnew _ this.1 (by simp only; omega)⟩
    · rw [hs]
      have := use_ok hv hb (x := x) (List.mem_append_left _ (by
        simp only [hg, List.flatMap_append, List.flatMap_cons, List.mem_append]; tauto))
      exact ⟨by omega, hsec x this.1 this.2⟩
  rw [e₃]
  refine valid_replace hv hb ?_ ?_ (by simp only; omega) ?_ ?_ (by simp)
  · simp only [bindersOf, List.flatMap_cons, List.flatMap_nil, List.append_nil, Stmt.binders, Gen.inner,
      e₁, e₃, e₅, List.map_append]
    simp only [Stmt.binders, Gen.inner, hg] at hnd hbl
    have hAn : (A.map Prod.fst).Nodup := number_nodup _ _
    have hIn : (I.map Prod.fst).Nodup := number_nodup _ _
    have hOn : (O.map Prod.fst).Nodup := number_nodup _ _
    rw [List.nodup_iff_count_le_one] at hnd hAn hIn hOn ⊢
    intro a
    have h₁ := hnd a
    have h₂ := hAn a
    have h₃ := hIn a
    have h₄ := hOn a
    have z₁ : a ∉ A.map Prod.fst → (A.map Prod.fst).count a = 0 := List.count_eq_zero.mpr
    have z₂ : a ∉ I.map Prod.fst → (I.map Prod.fst).count a = 0 := List.count_eq_zero.mpr
    have z₃ : a ∉ O.map Prod.fst → (O.map Prod.fst).count a = 0 := List.count_eq_zero.mpr
    have z₄ : a ∉ ins.map Prod.fst ++ (b₁ ++ o :: b₂).flatMap Op.results ++ outs.map Prod.fst →
        (ins.map Prod.fst ++ (b₁ ++ o :: b₂).flatMap Op.results ++ outs.map Prod.fst).count a = 0 :=
      List.count_eq_zero.mpr
    have y₁ := hAr a
    have y₂ := hIr a
    have y₃ := hOr a
    have y₄ := hbl a
    simp only [List.flatMap_append, List.flatMap_cons, List.count_append] at h₁ z₄ ⊢
    by_cases m₁ : a ∈ A.map Prod.fst
    · have := y₁ m₁
      have := z₂ fun hc => by have := y₂ hc; omega
      have := z₃ fun hc => by have := y₃ hc; omega
      have := z₄ fun hc => by have := y₄ (by simpa only [List.flatMap_append, List.flatMap_cons] using hc); omega
      omega
    · have := z₁ m₁
      by_cases m₂ : a ∈ I.map Prod.fst
      · have := y₂ m₂
        have := z₃ fun hc => by have := y₃ hc; omega
        have := z₄ fun hc => by have := y₄ (by simpa only [List.flatMap_append, List.flatMap_cons] using hc); omega
        omega
      · have := z₂ m₂
        by_cases m₃ : a ∈ O.map Prod.fst
        · have := y₃ m₃
          have := z₄ fun hc => by have := y₄ (by simpa only [List.flatMap_append, List.flatMap_cons] using hc); omega
          omega
        · have := z₃ m₃
          omega
  · intro b hbm
    simp only [bindersOf, List.flatMap_cons, List.flatMap_nil, List.append_nil, Stmt.binders, Gen.inner,
      e₁, e₃, e₅, List.map_append, List.mem_append] at hbm ⊢
    rcases hbm with ((hm | hm) | hm) | ((hm | hm) | hm) | hm
    · have := hAr b hm; right; omega
    · have := hIr b hm; right; omega
    · have := hOr b hm; right; omega
    · tauto
    · have := hres b hm
      simp only [Gen.inner, List.mem_append] at this
      tauto
    · left; left; right
      simp only [hg, List.flatMap_append, List.flatMap_cons, List.mem_append] at hm ⊢
      tauto
    · tauto
  · intro s hs
    simp only [List.mem_cons, List.not_mem_nil, or_false] at hs
    rcases hs with rfl | rfl
    · refine ⟨fun x hx => ?_, fun x hx => ?_⟩
      · simp only [Gen.inner, Gen.bodyUses, e₁, e₄, List.flatMap_cons, List.flatMap_nil, List.append_nil,
          Op.uses, List.mem_append] at hx
        rw [← List.mem_append (s := o.args.map _), ← List.map_append] at hx
        rcases hx with (hx | hx) | hx | hx
        · have := hAr x hx; exact hnew x this.1 (by omega)
        · have := hIr x hx; exact hnew x (by omega) this.2
        · obtain ⟨y, hy, rfl⟩ := List.mem_map.mp hx
          exact (hρ y hy).2
        · have := hIr x hx; exact hnew x (by omega) this.2
      · rw [e₃] at hx
        rw [retype_ge (by have := hOr x hx; omega)]
        exact List.contains_iff_mem.mpr hx
    · refine ⟨fun x hx => ?_, fun x hx => ?_⟩
      · have hin : x ∈ g.inner ∨ x ∈ g.bodyUses := by
          simp only [Gen.inner, Gen.bodyUses, List.map_append, e₅, List.mem_append] at hx
          rcases hx with ((hx | hx) | hx) | hx | hx
          · exact Or.inl (List.mem_append_left _ hx)
          · exact Or.inl (hres x hx)
          · refine Or.inl (List.mem_append_right _ ?_)
            simp only [hg, List.flatMap_append, List.flatMap_cons, List.mem_append] at hx ⊢
            tauto
          · refine Or.inr (List.mem_append_left _ ?_)
            simp only [hg, List.flatMap_append, List.flatMap_cons, List.mem_append] at hx ⊢
            tauto
          · exact Or.inr (List.mem_append_right _ hx)
        rcases hin with h | h
        · exact hsec x (hbl x (List.mem_append_left _ h)) (ht.1 x (List.mem_append_left _ h))
        · exact hsec x (use_ok hv hb h).1 (use_ok hv hb h).2
      · rw [retype_lt (hbl x (List.mem_append_right _ hx))]
        exact ht.2 x hx
  · intro x hx
    simp only [List.flatMap_cons, List.flatMap_nil, List.append_nil, Stmt.uses, Gen.bodyUses, e₂, e₄, e₆,
      List.map_append, Op.uses, List.mem_append] at hx
    rcases hx with (hx | (hx | hx) | hx) | (hx | hx) | hx | hx
    · have := operand_ok hv hb (x := x) ((List.filter_sublist.map _).subset hx); simp only; omega
    · obtain ⟨y, hy, rfl⟩ := List.mem_map.mp hx
      have := (hρ y (List.mem_append_left _ hy)).1; simp only; omega
    · obtain ⟨y, hy, rfl⟩ := List.mem_map.mp hx
      have := (hρ y (List.mem_append_right _ hy)).1; simp only; omega
    · have := hIr x hx; simp only; omega
    · have := operand_ok hv hb (x := x) hx; simp only; omega
    · have := hOr x hx; simp only; omega
    · have := (use_ok hv hb (x := x) (List.mem_append_left _ (by
        simp only [hg, List.flatMap_append, List.flatMap_cons, List.mem_append] at hx ⊢; tauto))).1
      simp only; omega
    · have := (use_ok hv hb (x := x) (List.mem_append_right _ hx)).1; simp only; omega

theorem operandOf_cases {ins : List (Nat × Nat)} {results : List Nat} {outs : List (Nat × Nat)} {x y : Nat}
    (h : operandOf ins results outs x = some y) :
    y ∈ ins.map Prod.snd ∨ y = x ∨ y ∈ outs.map Prod.fst := by
  unfold operandOf at h
  split at h
  · rename_i p hp
    simp only [Option.some.injEq] at h
    exact Or.inl (h ▸ List.mem_map_of_mem (List.mem_of_find?_eq_some hp))
  · split at h
    · simp only [Option.some.injEq] at h
      exact Or.inr (Or.inl h.symm)
    · simp only [Option.map_eq_some_iff] at h
      obtain ⟨q, hq, rfl⟩ := h
      exact Or.inr (Or.inr (List.mem_map_of_mem (List.mem_of_find?_eq_some hq)))

theorem map_some_eq {β γ : Type} {f : β → Option γ} : ∀ {l : List β} {xs : List γ},
    l.map f = xs.map some → ∀ y ∈ xs, ∃ x ∈ l, f x = some y
  | [], xs, h, y, hy => by
    cases xs with
    | nil => simp at hy
    | cons a l => simp at h
  | b :: l, [], h, y, hy => by simp at h
  | b :: l, a :: xs, h, y, hy => by
    simp only [List.map_cons, List.cons.injEq] at h
    rcases List.mem_cons.mp hy with rfl | hy
    · exact ⟨b, by simp, h.1⟩
    · obtain ⟨x, hx, hf⟩ := map_some_eq h.2 y hy
      exact ⟨x, by simp [hx], hf⟩

theorem found_snd {outs : List (Nat × Nat)} : ∀ {rs : List Nat} {qs : List (Nat × Nat)},
    rs.map (fun r => outs.find? fun q => q.2 == r) = qs.map some → qs.map Prod.snd = rs
  | [], [], _ => rfl
  | [], _ :: _, h => by simp at h
  | _ :: _, [], h => by simp at h
  | r :: rs, q :: qs, h => by
    simp only [List.map_cons, List.cons.injEq] at h
    simp only [List.map_cons, List.cons.injEq]
    exact ⟨by simpa using List.find?_some h.1, found_snd h.2⟩

theorem extractAfter_valid {p : Prog K} {pre post : List (Stmt K)} {ins outs : List (Nat × Nat)}
    {b₁ b₂ : List (Op K)} {o : Op K} {h g' : Gen K} {n : Nat} (hv : Valid p)
    (hb : p.body = pre ++ [.generic ⟨ins, b₁ ++ o :: b₂, outs⟩] ++ post)
    (hho : canHoistAfter (⟨ins, b₁ ++ o :: b₂, outs⟩ : Gen K) o = true)
    (hx : extractAfter p.next ins b₁ o b₂ outs = some (g', h, n)) :
    Valid (p.replace pre post
      ⟨[.generic g', .generic h], [], List.range' p.next o.args.length, n⟩) := by
  have ht := gen_typed hv hb
  have hbl := gen_below hv hb
  have hnd := gen_nodup hv hb
  set g : Gen K := ⟨ins, b₁ ++ o :: b₂, outs⟩ with hg
  simp only [extractAfter, Option.bind_eq_some_iff, Option.map_eq_some_iff, Prod.mk.injEq] at hx
  obtain ⟨xs, hxs, qs, hqs, rfl, rfl, rfl⟩ := hx
  have hxs := allSome_eq hxs
  have hqs := allSome_eq hqs
  set N := number p.next o.args with hN
  set A := number (p.next + o.args.length) o.args with hA
  set I := number (p.next + o.args.length + o.args.length) o.results with hI
  have hNr : ∀ x ∈ N.map Prod.fst, p.next ≤ x ∧ x < p.next + o.args.length := fun x hx => number_range hx
  have hAr : ∀ x ∈ A.map Prod.fst, p.next + o.args.length ≤ x ∧ x < p.next + o.args.length + o.args.length :=
    fun x hx => number_range hx
  have hIr : ∀ x ∈ I.map Prod.fst, p.next + o.args.length + o.args.length ≤ x ∧
      x < p.next + o.args.length + o.args.length + o.results.length := fun x hx => number_range hx
  have hNf : N.map Prod.fst = List.range' p.next o.args.length := number_fst _ _
  have hNs : N.map Prod.snd = o.args := number_snd _ _
  have hargs : ∀ x ∈ o.uses, x ∉ o.results := by
    simp only [canHoistAfter, List.all_eq_true] at hho
    intro x hx
    have := hho o (by simp [hg]) x hx
    simpa using this
  have houts' : ((outs ++ N).map Prod.fst).Nodup := by
    rw [List.map_append]
    refine List.nodup_append.mpr ⟨(List.nodup_append.mp hnd).2.1, number_nodup _ _, ?_⟩
    intro a ha b hbN hab
    have h₁ := hbl a (List.mem_append_right _ ha)
    have h₂ := hNr b hbN
    omega
  have hinj : ∀ q ∈ outs ++ N, ∀ q' ∈ outs ++ N, q.1 = q'.1 → q = q' := fun q hq q' hq' h =>
    List.inj_on_of_nodup_map houts' hq hq' h
  have hqm : ∀ q ∈ qs, q ∈ outs ∧ q.2 ∈ o.results := by
    intro q hq
    obtain ⟨r, hr, hf⟩ := map_some_eq hqs q hq
    have hm := List.mem_of_find?_eq_some hf
    have he := List.find?_some hf
    simp only [beq_iff_eq] at he
    rw [List.mem_reverse] at hm
    rcases List.mem_append.mp hm with hm | hm
    · exact ⟨hm, he ▸ hr⟩
    · exfalso
      have : q.2 ∈ o.args := by rw [← hNs]; exact List.mem_map_of_mem hm
      exact hargs q.2 (List.mem_append_left _ this) (he ▸ hr)
  have hqn : (qs.map Prod.fst).Nodup := by
    have hrn : o.results.Nodup := by
      have h₁ := (List.nodup_append.mp (List.nodup_append.mp hnd).1).2.1
      simp only [hg, List.flatMap_append, List.flatMap_cons] at h₁
      exact (List.nodup_append.mp (List.nodup_append.mp h₁).2.1).1
    rw [← found_snd hqs] at hrn
    refine List.Nodup.map_on (fun q hq q' hq' h => ?_) hrn.of_map
    exact hinj q (List.mem_append_left _ (hqm q hq).1) q' (List.mem_append_left _ (hqm q' hq').1) h
  have hlen : (qs.map Prod.fst).length ≤ (I.map Prod.fst).length := by
    rw [List.length_map, List.length_map, number_length, ← found_snd hqs, List.length_map]
  have hlen' : (I.map Prod.fst).length ≤ (qs.map Prod.fst).length := by
    rw [List.length_map, List.length_map, number_length, ← found_snd hqs, List.length_map]
  have hAl : (A.map Prod.fst).length = xs.length := by
    have := congrArg List.length hxs
    simp only [List.length_map] at this
    rw [List.length_map, number_length, this]
  have e₁ : ((A.map Prod.fst).zip xs).map Prod.fst = A.map Prod.fst := List.map_fst_zip (by omega)
  have e₂ : ((A.map Prod.fst).zip xs).map Prod.snd = xs := List.map_snd_zip (by omega)
  have e₃ : ((qs.map Prod.fst).zip (I.map Prod.fst)).map Prod.fst = qs.map Prod.fst := List.map_fst_zip hlen
  have e₄ : ((qs.map Prod.fst).zip (I.map Prod.fst)).map Prod.snd = I.map Prod.fst := List.map_snd_zip hlen'
  have hfil : ((outs ++ N).filter fun q => !o.results.contains q.2).Sublist (outs ++ N) := List.filter_sublist
  have hsec : ∀ x, x < p.next → p.secret x = false →
      retype p.next (List.range' p.next o.args.length) p.secret x = false :=
    fun x hx hs => by rw [retype_lt hx]; exact hs
  have hnew : ∀ x, p.next + o.args.length ≤ x →
      retype p.next (List.range' p.next o.args.length) p.secret x = false := fun x hx => by
    rw [retype_ge (by omega)]
    simp only [List.contains_eq_mem, decide_eq_false_iff_not, List.mem_range'_1]
    omega
  have huse : ∀ x ∈ o.uses, x < p.next ∧ p.secret x = false := fun x hx =>
    use_ok hv hb (x := x) (List.mem_append_left _ (by
      simp only [hg, List.flatMap_append, List.flatMap_cons, List.mem_append]; tauto))
  have hρ : ∀ x ∈ o.uses, sub (A.map fun a => (a.2, a.1)).reverse x < p.next + o.args.length + o.args.length ∧
      retype p.next (List.range' p.next o.args.length) p.secret (sub (A.map fun a => (a.2, a.1)).reverse x)
        = false := by
    intro x hx
    rcases sub_cases (A.map fun a => (a.2, a.1)).reverse x with ⟨q, hq, -, hs⟩ | ⟨-, hs⟩
    · rw [hs]
      obtain ⟨a, ha, rfl⟩ := List.mem_map.mp (List.mem_reverse.mp hq)
      have := hAr a.1 (List.mem_map_of_mem ha)
      exact ⟨this.2, hnew _ this.1⟩
    · rw [hs]
      have := huse x hx
      exact ⟨by omega, hsec x this.1 this.2⟩
  have houtb : ∀ q ∈ outs, q.1 < p.next ∧ p.secret q.1 = true := fun q hq =>
    ⟨hbl _ (List.mem_append_right _ (List.mem_map_of_mem hq)), ht.2 _ (List.mem_map_of_mem hq)⟩
  refine valid_replace hv hb ?_ ?_ (by simp only; omega) ?_ ?_ (by simp)
  · simp only [bindersOf, List.flatMap_cons, List.flatMap_nil, List.append_nil, Stmt.binders, Gen.inner,
      e₁, e₃]
    simp only [Stmt.binders, Gen.inner, hg] at hnd hbl
    have hlt : ∀ x ∈ ins.map Prod.fst ++ (b₁ ++ b₂).flatMap Op.results, x < p.next := fun x hx => hbl x (by
      simp only [List.flatMap_append, List.flatMap_cons, List.mem_append] at hx ⊢; tauto)
    refine List.nodup_append.mpr ⟨List.nodup_append.mpr ⟨?_, houts'.sublist (hfil.map _), ?_⟩,
      List.nodup_append.mpr ⟨List.nodup_append.mpr ⟨number_nodup _ _, number_nodup _ _, ?_⟩, hqn, ?_⟩, ?_⟩
    · refine (List.nodup_append.mp hnd).1.sublist ((List.Sublist.refl _).append ?_)
      simp only [List.flatMap_append, List.flatMap_cons]
      exact (List.Sublist.refl _).append (List.sublist_append_right _ _)
    · intro a ha b hbf hab
      have hbo := (hfil.map _).subset hbf
      rw [List.map_append] at hbo
      rcases List.mem_append.mp hbo with hbo | hbo
      · refine (List.nodup_append.mp hnd).2.2 a ?_ b hbo hab
        simp only [List.flatMap_append, List.flatMap_cons, List.mem_append] at ha ⊢
        tauto
      · have h₁ := hlt a ha
        have h₂ := hNr b hbo
        omega
    · intro a ha b hb hab
      have h₁ := hAr a ha
      have h₂ := hIr b hb
      omega
    · intro a ha b hb hab
      obtain ⟨q, hq, rfl⟩ := List.mem_map.mp hb
      have h₁ := (houtb q (hqm q hq).1).1
      rcases List.mem_append.mp ha with ha | ha
      · have h₂ := hAr a ha; omega
      · have h₂ := hIr a ha; omega
    · intro a ha b hb hab
      rcases List.mem_append.mp hb with hb | hb
      · have h₂ : p.next + o.args.length ≤ b := by
          rcases List.mem_append.mp hb with hb | hb
          · exact (hAr b hb).1
          · have := hIr b hb; omega
        rcases List.mem_append.mp ha with ha | ha
        · have := hlt a ha; omega
        · have := (hfil.map _).subset ha
          rw [List.map_append] at this
          rcases List.mem_append.mp this with h | h
          · obtain ⟨q, hq, rfl⟩ := List.mem_map.mp h
            have := (houtb q hq).1
            omega
          · have := hNr a h; omega
      · obtain ⟨q, hq, rfl⟩ := List.mem_map.mp hb
        rcases List.mem_append.mp ha with ha | ha
        · refine (List.nodup_append.mp hnd).2.2 a ?_ q.1 (List.mem_map_of_mem (hqm q hq).1) hab
          simp only [List.flatMap_append, List.flatMap_cons, List.mem_append] at ha ⊢
          tauto
        · obtain ⟨q', hq', rfl⟩ := List.mem_map.mp ha
          obtain ⟨hq'm, hq'r⟩ := List.mem_filter.mp hq'
          have := hinj q' hq'm q (List.mem_append_left _ (hqm q hq).1) hab
          subst this
          have := (hqm q' hq).2
          simp [this] at hq'r
  · intro b hbm
    simp only [bindersOf, List.flatMap_cons, List.flatMap_nil, List.append_nil, Stmt.binders, Gen.inner,
      e₁, e₃, List.mem_append] at hbm ⊢
    rcases hbm with ((hm | hm) | hm) | (hm | hm) | hm
    · tauto
    · left; left; right
      simp only [hg, List.flatMap_append, List.flatMap_cons, List.mem_append] at hm ⊢
      tauto
    · have := (hfil.map _).subset hm
      rw [List.map_append] at this
      rcases List.mem_append.mp this with h | h
      · exact Or.inl (Or.inr h)
      · have := hNr b h; right; omega
    · have := hAr b hm; right; omega
    · have := hIr b hm; right; omega
    · obtain ⟨q, hq, rfl⟩ := List.mem_map.mp hm
      exact Or.inl (Or.inr (List.mem_map_of_mem (hqm q hq).1))
  · intro s hs
    simp only [List.mem_cons, List.not_mem_nil, or_false] at hs
    rcases hs with rfl | rfl
    · refine ⟨fun x hx => ?_, fun x hx => ?_⟩
      · have hin : x ∈ g.inner ∨ x ∈ g.bodyUses ∨ x ∈ o.uses := by
          simp only [Gen.inner, Gen.bodyUses, List.mem_append] at hx
          rcases hx with (hx | hx) | hx | hx
          · exact Or.inl (List.mem_append_left _ hx)
          · refine Or.inl (List.mem_append_right _ ?_)
            simp only [hg, List.flatMap_append, List.flatMap_cons, List.mem_append] at hx ⊢
            tauto
          · refine Or.inr (Or.inl (List.mem_append_left _ ?_))
            simp only [hg, List.flatMap_append, List.flatMap_cons, List.mem_append] at hx ⊢
            tauto
          · have := (hfil.map _).subset hx
            rw [List.map_append, hNs] at this
            rcases List.mem_append.mp this with h | h
            · exact Or.inr (Or.inl (List.mem_append_right _ h))
            · exact Or.inr (Or.inr (List.mem_append_left _ h))
        rcases hin with h | h | h
        · exact hsec x (hbl x (List.mem_append_left _ h)) (ht.1 x (List.mem_append_left _ h))
        · exact hsec x (use_ok hv hb h).1 (use_ok hv hb h).2
        · exact hsec x (huse x h).1 (huse x h).2
      · have := (hfil.map _).subset hx
        rw [List.map_append] at this
        rcases List.mem_append.mp this with h | h
        · obtain ⟨q, hq, rfl⟩ := List.mem_map.mp h
          rw [retype_lt (houtb q hq).1]
          exact (houtb q hq).2
        · rw [retype_ge (hNr x h).1]
          exact List.contains_iff_mem.mpr (hNf ▸ h)
    · refine ⟨fun x hx => ?_, fun x hx => ?_⟩
      · simp only [Gen.inner, Gen.bodyUses, e₁, e₄, List.flatMap_cons, List.flatMap_nil, List.append_nil,
          Op.uses, List.mem_append] at hx
        rw [← List.mem_append (s := o.args.map _), ← List.map_append] at hx
        rcases hx with (hx | hx) | hx | hx
        · have := hAr x hx; exact hnew x this.1
        · have := hIr x hx; exact hnew x (by omega)
        · obtain ⟨y, hy, rfl⟩ := List.mem_map.mp hx
          exact (hρ y hy).2
        · have := hIr x hx; exact hnew x (by omega)
      · rw [e₃] at hx
        obtain ⟨q, hq, rfl⟩ := List.mem_map.mp hx
        rw [retype_lt (houtb q (hqm q hq).1).1]
        exact (houtb q (hqm q hq).1).2
  · intro x hx
    simp only [List.flatMap_cons, List.flatMap_nil, List.append_nil, Stmt.uses, Gen.bodyUses, e₂, e₄,
      Op.uses, List.mem_append] at hx
    rcases hx with (hx | hx | hx) | hx | (hx | hx) | hx
    · have := operand_ok hv hb (x := x) hx; simp only; omega
    · have := (use_ok hv hb (x := x) (List.mem_append_left _ (by
        simp only [hg, List.flatMap_append, List.flatMap_cons, List.mem_append] at hx ⊢; tauto))).1
      simp only; omega
    · have := (hfil.map _).subset hx
      rw [List.map_append, hNs] at this
      rcases List.mem_append.mp this with h | h
      · have := (use_ok hv hb (x := x) (List.mem_append_right _ h)).1; simp only; omega
      · have := (huse x (List.mem_append_left _ h)).1; simp only; omega
    · obtain ⟨y, hy, hf⟩ := map_some_eq hxs x hx
      rcases operandOf_cases hf with h | h | h
      · have := operand_ok hv hb (x := x) h; simp only; omega
      · have := (huse y (List.mem_append_left _ hy)).1; simp only; omega
      · rw [List.map_append] at h
        rcases List.mem_append.mp h with h | h
        · obtain ⟨q, hq, rfl⟩ := List.mem_map.mp h
          have := (houtb q hq).1; simp only; omega
        · have := hNr x h; simp only; omega
    · obtain ⟨y, hy, rfl⟩ := List.mem_map.mp hx
      have := (hρ y (List.mem_append_left _ hy)).1; simp only; omega
    · obtain ⟨y, hy, rfl⟩ := List.mem_map.mp hx
      have := (hρ y (List.mem_append_right _ hy)).1; simp only; omega
    · have := hIr x hx; simp only; omega

theorem applies_valid {p : Prog K} {pre mid post : List (Stmt K)} {r : Repl K} (hv : Valid p)
    (hb : p.body = pre ++ mid ++ post) (h : Applies p pre post mid r) : Valid (p.replace pre post r) := by
  cases h with
  | collapse h => exact collapse_valid hv hb h
  | unusedArgs h =>
    obtain ⟨h₁, h₂, h₃⟩ := removeUnusedArgs_shape h
    exact valid_sub hv hb h₁ h₂ h₃ fun q hq => ⟨(removeUnusedArgs_subst h q hq).1,
      operand_ok hv hb (removeUnusedArgs_subst h q hq).2⟩
  | unusedYields h =>
    unfold removeUnusedYields at h
    split at h
    · simp at h
    simp only [Option.some.injEq] at h
    subst h
    exact valid_sub hv hb (List.Sublist.refl _) rfl List.filter_sublist (by simp)
  | nonSecretArgs h => exact nonSecretArgs_valid hv hb h
  | capture h => exact capture_valid hv hb h
  | merge => exact merge_valid hv hb
  | dedupe h =>
    have hs := dedupe_subst (gen_outs_nodup hv.toSsa hb) h
    have hn := gen_outs_nodup hv.toSsa hb
    simp only [dedupe, Option.map_eq_some_iff, Prod.mk.injEq] at h
    obtain ⟨⟨l', rr⟩, hd, rfl, rfl⟩ := h
    obtain ⟨hsub, -⟩ := dupYield_spec hd (by simpa using hn)
    exact valid_sub hv hb (List.Sublist.refl _) rfl (by simpa using hsub) fun q hq =>
      ⟨(hs q hq).1, gen_below hv hb _ (List.mem_append_right _ (hs q hq).2)⟩
  | concealThen h => exact concealThen_valid hv hb h
  | absorbArg ha h => exact absorbArg_valid hv hb ha h
  | hoistPlain hc hx => exact extractBefore_valid hv hb hx

end Heir.Generic
