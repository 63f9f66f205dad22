import Verif.Forward.Lemmas

/-! # The rewrites on memory -/

namespace Heir.Forward

variable {V : Type}

theorem split_two {p : List Op} {i j : Nat} {a b : Op} (hi : p[i]? = some a) (hj : p[j]? = some b)
    (hij : i < j) : p = p.take i ++ a :: ((p.take j).drop (i + 1) ++ b :: p.drop (j + 1)) := by
  obtain ⟨hj', ej⟩ := List.getElem?_eq_some_iff.1 hj
  obtain ⟨hi', ei⟩ := List.getElem?_eq_some_iff.1 hi
  have e1 : p.take j ++ b :: p.drop (j + 1) = p := by
    rw [← ej, List.getElem_cons_drop, List.take_append_drop]
  have hi2 : i < (p.take j).length := by rw [List.length_take]; omega
  have e2 : p.take j = p.take i ++ a :: (p.take j).drop (i + 1) := by
    have : (p.take j)[i] = a := by rw [List.getElem_take]; exact ei
    conv_lhs => rw [← List.take_append_drop i (p.take j), List.drop_eq_getElem_cons hi2, this]
    rw [List.take_take, Nat.min_eq_left (by omega)]
  conv_lhs => rw [← e1, e2]
  simp

theorem write_same (μ : Mem V) (m : V) (i : List V) (v : V) : μ.write m i v m i = v := by
  simp [Mem.write]

theorem write_other {μ : Mem V} {m m' : V} {i i' : List V} {v : V} (h : (m, i) ≠ (m', i')) :
    μ.write m i v m' i' = μ m' i' := by
  have : ¬ (m' = m ∧ i' = i) := fun hh => h (by rw [hh.1, hh.2])
  simp only [Mem.write, if_neg this]

/-- Nothing in the list writes the element. -/
theorem exec_keeps {S : Sem V} {E : Nat → V} {m : V} {i : List V} : ∀ {p : List Op} {μ μ' : Mem V},
    Exec S E p μ μ' → (∀ op ∈ p, ∀ r f a, op ≠ .call r f a ∧ op ≠ .region r f a) →
    (∀ op ∈ p, ∀ v m' i', op = .store v m' i' → (E m', i'.map E) ≠ (m, i)) →
    μ' m i = μ m i := by
  intro p
  induction p with
  | nil => rintro μ μ' h - -; rw [show μ' = μ from h]
  | cons op p ih =>
    intro μ μ' h hc hs
    rw [ih h.2 (fun op' ho => hc op' (List.mem_cons_of_mem _ ho))
      (fun op' ho => hs op' (List.mem_cons_of_mem _ ho))]
    cases op with
    | pure r f a => rfl
    | load r m' i' => rfl
    | store v m' i' => exact write_other (hs _ List.mem_cons_self v m' i' rfl)
    | call r f a => exact absurd rfl (hc _ List.mem_cons_self r f a).1
    | region r f a => exact absurd rfl (hc _ List.mem_cons_self r f a).2

/-- Memories that differ in one element at most. -/
def SameBut (m : V) (i : List V) (μ ν : Mem V) : Prop := ∀ m' i', (m', i') ≠ (m, i) → μ m' i' = ν m' i'

theorem exec_sameBut {S : Sem V} {E : Nat → V} {m : V} {i : List V} :
    ∀ {p : List Op} {μ μ' ν : Mem V},
    Exec S E p μ μ' → (∀ op ∈ p, ∀ r f a, op ≠ .call r f a ∧ op ≠ .region r f a) →
    (∀ op ∈ p, ∀ r m' i', op = .load r m' i' → (E m', i'.map E) ≠ (m, i)) →
    SameBut m i μ ν → ∃ ν', Exec S E p ν ν' ∧ SameBut m i μ' ν' := by
  intro p
  induction p with
  | nil => intro μ μ' ν h _ _ hs; exact ⟨ν, rfl, by rw [show μ' = μ from h]; exact hs⟩
  | cons op p ih =>
    intro μ μ' ν h hc hl hs
    have hh : Holds S E ν op ∧ SameBut m i (after S E μ op) (after S E ν op) := by
      have h1 := h.1
      cases op with
      | pure r f a => exact ⟨h1, hs⟩
      | load r m' i' =>
        refine ⟨?_, hs⟩
        have h2 : E r = μ (E m') (i'.map E) := h1
        exact h2.trans (hs _ _ (hl _ List.mem_cons_self r m' i' rfl))
      | store v m' i' =>
        refine ⟨trivial, fun m'' i'' hne => ?_⟩
        simp only [after, Mem.write]
        split
        · rfl
        · exact hs _ _ hne
      | call r f a => exact absurd rfl (hc _ List.mem_cons_self r f a).1
      | region r f a => exact absurd rfl (hc _ List.mem_cons_self r f a).2
    obtain ⟨ν', e1, e2⟩ := ih h.2 (fun op' ho => hc op' (List.mem_cons_of_mem _ ho))
      (fun op' ho => hl op' (List.mem_cons_of_mem _ ho)) hh.2
    exact ⟨ν', ⟨hh.1, e1⟩, e2⟩

theorem good_exec {S : Sem V} {s : St V} {isMemref : Nat → Prop} {p : List Op}
    (h : Good S s isMemref p) : Exec S (run S p s).env p s.mem (run S p s).mem ∧
      ∀ a, a ∉ results p → (run S p s).env a = s.env a :=
  (run_iff h.wf).1 rfl

/-- Same results. -/
theorem run_eq {S : Sem V} {s : St V} {p q : List Op} (hp : WF q)
    (h : Exec S (run S p s).env q s.mem (run S p s).mem)
    (ho : ∀ a, a ∉ results q → (run S p s).env a = s.env a) : run S q s = run S p s :=
  (run_iff hp).2 ⟨h, ho⟩

theorem all_spec {P : Op → Bool} {l : List Op} (h : l.all P = true) {op : Op} (ho : op ∈ l) :
    P op = true := List.all_eq_true.1 h op ho

theorem forward_split {p : List Op} {i j : Nat} (h : isForwardableOp p i j = true) :
    ∃ v m r m' idx mid, p = p.take i ++ .store v m idx :: (mid ++ .load r m' idx :: p.drop (j + 1)) ∧
      p[i]? = some (.store v m idx) ∧ p[j]? = some (.load r m' idx) ∧
      (∀ op ∈ mid, ∀ r f a, op ≠ .region r f a) ∧ ∀ op ∈ mid, ∀ v, op ≠ .store v m idx := by
  unfold isForwardableOp at h
  split at h
  · rename_i v m idx r m' idx' hi hj
    simp only [Bool.and_eq_true, decide_eq_true_eq] at h
    obtain ⟨⟨hij, rfl⟩, hall⟩ := h
    refine ⟨v, m, r, m', idx, _, split_two hi hj hij, hi, hj, ?_, ?_⟩
    · rintro op ho r f a rfl
      have := all_spec hall ho
      simp [Op.hasRegions] at this
    · rintro op ho v rfl
      have := all_spec hall ho
      simp [Op.hasRegions] at this
  · exact absurd h (by simp)

theorem overwritten_split {p : List Op} {i k : Nat} (h : isPostDominated p k i = true) :
    ∃ v m v' m' idx mid, p = p.take i ++ .store v m idx :: (mid ++ .store v' m' idx :: p.drop (k + 1)) ∧
      p[i]? = some (.store v m idx) ∧ p[k]? = some (.store v' m' idx) ∧
      (∀ op ∈ mid, ∀ r f a, op ≠ .region r f a) ∧ ∀ op ∈ mid, ∀ r, op ≠ .load r m idx := by
  unfold isPostDominated at h
  split at h
  · rename_i v m idx v' m' idx' hi hj
    simp only [Bool.and_eq_true, decide_eq_true_eq] at h
    obtain ⟨⟨hij, rfl⟩, hall⟩ := h
    refine ⟨v, m, v', m', idx, _, split_two hi hj hij, hi, hj, ?_, ?_⟩
    · rintro op ho r f a rfl
      have := all_spec hall ho
      simp [Op.hasRegions] at this
    · rintro op ho r rfl
      have := all_spec hall ho
      simp [Op.hasRegions] at this
  · exact absurd h (by simp)

/-- A memref that occurs in a store is its memref. -/
theorem typed_memref {isMemref : Nat → Prop} {p : List Op} (h : Typed isMemref p) {v m x : Nat}
    {idx : List Nat} (hs : .store v m idx ∈ p) (hx : isMemref x)
    (hm : x ∈ (Op.store v m idx).operands) : m = x := by
  obtain ⟨h1, h2, -⟩ := h _ hs
  simp only [Op.operands, List.mem_cons] at hm
  rcases hm with rfl | rfl | hm
  · exact absurd hx (h2 _ _ _ rfl)
  · rfl
  · exact absurd hx ((h1 (m, idx) rfl).2 x hm)

theorem rename_of_memref {isMemref : Nat → Prop} {r v x : Nat} (hr : ¬ isMemref r) (hx : isMemref x) :
    rename r v x = x := by
  unfold rename
  rw [if_neg]
  rintro rfl
  exact hr hx

theorem not_memref_rename {isMemref : Nat → Prop} {r v x : Nat} (hv : ¬ isMemref v)
    (hx : ¬ isMemref x) : ¬ isMemref (rename r v x) := by
  unfold rename
  split
  · exact hv
  · exact hx

theorem typed_subst {isMemref : Nat → Prop} {p : List Op} {r v : Nat} (h : Typed isMemref p)
    (hr : ¬ isMemref r) (hv : ¬ isMemref v) : Typed isMemref (p.map (Op.subst r v)) := by
  intro op ho
  obtain ⟨op, hop, rfl⟩ := List.mem_map.1 ho
  obtain ⟨h1, h2, h3⟩ := h op hop
  refine ⟨?_, ?_, ?_⟩
  · intro a ha
    rw [subst_access] at ha
    obtain ⟨b, hb, rfl⟩ := Option.map_eq_some_iff.1 ha
    obtain ⟨h4, h5⟩ := h1 b hb
    refine ⟨by rw [rename_of_memref hr h4]; exact h4, fun i hi => ?_⟩
    obtain ⟨c, hc, rfl⟩ := List.mem_map.1 hi
    exact not_memref_rename hv (h5 c hc)
  · intro x m idx e
    cases op with
    | store y m' idx' =>
      injection e with e1
      rw [← e1]
      exact not_memref_rename hv (h2 _ _ _ rfl)
    | _ => exact absurd e (by simp [Op.subst])
  · intro x m idx e
    cases op with
    | load y m' idx' =>
      injection e with e1
      rw [← e1]
      exact h3 _ _ _ rfl
    | _ => exact absurd e (by simp [Op.subst])

theorem alias_subst {E : Nat → V} {p : List Op} {r v : Nat} (h : AliasFree E p) (e : E r = E v) :
    AliasFree E (p.map (Op.subst r v)) := by
  intro op ho op' ho' a a' ha ha' hne
  obtain ⟨o, hop, rfl⟩ := List.mem_map.1 ho
  obtain ⟨o', hop', rfl⟩ := List.mem_map.1 ho'
  rw [subst_access] at ha ha'
  obtain ⟨b, hb, rfl⟩ := Option.map_eq_some_iff.1 ha
  obtain ⟨b', hb', rfl⟩ := Option.map_eq_some_iff.1 ha'
  simp only [eval_rename e, map_rename e]
  refine h o hop o' hop' b b' hb hb' ?_
  rintro rfl
  exact hne rfl

theorem calls_subst {p : List Op} {r v : Nat} (h : NoCalls p) : NoCalls (p.map (Op.subst r v)) := by
  intro op ho x f a e
  obtain ⟨o, hop, rfl⟩ := List.mem_map.1 ho
  cases o with
  | call y g b => exact h _ hop y g b rfl
  | _ => exact absurd e (by simp [Op.subst])

theorem typed_sub {isMemref : Nat → Prop} {p q : List Op} (h : Typed isMemref p) (hs : q ⊆ p) :
    Typed isMemref q := fun op ho => h op (hs ho)

/-- Forwarding keeps the run. -/
theorem forward_ok {S : Sem V} {s : St V} {isMemref : Nat → Prop} {p q : List Op}
    {users : List Nat} {j : Nat} (g : Good S s isMemref p) (hu : UsersOf p users j)
    (h : forwardLoad p users j = some q) : run S q s = run S p s ∧ Good S s isMemref q := by
  unfold forwardLoad at h
  obtain ⟨i, hi, h⟩ := Option.bind_eq_some_iff.1 h
  have hf := List.find?_some hi
  have hmem := List.mem_of_find?_eq_some hi
  obtain ⟨v, m, r, m', idx, mid, ep, pi, pj, hreg, hst⟩ := forward_split hf
  rw [pi, pj] at h
  injection h with h
  subst h
  have sIn : Op.store v m idx ∈ p := List.mem_of_getElem? pi
  have lIn : Op.load r m' idx ∈ p := List.mem_of_getElem? pj
  -- the memrefs agree
  have em : m = m' := by
    obtain ⟨op, a, e1, e2, e3⟩ := hu
    rw [pj] at e1
    cases e1
    cases e2
    obtain ⟨u, f1, f2⟩ := e3 i hmem
    rw [pi] at f1
    cases f1
    exact typed_memref g.typed sIn ((g.typed _ lIn).1 _ rfl).1 f2
  subst em
  obtain ⟨hex, hout⟩ := good_exec g
  generalize hE : (run S p s).env = E at hex hout
  generalize hM : (run S p s).mem = M at hex
  have midIn : ∀ op ∈ mid, op ∈ p := by
    intro op ho
    rw [ep]
    simp [ho]
  -- the load reads the stored value
  have erv : E r = E v := by
    rw [ep, exec_append] at hex
    obtain ⟨μ₁, -, x1⟩ := hex
    have x2 := x1.2
    rw [exec_append] at x2
    obtain ⟨μ₂, y1, y2⟩ := x2
    have l1 : E r = μ₂ (E m) (idx.map E) := y2.1
    rw [l1, exec_keeps y1 (fun op ho r f a => ⟨g.calls op (midIn op ho) r f a, hreg op ho r f a⟩)]
    · exact write_same _ _ _ _
    · rintro op ho v' m'' i'' rfl
      have := g.sep _ (midIn _ ho) _ sIn (m'', i'') (m, idx) rfl rfl (by
        intro e
        injection e with e1 e2
        exact hst _ ho v' (by rw [e1, e2]))
      rwa [hE] at this
  have wf' : WF (p.map (Op.subst r v)) := by
    have rIn : r ∈ results p := List.mem_filterMap.2 ⟨_, lIn, rfl⟩
    refine g.wf.subst (Or.inl rIn) ?_
    intro q op q' e hr hv
    -- the definition of `r` is the load
    have vno : ∀ {q op q'}, p = q ++ op :: q' → op.res = some r → v ∉ results q' := by
      intro q op q' e hr hv
      have w := g.wf
      have nodef : v ∉ results (.store v m idx :: (mid ++ .load r m idx :: p.drop (j + 1))) := by
        rw [ep] at w
        exact w.append.1.1 v (by simp [Op.operands])
      -- `r` is not defined in the first part
      have e' := e.symm.trans ep
      rcases List.append_eq_append_iff.1 e' with ⟨c, c1, c2⟩ | ⟨c, c1, c2⟩
      · -- q is a prefix of `take i`
        cases c with
        | nil =>
          rw [List.nil_append] at c2
          injection c2 with c3 c4
          rw [c3] at hr
          exact absurd hr (by simp [Op.res])
        | cons o c =>
          injection c2 with c3 c4
          rw [ep] at w
          have := (w.append.2 op (by rw [c1, c3]; simp)).2 r hr
          exact this (by
            rw [results_cons]; right
            rw [results_append, List.mem_append, results_cons]; right; left; rfl)
      · have : v ∈ results (c ++ op :: q') := by
          rw [results_append, List.mem_append, results_cons]
          exact Or.inr (Or.inr hv)
        exact nodef (c2 ▸ this)
    exact vno e hr hv
  have er : run S (p.map (Op.subst r v)) s = run S p s := by
    refine run_eq wf' ?_ ?_
    · rw [hE, hM, exec_subst erv]
      exact hex
    · rw [results_subst, hE]
      exact hout
  refine ⟨er, wf', ?_, calls_subst g.calls, typed_subst g.typed ((g.typed _ lIn).2.2 _ _ _ rfl)
    ((g.typed _ sIn).2.1 _ _ _ rfl)⟩
  rw [er]
  exact alias_subst g.sep (by rw [hE]; exact erv)

/-- Erasing keeps the run. -/
theorem remove_ok {S : Sem V} {s : St V} {isMemref : Nat → Prop} {p q : List Op}
    {users : List Nat} {i : Nat} (g : Good S s isMemref p) (hu : UsersOf p users i)
    (h : removeStore p users i = some q) : run S q s = run S p s ∧ Good S s isMemref q := by
  unfold removeStore at h
  obtain ⟨k, hk, h⟩ := Option.map_eq_some_iff.1 h
  have hf := List.find?_some hk
  have hmem := List.mem_of_find?_eq_some hk
  obtain ⟨v, m, v', m', idx, mid, ep, pi, pk, hreg, hld⟩ := overwritten_split hf
  subst h
  have sIn : Op.store v m idx ∈ p := List.mem_of_getElem? pi
  have sIn' : Op.store v' m' idx ∈ p := List.mem_of_getElem? pk
  have em : m' = m := by
    obtain ⟨op, a, e1, e2, e3⟩ := hu
    rw [pi] at e1
    cases e1
    cases e2
    obtain ⟨u, f1, f2⟩ := e3 k hmem
    rw [pk] at f1
    cases f1
    exact typed_memref g.typed sIn' ((g.typed _ sIn).1 _ rfl).1 f2
  subst em
  have il : (p.take i).length = i := by
    rw [List.length_take]
    have := (List.getElem?_eq_some_iff.1 pi).1
    omega
  have eq : p.eraseIdx i = p.take i ++ (mid ++ .store v' m' idx :: p.drop (k + 1)) := by
    conv_lhs => rw [ep]
    rw [List.eraseIdx_append_of_length_le (by omega)]
    simp [il]
  have sub : p.eraseIdx i ⊆ p := List.eraseIdx_subset
  obtain ⟨hex, hout⟩ := good_exec g
  have wf' : WF (p.eraseIdx i) := by
    rw [eq]
    have w := g.wf
    rw [ep] at w
    exact w.eraseIdx
  have midIn : ∀ op ∈ mid, op ∈ p := by
    intro op ho
    rw [ep]
    simp [ho]
  have res : ∀ a, a ∉ results (p.eraseIdx i) → a ∉ results p := by
    intro a ha hb
    apply ha
    rw [eq, results_append, List.mem_append]
    rw [ep, results_append, List.mem_append, results_cons] at hb
    simpa [Op.res] using hb
  have er : run S (p.eraseIdx i) s = run S p s := by
    refine run_eq wf' ?_ (fun a ha => hout a (res a ha))
    have hal := g.sep
    generalize (run S p s).env = E at hex hout hal
    generalize (run S p s).mem = M at hex
    rw [eq]
    rw [ep, exec_append] at hex
    rw [exec_append]
    obtain ⟨μ₁, x0, x1⟩ := hex
    refine ⟨μ₁, x0, ?_⟩
    have x2 := x1.2
    rw [exec_append] at x2
    obtain ⟨μ₂, y1, y2⟩ := x2
    have hs : SameBut (E m') (idx.map E) (after S E μ₁ (.store v m' idx)) μ₁ := by
      intro m'' i'' hne
      exact write_other (fun e => hne e.symm)
    obtain ⟨ν, z1, z2⟩ := exec_sameBut y1
      (fun op ho r f a => ⟨g.calls op (midIn op ho) r f a, hreg op ho r f a⟩) (by
        rintro op ho r m'' i'' rfl
        exact hal _ (midIn _ ho) _ sIn (m'', i'') (m', idx) rfl rfl (by
          intro e
          injection e with e1 e2
          exact hld _ ho r (by rw [e1, e2]))) hs
    rw [exec_append]
    refine ⟨ν, z1, trivial, ?_⟩
    have e : after S E ν (.store v' m' idx) = after S E μ₂ (.store v' m' idx) := by
      funext m'' i''
      simp only [after, Mem.write]
      split
      · rfl
      · rename_i hne
        exact (z2 _ _ (fun e => by injection e with e1 e2; exact hne ⟨e1, e2⟩)).symm
    rw [e]
    exact y2.2
  refine ⟨er, wf', ?_, fun op ho => g.calls op (sub ho), typed_sub g.typed sub⟩
  rw [er]
  exact fun op ho op' ho' => g.sep op (sub ho) op' (sub ho')

end Heir.Forward
