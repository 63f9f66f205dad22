import Verif.InPlace.SetOut

/-! # The walk of the OpenFHE pass -/

namespace Heir.InPlace

section
variable {n : Nat} {pre post : List Op} {op : Op}

structure MInv (n : Nat) (pre post : List Op) : Prop where
  wf : WellFormed ⟨n, pre ++ post⟩
  clean : Clean ⟨n, pre ++ post⟩
  nofetch : NoFetch ⟨n, pre ++ post⟩
  last : HoldsLast ⟨n, pre ++ post⟩
  ahead : ∀ o ∈ post, o.out = none
  one : ∀ u v, Known n pre u → Known n pre v → u ≠ v → locs (pre ++ post) u = locs (pre ++ post) v →
    (∀ o ∈ post, u ∉ o.args) ∨ ∀ o ∈ post, v ∉ o.args

theorem ahead_own (hi : MInv n pre post) {v : Nat} (hv : ¬ Known n pre v) : locs (pre ++ post) v = v := by
  by_cases h : ∃ o ∈ post, o.res = v
  · obtain ⟨o, ho, rfl⟩ := h
    obtain ⟨A, B, e⟩ := List.append_of_mem ho
    exact loc_res_own hi.wf (pre := pre ++ A) (post := B) (by simp [e]) (hi.ahead o ho)
      (hi.nofetch o (by simp [ho]))
  · refine locs_unknown fun o ho e => ?_
    rcases List.mem_append.1 ho with ho | ho
    · exact hv (Or.inr ⟨o, ho, e⟩)
    · exact h ⟨o, ho, e⟩

theorem minv_same (hi : MInv n pre (op :: post)) : MInv n (pre ++ [op]) post := by
  have hap : pre ++ [op] ++ post = pre ++ op :: post := by simp
  refine ⟨?_, ?_, ?_, ?_, ?_, ?_⟩ <;> try rw [hap]
  · exact hi.wf
  · exact hi.clean
  · exact hi.nofetch
  · exact hi.last
  · exact fun o ho => hi.ahead o (List.mem_cons_of_mem _ ho)
  · have hown := ahead_own hi (not_known hi.wf rfl)
    intro u v hu hv hne hl
    by_cases hur : u = op.res
    · subst hur
      have hv' := known_snoc hv fun h => hne h.symm
      rw [hown] at hl
      exact absurd (hl ▸ loc_known' hi.wf rfl hv') (not_known hi.wf rfl)
    · have hu' := known_snoc hu hur
      by_cases hvr : v = op.res
      · subst hvr
        rw [hown] at hl
        exact absurd (hl ▸ loc_known' hi.wf rfl hu') (not_known hi.wf rfl)
      · rcases hi.one u v hu' (known_snoc hv hvr) hne hl with h | h
        · exact Or.inl fun o ho => h o (List.mem_cons_of_mem _ ho)
        · exact Or.inr fun o ho => h o (List.mem_cons_of_mem _ ho)

theorem mem_into' {a b : List Op} {op o : Op} {s : Nat} (h : o ∈ a ++ op.into s :: b) :
    ∃ o0 ∈ a ++ op :: b, o0.res = o.res ∧ o0.kind = o.kind ∧ o0.args = o.args := by
  rcases List.mem_append.1 h with h | h
  · exact ⟨o, by simp [h], rfl, rfl, rfl⟩
  · rcases List.mem_cons.1 h with rfl | h
    · exact ⟨op, by simp, rfl, rfl, rfl⟩
    · exact ⟨o, by simp [h], rfl, rfl, rfl⟩

theorem minv_into (hi : MInv n pre (op :: post)) (hk : ∃ f b, op.kind = .conv f b) {m : Nat} (hm : m ∈ op.args)
    (hd : deadAfter post m = true) : MInv n (pre ++ [op.into m]) post := by
  have hap : pre ++ [op.into m] ++ post = pre ++ op.into m :: post := by simp
  have hout : op.out = none := hi.ahead op List.mem_cons_self
  have hkn : Known n pre m := uses_known hi.wf rfl (mem_uses_args hm)
  have hdead : ∀ o ∈ post, m ∉ o.args := by
    intro o ho h
    have := hd
    simp only [deadAfter, List.all_eq_true, Bool.not_eq_true', List.contains_eq_mem, decide_eq_false_iff_not] at this
    exact this o ho (mem_uses_args h)
  have hr : Reusable n pre op post m :=
    ⟨hi.wf, hk, hout, hkn, fun o ho t ht => by rw [hi.ahead o (List.mem_cons_of_mem _ ho)] at ht; cases ht⟩
  have hcl : ∀ v, locs (pre ++ op :: post) v = locs (pre ++ op :: post) m →
      (∀ o ∈ post, v ∉ o.args) ∧ ¬ IsHeld (pre ++ op :: post) v := by
    intro v hv
    have hread : ∀ o ∈ post, v ∉ o.args := by
      by_cases hkv : Known n pre v
      · by_cases hvm : v = m
        · subst hvm; exact hdead
        · rcases hi.one v m hkv hkn hvm hv with h | h
          · exact fun o ho => h o (List.mem_cons_of_mem _ ho)
          · exact absurd hm (h op List.mem_cons_self)
      · rw [ahead_own hi hkv] at hv
        exact absurd (hv ▸ loc_known' hi.wf rfl hkn) hkv
    refine ⟨hread, fun hh => ?_⟩
    obtain ⟨o, ho, hvo, c, b, hko⟩ := held_mem hh
    rcases List.mem_append.1 ho with ho | ho
    · obtain ⟨A, B, e⟩ := List.append_of_mem ho
      obtain ⟨f, b', hk⟩ := hk
      exact hi.last A o (B ++ op :: post) (by simp [e]) ⟨c, b, hko⟩ op (by simp) f b' hk
    · rcases List.mem_cons.1 ho with rfl | ho
      · obtain ⟨f, b', hk⟩ := hk
        rw [hk] at hko; cases hko
      · exact hread o ho hvo
  have hset := loc_into hr.wf hr.conv hr.out hr.known
  refine ⟨?_, ?_, ?_, ?_, ?_, ?_⟩ <;> try rw [hap]
  · exact wf_into hr.wf hk hkn
  · exact clean_into hr hi.clean hcl
  · intro o ho c
    obtain ⟨o0, ho0, -, hk0, -⟩ := mem_into' ho
    rw [← hk0]; exact hi.nofetch o0 ho0 c
  · intro A o B e hh o' ho' f b
    rcases split_at e with ⟨C, h1, h2⟩ | ⟨rfl, rfl, rfl⟩ | ⟨C, rfl, h2⟩
    · rw [h2] at ho'
      obtain ⟨o0, ho0, -, hk0, -⟩ := mem_into' ho'
      rw [← hk0]
      exact hi.last A o (C ++ op :: post) (by simp [h1]) hh o0 ho0 f b
    · obtain ⟨f', b', hk⟩ := hk
      obtain ⟨c, b'', hh⟩ := hh
      have : op.kind = .hold c b'' := hh
      rw [hk] at this; cases this
    · exact hi.last (pre ++ op :: C) o B (by simp [h2]) hh o' ho' f b
  · exact fun o ho => hi.ahead o (List.mem_cons_of_mem _ ho)
  · intro u v hu hv hne hl
    have hfar : ∀ {x : Nat}, Known n pre x → locs (pre ++ op.into m :: post) x = locs (pre ++ op :: post) x := by
      intro x hx
      rw [hset, if_neg]
      intro h
      exact not_known hi.wf rfl (h ▸ loc_known' hi.wf rfl hx)
    have hown := ahead_own hi (not_known hi.wf rfl)
    have hrl : locs (pre ++ op.into m :: post) op.res = locs (pre ++ op :: post) m := by
      rw [hset, if_pos hown]
    by_cases hur : u = op.res
    · right
      subst hur
      have hv' : Known n pre v := known_snoc hv fun h => hne h.symm
      rw [hrl, hfar hv'] at hl
      exact (hcl v hl.symm).1
    · have hu' : Known n pre u := known_snoc hu hur
      by_cases hvr : v = op.res
      · left
        subst hvr
        rw [hrl, hfar hu'] at hl
        exact (hcl u hl).1
      · have hv' : Known n pre v := known_snoc hv hvr
        rw [hfar hu', hfar hv'] at hl
        rcases hi.one u v hu' hv' hne hl with h | h
        · exact Or.inl fun o ho => h o (List.mem_cons_of_mem _ ho)
        · exact Or.inr fun o ho => h o (List.mem_cons_of_mem _ ho)

theorem openfheStep_cases (refs : Refs) (op : Op) (post : List Op) :
    (openfheStep refs op post).2 = op ∨ ∃ m, (openfheStep refs op post).2 = op.into m ∧ m ∈ op.args ∧
      (∃ f b, op.kind = .conv f b) ∧ deadAfter post m = true := by
  unfold openfheStep
  split
  · rename_i f b m ms hk ho ha
    split
    · rename_i hs
      right
      unfold safeToMutate at hs
      rw [Bool.and_eq_true] at hs
      exact ⟨m, rfl, by simp [ha], ⟨f, b, hk⟩, hs.1⟩
    · exact Or.inl rfl
  · exact Or.inl rfl

theorem minv_go : ∀ (post : List Op) (refs : Refs) (pre : List Op), MInv n pre post →
    MInv n (openfheGo refs pre post) [] ∧ (openfheGo refs pre post).map Op.bare = (pre ++ post).map Op.bare := by
  intro post
  induction post with
  | nil => intro refs pre hi; exact ⟨hi, by simp [openfheGo]⟩
  | cons op post ih =>
    intro refs pre hi
    rw [openfheGo]
    rcases openfheStep_cases refs op post with h | ⟨m, h, hm, hk, hd⟩
    · rw [h]
      obtain ⟨h1, h2⟩ := ih (openfheStep refs op post).1 (pre ++ [op]) (minv_same hi)
      exact ⟨h1, by rw [h2]; simp⟩
    · rw [h]
      obtain ⟨h1, h2⟩ := ih (openfheStep refs op post).1 (pre ++ [op.into m]) (minv_into hi hk hm hd)
      refine ⟨h1, ?_⟩
      rw [h2]
      have : (op.into m).bare = op.bare := rfl
      simp [this]

end

theorem clean_of_none {p : Prog} (h : NoInPlace p) : Clean p := by
  intro pre op post e s ho
  rw [h op (by simp [e])] at ho
  cases ho

end Heir.InPlace
