import Verif.InPlace.SetOut

/-! # The walk of the Lattigo pass -/

namespace Heir.InPlace

/-- Some value that refers to the storage is stored. -/
def Stored (ops : List Op) (e : Nat × List Nat) : Prop :=
  isStored ops e.1 = true ∨ ∃ v ∈ e.2, isStored ops v = true

/-- The entry lists the values that refer to the object of its storage. -/
structure Good (n : Nat) (ops : List Op) (e : Nat × List Nat) : Prop where
  own : locs ops e.1 = e.1
  ge : n ≤ e.1
  sound : ∀ v ∈ e.2, locs ops v = e.1
  full : ∀ v, locs ops v = e.1 → v = e.1 ∨ v ∈ e.2
  made : ∀ v, v = e.1 ∨ v ∈ e.2 → ∀ o ∈ ops, o.res = v → ∀ c, o.kind ≠ .fetch c

/-- Each loaded ciphertext is the contents of a cell from before, loaded once and not held; as long as the loaded value
is of use nothing else refers to it. -/
def Loads (n : Nat) (ops post : List Op) : Prop :=
  ∀ o ∈ ops, ∀ c, o.kind = .fetch (some c) → ∃ a, a < n ∧ o.args = [a] ∧
    (∀ o' ∈ ops, a ∈ o'.args → o'.res = o.res) ∧ ¬ IsHeld ops a ∧ ¬ IsHeld ops o.res ∧
    ((∃ o' ∈ post, o.res ∈ o'.uses) → ∀ v, locs ops v = a → v = a ∨ v = o.res)

structure Inv (n : Nat) (st : Info) (pre post : List Op) : Prop where
  wf : WellFormed ⟨n, pre ++ post⟩
  clean : Clean ⟨n, pre ++ post⟩
  seen : ∀ v, IsHeld (pre ++ post) v → isStored (pre ++ post) v = true ∨ locs (pre ++ post) v < n
  entries : ∀ e ∈ st, Stored (pre ++ post) e ∨ Good n (pre ++ post) e
  has : ∀ o ∈ post, (∃ f b, o.kind = .conv f b) → o.out = none → ∃ e ∈ st, e.1 = o.res
  loads : Loads n (pre ++ post) post

theorem mem_addRef {st : Info} {s : Nat} {vs : List Nat} {e : Nat × List Nat} (h : e ∈ addRef st s vs) :
    (∃ e0 ∈ st, e0.1 = s ∧ e = (s, e0.2 ++ vs)) ∨ ((∀ e0 ∈ st, e0.1 ≠ s) ∧ e = (s, vs)) ∨ (e ∈ st ∧ e.1 ≠ s) := by
  unfold addRef at h
  split at h
  · obtain ⟨e0, h0, he⟩ := List.mem_map.1 h
    by_cases hs : e0.1 = s
    · left
      refine ⟨e0, h0, hs, ?_⟩
      rw [← he]; simp [hs]
    · right; right
      simp only [beq_iff_eq, hs, if_false] at he
      subst he
      exact ⟨h0, hs⟩
  · rename_i hn
    have hn : ∀ e0 ∈ st, e0.1 ≠ s := by
      intro e0 h0 hs
      exact hn (List.any_eq_true.2 ⟨e0, h0, by simp [hs]⟩)
    rcases List.mem_append.1 h with h | h
    · exact Or.inr (Or.inr ⟨h, hn e h⟩)
    · exact Or.inr (Or.inl ⟨hn, List.mem_singleton.1 h⟩)

theorem addRef_keys {st : Info} {s : Nat} {vs : List Nat} {e : Nat × List Nat} (h : e ∈ st) :
    ∃ e' ∈ addRef st s vs, e'.1 = e.1 := by
  unfold addRef
  split
  · refine ⟨_, List.mem_map.2 ⟨e, h, rfl⟩, ?_⟩
    split <;> rfl
  · exact ⟨e, List.mem_append_left _ h, rfl⟩

/-- The values that referred to the result. -/
def refsOf (st : Info) (r : Nat) : List Nat := ((st.find? fun e => e.1 == r).map (·.2)).getD []

theorem merge_eq (st : Info) (s r : Nat) :
    merge st s r = (addRef st s (r :: refsOf st r)).filter fun e => !(e.1 == r) := rfl

theorem refsOf_mem {st : Info} {r : Nat} (h : ∃ e ∈ st, e.1 = r) : (r, refsOf st r) ∈ st := by
  obtain ⟨e, he, hr⟩ := h
  unfold refsOf
  cases hf : st.find? fun e => e.1 == r with
  | none =>
    have := List.find?_eq_none.1 hf e he
    simp [hr] at this
  | some e' =>
    have h1 := List.mem_of_find?_eq_some hf
    have h2 := List.find?_some hf
    simp only [beq_iff_eq] at h2
    simp only [Option.map_some, Option.getD_some]
    rw [← h2]
    exact h1

theorem mem_merge {st : Info} {s r : Nat} {e : Nat × List Nat} (h : e ∈ merge st s r) :
    e.1 ≠ r ∧ ((∃ e0 ∈ st, e0.1 = s ∧ e = (s, e0.2 ++ r :: refsOf st r)) ∨
      ((∀ e0 ∈ st, e0.1 ≠ s) ∧ e = (s, r :: refsOf st r)) ∨ (e ∈ st ∧ e.1 ≠ s)) := by
  rw [merge_eq, List.mem_filter] at h
  refine ⟨by simpa using h.2, mem_addRef h.1⟩

theorem merge_keys {st : Info} {s r : Nat} {e : Nat × List Nat} (h : e ∈ st) (hr : e.1 ≠ r) :
    ∃ e' ∈ merge st s r, e'.1 = e.1 := by
  obtain ⟨e', he', h1⟩ := addRef_keys (s := s) (vs := r :: refsOf st r) h
  refine ⟨e', ?_, h1⟩
  rw [merge_eq, List.mem_filter]
  exact ⟨he', by simp [h1, hr]⟩

theorem deadAfter_iff {post : List Op} {v : Nat} : deadAfter post v = true ↔ ∀ o ∈ post, v ∉ o.uses := by
  simp [deadAfter]

/-- What the pass does to one operation. -/
theorem step_cases {lev : Nat → Option Nat} {st st' : Info} {pre post : List Op} {op op' : Op}
    (h : lattigoStep lev st pre op post = some (st', op')) :
    (st' = st ∧ op' = op) ∨ ∃ s, st' = merge st s op.res ∧ op' = op.into s ∧ (∃ f b, op.kind = .conv f b) ∧
      op.out = none ∧ ((∃ e ∈ st, e.1 = s ∧ available lev pre op post e = true) ∨
        ∃ o ∈ pre, ∃ c, o.kind = .fetch (some c) ∧ o.res = s ∧ s ∈ op.args ∧ deadAfter post s = true ∧
          isStored (pre ++ op :: post) op.res = true) := by
  unfold lattigoStep at h
  cases hk : op.kind with
  | conv f pat =>
    rw [hk] at h
    cases ho : op.out with
    | some s => simp only [ho, Option.some.injEq, Prod.mk.injEq] at h; exact Or.inl ⟨h.1.symm, h.2.symm⟩
    | none =>
      simp only [ho] at h
      cases hp : pickStorage lev st pre op post pat with
      | none => rw [hp] at h; cases h
      | some q =>
        rw [hp] at h
        cases q with
        | none =>
          simp only [Option.some.injEq, Prod.mk.injEq] at h; exact Or.inl ⟨h.1.symm, h.2.symm⟩
        | some s =>
          simp only [Option.some.injEq, Prod.mk.injEq] at h
          right
          refine ⟨s, h.1.symm, by rw [← h.2]; simp [Op.into, hk], ⟨f, pat, rfl⟩, rfl, ?_⟩
          unfold pickStorage at hp
          cases hg : getAvailable lev st pre op post with
          | some s' =>
            rw [hg] at hp
            obtain rfl : s' = s := by simpa using hp
            left
            unfold getAvailable at hg
            cases hf : st.find? (available lev pre op post) with
            | none => rw [hf] at hg; cases hg
            | some e =>
              rw [hf] at hg
              exact ⟨e, List.mem_of_find?_eq_some hf, by simpa using hg, List.find?_some hf⟩
          | none =>
            rw [hg] at hp
            cases pat with
            | false => cases hp
            | true =>
              simp only [if_true] at hp
              cases hm : memrefStorage pre op post with
              | none => rw [hm] at hp; cases hp
              | some s' =>
                rw [hm] at hp
                simp only at hp
                split at hp
                · obtain rfl : s' = s := by simpa using hp
                  right
                  unfold memrefStorage at hm
                  obtain ⟨c, hc, hm⟩ := List.exists_of_findSome?_eq_some hm
                  have h1 := List.mem_of_find?_eq_some hm
                  have h2 := List.find?_some hm
                  simp only [Bool.and_eq_true, List.any_eq_true, beq_iff_eq] at h2
                  obtain ⟨⟨o, ho, hok, hor⟩, hd⟩ := h2
                  refine ⟨o, ho, c, hok, hor, h1, hd, ?_⟩
                  obtain ⟨o', ho', hc'⟩ := List.mem_filterMap.1 hc
                  unfold isStored
                  rw [List.any_eq_true]
                  refine ⟨o', by simp [ho'], ?_⟩
                  cases hk' : o'.kind with
                  | hold c' b =>
                    cases b with
                    | true =>
                      cases c' with
                      | none => rw [hk'] at hc'; cases hc'
                      | some c' =>
                        rw [hk'] at hc'
                        simp only at hc'
                        split at hc'
                        · assumption
                        · cases hc'
                    | false =>
                      rw [hk'] at hc'
                      cases c' <;> cases hc'
                  | _ => rw [hk'] at hc'; cases hc'
                · cases hp
  | _ =>
    rw [hk] at h
    simp only [Option.some.injEq, Prod.mk.injEq] at h
    exact Or.inl ⟨h.1.symm, h.2.symm⟩

section
variable {n : Nat} {lev : Nat → Option Nat} {st : Info} {pre post : List Op} {op : Op}

theorem uses_or (hi : Inv n st pre (op :: post)) {o : Op} (ho : o ∈ post) : o.res ≠ op.res :=
  known_ne hi.wf (pre := pre ++ [op]) (post := post) (by simp) (Or.inr ⟨op, by simp, rfl⟩) o ho

/-- A storage the pass finds available. -/
theorem avail_facts (hi : Inv n st pre (op :: post)) {e : Nat × List Nat} (he : e ∈ st)
    (ha : available lev pre op post e = true) :
    Good n (pre ++ op :: post) e ∧ ¬ Stored (pre ++ op :: post) e ∧ Known n pre e.1 ∧
      (∀ v, v = e.1 ∨ v ∈ e.2 → ∀ o ∈ post, v ∉ o.uses) ∧ levelFits lev op e = true := by
  unfold available at ha
  simp only [Bool.and_eq_true, Bool.not_eq_true', Bool.or_eq_false_iff, List.any_eq_true, List.all_eq_true,
    beq_iff_eq] at ha
  obtain ⟨⟨⟨⟨o, ho, hr⟩, hs1, hs2⟩, hl⟩, hd1, hd2⟩ := ha
  have hns : ¬ Stored (pre ++ op :: post) e := by
    rintro (h | ⟨v, hv, h⟩)
    · rw [hs1] at h; cases h
    · rw [List.any_eq_false] at hs2
      exact hs2 v hv h
  refine ⟨(hi.entries e he).resolve_left hns, hns, Or.inr ⟨o, ho, hr⟩, ?_, hl⟩
  rintro v (rfl | hv)
  · exact deadAfter_iff.1 hd2
  · exact deadAfter_iff.1 (hd1 v hv)

theorem avail_reusable (hi : Inv n st pre (op :: post)) (hk : ∃ f b, op.kind = .conv f b) (ho : op.out = none)
    {e : Nat × List Nat} (he : e ∈ st) (ha : available lev pre op post e = true) :
    Reusable n pre op post e.1 ∧ (∀ v, locs (pre ++ op :: post) v = locs (pre ++ op :: post) e.1 →
      (∀ o ∈ post, v ∉ o.args) ∧ ¬ IsHeld (pre ++ op :: post) v) := by
  obtain ⟨hg, hns, hkn, hd, -⟩ := avail_facts hi he ha
  refine ⟨⟨hi.wf, hk, ho, hkn, ?_⟩, ?_⟩
  · intro o ho t ht heq
    rw [hg.own] at heq
    exact hd t (hg.full t heq) o ho (mem_uses_out ht)
  · intro v hv
    rw [hg.own] at hv
    have hm := hg.full v hv
    refine ⟨fun o ho h => hd v hm o ho (mem_uses_args h), fun hh => ?_⟩
    rcases hi.seen v hh with h | h
    · apply hns
      rcases hm with rfl | hm
      · exact Or.inl h
      · exact Or.inr ⟨v, hm, h⟩
    · have := hg.ge
      omega

theorem load_facts (hi : Inv n st pre (op :: post)) {o : Op} (hop : o ∈ pre) {c : Nat}
    (hok : o.kind = .fetch (some c)) (hs : o.res ∈ op.args) (hd : deadAfter post o.res = true) :
    ∃ a, a < n ∧ o.args = [a] ∧ locs (pre ++ op :: post) o.res = a ∧
      (∀ v, locs (pre ++ op :: post) v = a → v = a ∨ v = o.res) ∧
      (∀ v, v = a ∨ v = o.res → (∀ o' ∈ post, v ∉ o'.args) ∧ ¬ IsHeld (pre ++ op :: post) v) := by
  obtain ⟨a, han, hargs, hread, h1, h2, h3⟩ := hi.loads o (by simp [hop]) c hok
  obtain ⟨A, B, e⟩ := List.append_of_mem hop
  have hL : locs (pre ++ op :: post) o.res = a := by
    rw [loc_res_fetch hi.wf (pre := A) (post := B ++ op :: post) (by simp [e]) hok hargs, loc_arg hi.wf han]
  refine ⟨a, han, hargs, hL, h3 ⟨op, List.mem_cons_self, mem_uses_args hs⟩, ?_⟩
  rintro v (rfl | rfl)
  · refine ⟨fun o' ho' h => ?_, h1⟩
    have := hread o' (by simp [ho']) h
    exact known_ne hi.wf rfl (Or.inr ⟨o, hop, rfl⟩) o' (List.mem_cons_of_mem _ ho') this
  · exact ⟨fun o' ho' h => deadAfter_iff.1 hd o' ho' (mem_uses_args h), h2⟩

theorem load_reusable (hi : Inv n st pre (op :: post)) (hk : ∃ f b, op.kind = .conv f b) (ho : op.out = none)
    {o : Op} (hop : o ∈ pre) {c : Nat}
    (hok : o.kind = .fetch (some c)) (hs : o.res ∈ op.args) (hd : deadAfter post o.res = true) :
    Reusable n pre op post o.res ∧ (∀ v, locs (pre ++ op :: post) v = locs (pre ++ op :: post) o.res →
      (∀ o ∈ post, v ∉ o.args) ∧ ¬ IsHeld (pre ++ op :: post) v) := by
  obtain ⟨a, han, hargs, hL, hcl, hdead⟩ := load_facts hi hop hok hs hd
  have hkn : Known n pre o.res := Or.inr ⟨o, hop, rfl⟩
  refine ⟨⟨hi.wf, hk, ho, hkn, ?_⟩, ?_⟩
  · intro o' ho' t ht heq
    obtain ⟨A, B, e⟩ := List.append_of_mem ho'
    have e' : pre ++ op :: post = (pre ++ op :: A) ++ o' :: B := by simp [e]
    have h1 := loc_res_out hi.wf e' ht
    rw [heq, hL] at h1
    rcases hcl _ h1 with h | h
    · have : n ≤ o'.res := (hi.wf _ o' B e').1
      omega
    · exact known_ne hi.wf rfl hkn o' (List.mem_cons_of_mem _ ho') h
  · intro v hv
    rw [hL] at hv
    exact hdead v (hcl v hv)

theorem mem_into {a b : List Op} {op o : Op} {s : Nat} (h : o ∈ a ++ op.into s :: b) :
    ∃ o0 ∈ a ++ op :: b, o0.res = o.res ∧ o0.kind = o.kind ∧ o0.args = o.args := by
  rcases List.mem_append.1 h with h | h
  · exact ⟨o, by simp [h], rfl, rfl, rfl⟩
  · rcases List.mem_cons.1 h with rfl | h
    · exact ⟨op, by simp, rfl, rfl, rfl⟩
    · exact ⟨o, by simp [h], rfl, rfl, rfl⟩

theorem stored_into (hk : ∃ f b, op.kind = .conv f b) (s : Nat) (e : Nat × List Nat) :
    Stored (pre ++ op.into s :: post) e ↔ Stored (pre ++ op :: post) e := by
  simp only [Stored, isStored_into hk]

theorem inv_into (hi : Inv n st pre (op :: post)) {s : Nat} (h : Reusable n pre op post s)
    (hd : ∀ v, locs (pre ++ op :: post) v = locs (pre ++ op :: post) s →
      (∀ o ∈ post, v ∉ o.args) ∧ ¬ IsHeld (pre ++ op :: post) v)
    (hent : ∀ e ∈ merge st s op.res,
      Stored (pre ++ op.into s :: post) e ∨ Good n (pre ++ op.into s :: post) e)
    (hload : ∀ o ∈ pre ++ op :: post, ∀ c, o.kind = .fetch (some c) → ∀ a, a < n → o.args = [a] →
      (∃ o' ∈ post, o.res ∈ o'.uses) → locs (pre ++ op :: post) s ≠ a) :
    Inv n (merge st s op.res) (pre ++ [op.into s]) post := by
  have hset := loc_into h.wf h.conv h.out h.known
  have hap : pre ++ [op.into s] ++ post = pre ++ op.into s :: post := by simp
  have hres : n ≤ op.res := (hi.wf pre op post rfl).1
  refine ⟨?_, ?_, ?_, ?_, ?_, ?_⟩ <;> try rw [hap]
  · exact wf_into h.wf h.conv h.known
  · exact clean_into h hi.clean hd
  · intro v hv
    rw [isHeld_into h.conv] at hv
    rw [isStored_into h.conv]
    rcases hi.seen v hv with h' | h'
    · exact Or.inl h'
    · right
      rw [hset, if_neg (by omega)]
      exact h'
  · exact hent
  · intro o ho hko hoo
    obtain ⟨e, he, her⟩ := hi.has o (List.mem_cons_of_mem _ ho) hko hoo
    obtain ⟨e', he', h1⟩ := merge_keys (s := s) (r := op.res) he (by rw [her]; exact uses_or hi ho)
    exact ⟨e', he', h1.trans her⟩
  · intro o ho c hoc
    obtain ⟨o0, ho0, hr0, hk0, ha0⟩ := mem_into ho
    obtain ⟨a, h1, h2, h3, h4, h5, h6⟩ := hi.loads o0 ho0 c (hk0.trans hoc)
    refine ⟨a, h1, ha0 ▸ h2, ?_, ?_, ?_, ?_⟩
    · intro o' ho' ha'
      obtain ⟨o1, ho1, hr1, hk1, ha1⟩ := mem_into ho'
      rw [← hr1, ← hr0]
      exact h3 o1 ho1 (ha1 ▸ ha')
    · rw [isHeld_into h.conv]; exact h4
    · rw [isHeld_into h.conv, ← hr0]; exact h5
    · rintro ⟨o', ho', hu⟩ v hv
      rw [← hr0] at hu ⊢
      have hne := hload o0 ho0 c (hk0.trans hoc) a h1 h2 ⟨o', ho', hu⟩
      rw [hset] at hv
      by_cases hvr : locs (pre ++ op :: post) v = op.res
      · rw [if_pos hvr] at hv
        exact absurd hv hne
      · rw [if_neg hvr] at hv
        exact h6 ⟨o', List.mem_cons_of_mem _ ho', hu⟩ v hv

theorem inv_same (hi : Inv n st pre (op :: post)) : Inv n st (pre ++ [op]) post := by
  have hap : pre ++ [op] ++ post = pre ++ op :: post := by simp
  refine ⟨?_, ?_, ?_, ?_, ?_, ?_⟩ <;> try rw [hap]
  · exact hi.wf
  · exact hi.clean
  · exact hi.seen
  · exact hi.entries
  · exact fun o ho => hi.has o (List.mem_cons_of_mem _ ho)
  · intro o ho c hc
    obtain ⟨a, h1, h2, h3, h4, h5, h6⟩ := hi.loads o ho c hc
    exact ⟨a, h1, h2, h3, h4, h5, fun ⟨o', ho', hu⟩ => h6 ⟨o', List.mem_cons_of_mem _ ho', hu⟩⟩

theorem good_other {s : Nat} (h : Reusable n pre op post s)
    {e : Nat × List Nat} (hr : e.1 ≠ op.res) (hs : locs (pre ++ op :: post) s ≠ e.1)
    (hg : Good n (pre ++ op :: post) e) : Good n (pre ++ op.into s :: post) e := by
  have hset := loc_into h.wf h.conv h.out h.known
  refine ⟨?_, hg.ge, ?_, ?_, ?_⟩
  · rw [hset, hg.own, if_neg hr]
  · intro v hv
    rw [hset, hg.sound v hv, if_neg hr]
  · intro v hv
    rw [hset] at hv
    split at hv
    · exact absurd hv hs
    · exact hg.full v hv
  · intro v hv o ho hov c
    obtain ⟨o0, ho0, hr0, hk0, -⟩ := mem_into ho
    rw [← hk0]
    exact hg.made v hv o0 ho0 (hr0.trans hov) c

theorem inv_step (hi : Inv n st pre (op :: post)) {st' : Info} {op' : Op}
    (h : lattigoStep lev st pre op post = some (st', op')) : Inv n st' (pre ++ [op']) post := by
  rcases step_cases h with ⟨rfl, rfl⟩ | ⟨s, rfl, rfl, hk, ho, ⟨e, he, rfl, ha⟩ | ⟨o, hop, c, hok, rfl, hs, hd, hst⟩⟩
  · exact inv_same hi
  · obtain ⟨hr, hdd⟩ := avail_reusable hi hk ho he ha
    obtain ⟨hg, hns, hkn, hdead, -⟩ := avail_facts hi he ha
    have hset := loc_into hr.wf hr.conv hr.out hr.known
    have hrm : (op.res, refsOf st op.res) ∈ st := refsOf_mem (hi.has op List.mem_cons_self hk ho)
    have hown : locs (pre ++ op :: post) op.res = op.res := by
      obtain ⟨f, b, hk⟩ := hk
      exact loc_res_own hi.wf rfl ho (by simp [hk])
    have hner : e.1 ≠ op.res := fun he => not_known hi.wf rfl (he ▸ hkn)
    refine inv_into hi hr hdd ?_ ?_
    · intro e' he'
      obtain ⟨hne, ⟨e0, h0, hs0, rfl⟩ | ⟨hno, -⟩ | ⟨h0, hs0⟩⟩ := mem_merge he'
      · rw [stored_into hk]
        rcases hi.entries e0 h0 with hs' | hg0
        · left
          rcases hs' with h' | ⟨v, hv, h'⟩
          · exact Or.inl (hs0 ▸ h')
          · exact Or.inr ⟨v, List.mem_append_left _ hv, h'⟩
        · rcases hi.entries _ hrm with hs' | hgr
          · left
            rcases hs' with h' | ⟨v, hv, h'⟩
            · exact Or.inr ⟨op.res, by simp, h'⟩
            · exact Or.inr ⟨v, by simp [hv], h'⟩
          · right
            have h0own := hg0.own
            have h0ge := hg0.ge
            have h0sound := hg0.sound
            have h0full := hg0.full
            have h0made := hg0.made
            rw [hs0] at h0own h0ge h0sound h0full h0made
            refine ⟨?_, h0ge, ?_, ?_, ?_⟩
            · simp only; rw [hset, h0own, if_neg hner]
            · intro v hv
              simp only [List.mem_append, List.mem_cons] at hv ⊢
              rw [hset]
              rcases hv with hv | rfl | hv
              · rw [h0sound v hv, if_neg hner]
              · rw [if_pos hown, h0own]
              · rw [if_pos (hgr.sound v hv), h0own]
            · intro v hv
              simp only [List.mem_append, List.mem_cons] at hv ⊢
              rw [hset] at hv
              split at hv
              · rename_i hvr
                rcases hgr.full v hvr with h' | h'
                · exact Or.inr (Or.inr (Or.inl h'))
                · exact Or.inr (Or.inr (Or.inr h'))
              · rcases h0full v hv with h' | h'
                · exact Or.inl h'
                · exact Or.inr (Or.inl h')
            · intro v hv o ho' hov c
              obtain ⟨o0, ho0, hr0, hk0, -⟩ := mem_into ho'
              rw [← hk0]
              simp only [List.mem_append, List.mem_cons] at hv
              rcases hv with hv | hv | hv | hv
              · exact h0made v (Or.inl hv) o0 ho0 (hr0.trans hov) c
              · exact h0made v (Or.inr hv) o0 ho0 (hr0.trans hov) c
              · exact hgr.made v (Or.inl hv) o0 ho0 (hr0.trans hov) c
              · exact hgr.made v (Or.inr hv) o0 ho0 (hr0.trans hov) c
      · exact absurd rfl (hno e he)
      · rw [stored_into hk]
        refine (hi.entries e' h0).imp_right fun hg' => good_other hr hne ?_ hg'
        rw [hg.own]
        exact fun h => hs0 h.symm
    · intro o _ c _ a han _ _ heq
      rw [hg.own] at heq
      have := hg.ge
      omega
  · obtain ⟨hr, hdd⟩ := load_reusable hi hk ho hop hok hs hd
    obtain ⟨a, han, hargs, hL, hcl, hdead⟩ := load_facts hi hop hok hs hd
    refine inv_into hi hr hdd ?_ ?_
    · intro e' he'
      obtain ⟨hne, ⟨e0, h0, hs0, rfl⟩ | ⟨hno, rfl⟩ | ⟨h0, hs0⟩⟩ := mem_merge he'
      · left
        rw [stored_into hk]
        exact Or.inr ⟨op.res, by simp, hst⟩
      · left
        rw [stored_into hk]
        exact Or.inr ⟨op.res, by simp, hst⟩
      · rw [stored_into hk]
        refine (hi.entries e' h0).imp_right fun hg' => good_other hr hne ?_ hg'
        intro heq
        exact hg'.made _ (hg'.full _ heq) o (by simp [hop]) rfl _ hok
    · intro o' ho' c' hk' a' han' hargs' ⟨o1, ho1, hu⟩ heq
      obtain ⟨a1, h1, h2, -, -, -, h6⟩ := hi.loads o' ho' c' hk'
      obtain rfl : a' = a1 := by rw [hargs'] at h2; simpa using h2
      rcases h6 ⟨o1, List.mem_cons_of_mem _ ho1, hu⟩ o.res heq with h' | h'
      · obtain ⟨A, B, e⟩ := List.append_of_mem hop
        have : n ≤ o.res := (hi.wf A o (B ++ op :: post) (by simp [e])).1
        omega
      · rw [← h'] at hu
        exact deadAfter_iff.1 hd o1 ho1 hu

theorem inv_go : ∀ (post : List Op) (st : Info) (pre out : List Op), Inv n st pre post →
    lattigoGo lev st pre post = some out → ∃ st', Inv n st' out [] := by
  intro post
  induction post with
  | nil =>
    intro st pre out hi h
    obtain rfl : pre = out := by simpa [lattigoGo] using h
    exact ⟨st, hi⟩
  | cons op post ih =>
    intro st pre out hi h
    rw [lattigoGo] at h
    cases hs : lattigoStep lev st pre op post with
    | none => rw [hs] at h; cases h
    | some r =>
      rw [hs] at h
      exact ih _ _ _ (inv_step hi hs) h

theorem bare_go : ∀ (post : List Op) (st : Info) (pre out : List Op),
    lattigoGo lev st pre post = some out → out.map Op.bare = (pre ++ post).map Op.bare := by
  intro post
  induction post with
  | nil =>
    intro st pre out h
    obtain rfl : pre = out := by simpa [lattigoGo] using h
    simp
  | cons op post ih =>
    intro st pre out h
    rw [lattigoGo] at h
    cases hs : lattigoStep lev st pre op post with
    | none => rw [hs] at h; cases h
    | some r =>
      rw [hs] at h
      rw [ih _ _ _ h]
      have : r.2.bare = op.bare := by
        rcases step_cases (st' := r.1) (op' := r.2) hs with ⟨-, h2⟩ | ⟨s, -, h2, -⟩ <;> (rw [h2]; try rfl)
      simp [this]

end

/-! ## Where the walk starts -/

section
variable {n : Nat} {ops : List Op}

structure InitEntry (n : Nat) (ops pre : List Op) (e : Nat × List Nat) : Prop where
  own : locs ops e.1 = e.1
  ge : n ≤ e.1
  sound : ∀ v ∈ e.2, locs ops v = e.1
  known : ∀ v, v = e.1 ∨ v ∈ e.2 → ∃ o ∈ pre, o.res = v ∧ ∀ c, o.kind ≠ .fetch c
  full : Stored ops e ∨ ∀ v, Known n pre v → locs ops v = e.1 → v = e.1 ∨ v ∈ e.2

theorem initEntry_mono {pre : List Op} {op : Op} {e : Nat × List Nat} (h : InitEntry n ops pre e)
    (hr : Stored ops e ∨ locs ops op.res ≠ e.1) : InitEntry n ops (pre ++ [op]) e := by
  refine ⟨h.own, h.ge, h.sound, ?_, ?_⟩
  · intro v hv
    obtain ⟨o, ho, h'⟩ := h.known v hv
    exact ⟨o, List.mem_append_left _ ho, h'⟩
  · rcases hr with hr | hr
    · exact Or.inl hr
    · refine h.full.imp_right fun hf v hv hl => ?_
      refine hf v (known_snoc hv ?_) hl
      rintro rfl
      exact hr hl

theorem init_inv (hw : WellFormed ⟨n, ops⟩)
    (hfetch : ∀ o ∈ ops, ∀ c, o.kind = .fetch c → ∀ a ∈ o.args, locs ops a < n ∨ isStored ops a = true) :
    ∀ (pre post : List Op), ops = pre ++ post →
    (∀ e ∈ initInfo pre, InitEntry n ops pre e) ∧
      ∀ o ∈ pre, (∃ f b, o.kind = .conv f b) → o.out = none → ∃ e ∈ initInfo pre, e.1 = o.res := by
  intro pre
  induction pre using List.reverseRecOn with
  | nil => intro post _; exact ⟨fun e he => (by cases he), fun o ho => (by cases ho)⟩
  | append_singleton pre op ih =>
    intro post e0
    have e' : ops = pre ++ op :: post := by simp [e0]
    obtain ⟨ih1, ih2⟩ := ih (op :: post) e'
    have hst : initInfo (pre ++ [op]) = initStep (initInfo pre) op := by simp [initInfo, List.foldl_append]
    have hge : n ≤ op.res := (hw pre op post e').1
    have hek : ∀ e ∈ initInfo pre, e.1 ≠ op.res := by
      intro e he hr
      obtain ⟨o, ho, h1, -⟩ := (ih1 e he).known e.1 (Or.inl rfl)
      exact not_known hw e' (Or.inr ⟨o, ho, h1.trans hr⟩)
    have hnew : op.out = none → (∀ c, op.kind ≠ .fetch c) →
        (∀ e ∈ initInfo pre ++ [(op.res, [])], InitEntry n ops (pre ++ [op]) e) := by
      intro ho hk e he
      have hown := loc_res_own hw e' ho hk
      rcases List.mem_append.1 he with he | he
      · exact initEntry_mono (ih1 e he) (Or.inr (by rw [hown]; exact fun h => hek e he h.symm))
      · obtain rfl := List.mem_singleton.1 he
        refine ⟨hown, hge, fun v hv => (by cases hv), ?_, ?_⟩
        · rintro v (rfl | hv)
          · exact ⟨op, by simp, rfl, hk⟩
          · cases hv
        · right
          intro v hv hl
          left
          by_contra hne
          have := loc_known' hw e' (known_snoc hv hne)
          rw [show locs ops v = op.res from hl] at this
          exact not_known hw e' this
    have hhas : ∀ st : Info, (∀ e ∈ initInfo pre, ∃ e' ∈ st, e'.1 = e.1) →
        ∀ o ∈ pre, (∃ f b, o.kind = .conv f b) → o.out = none → ∃ e ∈ st, e.1 = o.res := by
      intro st hsub o ho hk hoo
      obtain ⟨e, he, h1⟩ := ih2 o ho hk hoo
      obtain ⟨e', he', h2⟩ := hsub e he
      exact ⟨e', he', h2.trans h1⟩
    have hsnoc : ∀ {P : Op → Prop}, (∀ o ∈ pre, P o) → P op → ∀ o ∈ pre ++ [op], P o := by
      intro P h1 h2 o ho
      rcases List.mem_append.1 ho with ho | ho
      · exact h1 o ho
      · rw [List.mem_singleton.1 ho]; exact h2
    rw [hst]
    unfold initStep
    cases hk : op.kind with
    | conv f b =>
      cases ho : op.out with
      | none =>
        simp only
        refine ⟨hnew ho (by simp [hk]), hsnoc (hhas _ fun e he => ⟨e, by simp [he], rfl⟩) ?_⟩
        intro _ _
        exact ⟨(op.res, []), by simp, rfl⟩
      | some s =>
        have hks := uses_known hw e' (mem_uses_out ho)
        have hLr : locs ops op.res = locs ops s := loc_res_out hw e' ho
        simp only
        cases hg : getStorage (initInfo pre) s with
        | none =>
          simp only
          refine ⟨?_, hsnoc (hhas _ fun e he => ⟨e, he, rfl⟩) (by simp [ho])⟩
          intro e he
          refine initEntry_mono (ih1 e he) ?_
          rcases (ih1 e he).full with hs | hf
          · exact Or.inl hs
          · right
            rw [hLr]
            intro hl
            have hm := hf s hks hl
            unfold getStorage at hg
            rw [Option.map_eq_none_iff, List.find?_eq_none] at hg
            have := hg e he
            simp only [Bool.or_eq_true, beq_iff_eq, List.contains_iff_mem, not_or] at this
            rcases hm with h | h
            · exact this.1 h.symm
            · exact this.2 h
        | some root =>
          simp only
          unfold getStorage at hg
          obtain ⟨e1, hfind, rfl⟩ := Option.map_eq_some_iff.1 hg
          have he1 := List.mem_of_find?_eq_some hfind
          have hp := List.find?_some hfind
          simp only [Bool.or_eq_true, beq_iff_eq, List.contains_iff_mem] at hp
          have hLs : locs ops s = e1.1 := by
            rcases hp with h | h
            · rw [← h]; exact (ih1 e1 he1).own
            · exact (ih1 e1 he1).sound s h
          refine ⟨?_, hsnoc (hhas _ fun e he => addRef_keys he) (by simp [ho])⟩
          intro e he
          rcases mem_addRef he with ⟨e0, h0, hs0, rfl⟩ | ⟨hno, -⟩ | ⟨h0, hs0⟩
          · have hi0 := ih1 e0 h0
            have h0own := hi0.own
            have h0ge := hi0.ge
            have h0sound := hi0.sound
            have h0known := hi0.known
            have h0full := hi0.full
            rw [hs0] at h0own h0ge h0sound h0known h0full
            refine ⟨h0own, h0ge, ?_, ?_, ?_⟩
            · intro v hv
              rcases List.mem_append.1 hv with hv | hv
              · exact h0sound v hv
              · rw [List.mem_singleton.1 hv, hLr, hLs]
            · rintro v hv
              simp only [List.mem_append, List.mem_singleton] at hv
              rcases hv with hv | hv | rfl
              · obtain ⟨o, ho, h'⟩ := h0known v (Or.inl hv)
                exact ⟨o, by simp [ho], h'⟩
              · obtain ⟨o, ho, h'⟩ := h0known v (Or.inr hv)
                exact ⟨o, by simp [ho], h'⟩
              · exact ⟨op, by simp, rfl, by simp [hk]⟩
            · rcases h0full with hs | hf
              · left
                rcases hs with h' | ⟨v, hv, h'⟩
                · exact Or.inl (hs0 ▸ h')
                · exact Or.inr ⟨v, List.mem_append_left _ hv, h'⟩
              · right
                intro v hv hl
                simp only [List.mem_append, List.mem_singleton]
                by_cases hvr : v = op.res
                · exact Or.inr (Or.inr hvr)
                · rcases hf v (known_snoc hv hvr) hl with h' | h'
                  · exact Or.inl h'
                  · exact Or.inr (Or.inl h')
          · exact absurd rfl (hno e1 he1)
          · refine initEntry_mono (ih1 e h0) (Or.inr ?_)
            rw [hLr, hLs]
            exact fun h => hs0 h.symm
    | alloc f =>
      have ho : op.out = none := by
        by_contra h
        obtain ⟨f, b', hk'⟩ := (hw pre op post e').2.2.2.1 h
        rw [hk] at hk'; cases hk'
      exact ⟨hnew ho (by simp [hk]), hsnoc (hhas _ fun e he => ⟨e, by simp [he], rfl⟩) (by simp [hk])⟩
    | plain f =>
      have ho : op.out = none := by
        by_contra h
        obtain ⟨f, b', hk'⟩ := (hw pre op post e').2.2.2.1 h
        rw [hk] at hk'; cases hk'
      have hown := loc_res_own hw e' ho (by simp [hk])
      refine ⟨fun e he => initEntry_mono (ih1 e he) (Or.inr ?_), hsnoc (hhas _ fun e he => ⟨e, he, rfl⟩) (by simp [hk])⟩
      rw [hown]; exact fun h => hek e he h.symm
    | hold c b =>
      have ho : op.out = none := by
        by_contra h
        obtain ⟨f, b', hk'⟩ := (hw pre op post e').2.2.2.1 h
        rw [hk] at hk'; cases hk'
      have hown := loc_res_own hw e' ho (by simp [hk])
      refine ⟨fun e he => initEntry_mono (ih1 e he) (Or.inr ?_), hsnoc (hhas _ fun e he => ⟨e, he, rfl⟩) (by simp [hk])⟩
      rw [hown]; exact fun h => hek e he h.symm
    | fetch c =>
      obtain ⟨a, ha⟩ := (hw pre op post e').2.2.2.2 c hk
      have hLr := loc_res_fetch hw e' hk ha
      have hka := uses_known hw e' (v := a) (mem_uses_args (by simp [ha]))
      refine ⟨fun e he => initEntry_mono (ih1 e he) ?_, hsnoc (hhas _ fun e he => ⟨e, he, rfl⟩) (by simp [hk])⟩
      rcases (ih1 e he).full with hs | hf
      · exact Or.inl hs
      · by_cases hl : locs ops op.res = e.1
        · left
          rw [hLr] at hl
          rcases hfetch op (by simp [e']) c hk a (by simp [ha]) with h | h
          · have := (ih1 e he).ge
            omega
          · rcases hf a hka hl with rfl | hm
            · exact Or.inl h
            · exact Or.inr ⟨a, hm, h⟩
        · exact Or.inr hl

theorem inv_init (hw : WellFormed ⟨n, ops⟩) (hc : Clean ⟨n, ops⟩)
    (hseen : ∀ v, IsHeld ops v → isStored ops v = true ∨ locs ops v < n)
    (hfetch : ∀ o ∈ ops, ∀ c, o.kind = .fetch c → ∀ a ∈ o.args, locs ops a < n ∨ isStored ops a = true)
    (hl : Loads n ops ops) : Inv n (initInfo ops) [] ops := by
  obtain ⟨h1, h2⟩ := init_inv hw hfetch ops [] (by simp)
  refine ⟨hw, hc, hseen, ?_, h2, hl⟩
  intro e he
  have hi := h1 e he
  refine hi.full.imp_right fun hf => ⟨hi.own, hi.ge, hi.sound, ?_, ?_⟩
  · intro v hv
    by_cases hk : Known n ops v
    · exact hf v hk hv
    · left
      rw [← hv]
      exact (locs_unknown fun o ho e => hk (Or.inr ⟨o, ho, e⟩)).symm
  · intro v hv o ho hov c hkc
    obtain ⟨o', ho', hr', hk'⟩ := hi.known v hv
    have hoo : o' = o := by
      obtain ⟨A, B, e⟩ := List.append_of_mem (show o ∈ ops from ho)
      rw [e] at ho'
      rcases List.mem_append.1 ho' with h | h
      · exact absurd (hr'.trans hov.symm) ((hw A o B e).2.1 o' h)
      · rcases List.mem_cons.1 h with h | h
        · exact h
        · exact absurd (hr'.trans hov.symm) (known_ne hw (pre := A ++ [o]) (post := B) (by simp [e])
            (Or.inr ⟨o, by simp, rfl⟩) o' h)
    exact hk' c (hoo ▸ hkc)

end

/-! ## Levels -/

section
variable {n : Nat} {lev : Nat → Option Nat} {st : Info} {pre post : List Op} {op : Op}

/-- The values that refer to a storage have consumed more and more levels. -/
def Rising (l : Nat → Nat) (ops : List Op) (st : Info) : Prop :=
  ∀ e ∈ st, Stored ops e ∨ (e.1 :: e.2).Pairwise fun a b => l a ≤ l b

theorem le_last {l : Nat → Nat} : ∀ {vs : List Nat} {a : Nat}, (a :: vs).Pairwise (fun a b => l a ≤ l b) →
    ∀ v ∈ a :: vs, l v ≤ l (vs.getLast?.getD a) := by
  intro vs
  induction vs with
  | nil => intro a _ v hv; rw [List.mem_singleton.1 hv]; exact Nat.le_refl _
  | cons b vs ih =>
    intro a h v hv
    rw [List.pairwise_cons] at h
    have hb := ih h.2
    have hlast : (b :: vs).getLast?.getD a = vs.getLast?.getD b := by
      cases vs with
      | nil => rfl
      | cons c cs => rw [List.getLast?_cons_cons]; cases h' : (c :: cs).getLast? with
        | none => simp at h'
        | some x => rfl
    rw [hlast]
    rcases List.mem_cons.1 hv with rfl | hv
    · exact Nat.le_trans (h.1 b List.mem_cons_self) (hb b List.mem_cons_self)
    · exact hb v hv

/-- What a load reads has not consumed more levels than the results of the operations on it. -/
def LoadLevels (l : Nat → Nat) (ops : List Op) : Prop :=
  ∀ o ∈ ops, ∀ c, o.kind = .fetch (some c) → ∀ op ∈ ops, o.res ∈ op.args →
    l o.res ≤ l op.res ∧ ∀ a ∈ o.args, l a ≤ l op.res

theorem avail_levels {l : Nat → Nat} (hlev : ∀ v, lev v = some (l v)) (hi : Inv n st pre (op :: post))
    (hri : Rising l (pre ++ op :: post) st) {e : Nat × List Nat} (he : e ∈ st)
    (ha : available lev pre op post e = true) :
    (e.1 :: e.2).Pairwise (fun a b => l a ≤ l b) ∧ ∀ v ∈ e.1 :: e.2, l v ≤ l op.res := by
  obtain ⟨-, hns, -, -, hl⟩ := avail_facts hi he ha
  have hp := (hri e he).resolve_left hns
  refine ⟨hp, fun v hv => Nat.le_trans (le_last hp v hv) ?_⟩
  simpa [levelFits, storageLevel, hlev] using hl

theorem rising_step {l : Nat → Nat} (hlev : ∀ v, lev v = some (l v)) (hi : Inv n st pre (op :: post))
    (hri : Rising l (pre ++ op :: post) st) (hlc : LevelClean l ⟨n, pre ++ op :: post⟩)
    (hll : LoadLevels l (pre ++ op :: post)) {st' : Info} {op' : Op}
    (h : lattigoStep lev st pre op post = some (st', op')) :
    Rising l (pre ++ op' :: post) st' ∧ LevelClean l ⟨n, pre ++ op' :: post⟩ ∧ LoadLevels l (pre ++ op' :: post) := by
  have hllinto : ∀ s, LoadLevels l (pre ++ op.into s :: post) := by
    intro s o ho c hoc o1 ho1 hu
    obtain ⟨o0, ho0, hr0, hk0, ha0⟩ := mem_into ho
    obtain ⟨o2, ho2, hr2, hk2, ha2⟩ := mem_into ho1
    rw [← hr0, ← hr2, ← ha0]
    exact hll o0 ho0 c (hk0.trans hoc) o2 ho2 (by rw [hr0, ha2]; exact hu)
  rcases step_cases h with ⟨rfl, rfl⟩ | ⟨s, rfl, rfl, hk, ho, ⟨e, he, rfl, ha⟩ | ⟨o, hop, c, hok, rfl, hs, hd, hst⟩⟩
  · exact ⟨hri, hlc, hll⟩
  · obtain ⟨hr, -⟩ := avail_reusable hi hk ho he ha
    obtain ⟨hg, -⟩ := avail_facts hi he ha
    obtain ⟨hp, hle⟩ := avail_levels hlev hi hri he ha
    have hrm : (op.res, refsOf st op.res) ∈ st := refsOf_mem (hi.has op List.mem_cons_self hk ho)
    have hset := loc_into hr.wf hr.conv hr.out hr.known
    refine ⟨?_, ?_, hllinto _⟩
    · intro e' he'
      rw [stored_into hk]
      obtain ⟨hne, ⟨e0, h0, hs0, rfl⟩ | ⟨hno, -⟩ | ⟨h0, hs0⟩⟩ := mem_merge he'
      · rcases hi.entries e0 h0 with hs' | hg0
        · left
          rcases hs' with h' | ⟨v, hv, h'⟩
          · exact Or.inl (hs0 ▸ h')
          · exact Or.inr ⟨v, List.mem_append_left _ hv, h'⟩
        · rcases hri _ hrm with hs' | hpr
          · left
            rcases hs' with h' | ⟨v, hv, h'⟩
            · exact Or.inr ⟨op.res, by simp, h'⟩
            · exact Or.inr ⟨v, by simp [hv], h'⟩
          · rcases hri e0 h0 with hs' | hp0
            · left
              rcases hs' with h' | ⟨v, hv, h'⟩
              · exact Or.inl (hs0 ▸ h')
              · exact Or.inr ⟨v, List.mem_append_left _ hv, h'⟩
            · right
              rw [hs0] at hp0
              -- both lists are of the values of one object
              have hmem : ∀ v ∈ e.1 :: e0.2, l v ≤ l op.res := by
                intro v hv
                rcases List.mem_cons.1 hv with rfl | hv
                · exact hle _ List.mem_cons_self
                · have hL := hg0.sound v hv
                  rw [hs0] at hL
                  exact hle v (List.mem_cons.2 (hg.full v hL))
              show ((e.1 :: e0.2) ++ (op.res :: refsOf st op.res)).Pairwise fun a b => l a ≤ l b
              rw [List.pairwise_append]
              refine ⟨hp0, hpr, fun a ha b hb => ?_⟩
              rcases List.mem_cons.1 hb with rfl | hb
              · exact hmem a ha
              · exact Nat.le_trans (hmem a ha) ((List.pairwise_cons.1 hpr).1 b hb)
      · exact absurd rfl (hno e he)
      · exact hri e' h0
    · refine levelClean_into l hr hlc fun v hv => ?_
      rw [hg.own] at hv
      exact hle v (List.mem_cons.2 (hg.full v hv))
  · obtain ⟨hr, -⟩ := load_reusable hi hk ho hop hok hs hd
    obtain ⟨a, han, hargs, hL, hcl, hdead⟩ := load_facts hi hop hok hs hd
    have hlo := hll o (by simp [hop]) c hok op (by simp) hs
    refine ⟨?_, ?_, hllinto _⟩
    · intro e' he'
      rw [stored_into hk]
      obtain ⟨hne, ⟨e0, h0, hs0, rfl⟩ | ⟨hno, rfl⟩ | ⟨h0, hs0⟩⟩ := mem_merge he'
      · exact Or.inl (Or.inr ⟨op.res, by simp, hst⟩)
      · exact Or.inl (Or.inr ⟨op.res, by simp, hst⟩)
      · exact hri e' h0
    · refine levelClean_into l hr hlc fun v hv => ?_
      rw [hL] at hv
      rcases hcl v hv with rfl | rfl
      · exact hlo.2 v (by simp [hargs])
      · exact hlo.1

theorem rising_go {l : Nat → Nat} (hlev : ∀ v, lev v = some (l v)) : ∀ (post : List Op) (st : Info) (pre out : List Op),
    Inv n st pre post → Rising l (pre ++ post) st → LevelClean l ⟨n, pre ++ post⟩ → LoadLevels l (pre ++ post) →
    lattigoGo lev st pre post = some out → LevelClean l ⟨n, out⟩ := by
  intro post
  induction post with
  | nil =>
    intro st pre out hi _ hlc _ h
    obtain rfl : pre = out := by simpa [lattigoGo] using h
    simpa using hlc
  | cons op post ih =>
    intro st pre out hi hri hlc hll h
    rw [lattigoGo] at h
    cases hs : lattigoStep lev st pre op post with
    | none => rw [hs] at h; cases h
    | some r =>
      rw [hs] at h
      obtain ⟨h1, h2, h3⟩ := rising_step hlev hi hri hlc hll (st' := r.1) (op' := r.2) hs
      have hap : pre ++ r.2 :: post = pre ++ [r.2] ++ post := by simp
      rw [hap] at h1 h2 h3
      exact ih _ _ _ (inv_step hi hs) h1 h2 h3 h

/-- With levels the pass comes to an end. -/
theorem go_some {l : Nat → Nat} (hlev : ∀ v, lev v = some (l v)) : ∀ (post : List Op) (st : Info) (pre : List Op),
    ∃ out, lattigoGo lev st pre post = some out := by
  intro post
  induction post with
  | nil => intro st pre; exact ⟨pre, rfl⟩
  | cons op post ih =>
    intro st pre
    rw [lattigoGo]
    have hpick : ∀ pat, pickStorage lev st pre op post pat ≠ none := by
      intro pat
      unfold pickStorage
      cases getAvailable lev st pre op post with
      | some s => simp
      | none =>
        cases pat with
        | false => simp
        | true =>
          cases memrefStorage pre op post with
          | none => simp
          | some s => simp [hlev]
    have : ∃ r, lattigoStep lev st pre op post = some r := by
      unfold lattigoStep
      cases op.kind with
      | conv f pat =>
        cases op.out with
        | some s => exact ⟨_, rfl⟩
        | none =>
          cases hp : pickStorage lev st pre op post pat with
          | none => exact absurd hp (hpick pat)
          | some q => cases q <;> simp [hp]
      | _ => exact ⟨_, rfl⟩
    obtain ⟨r, hr⟩ := this
    rw [hr]
    exact ih _ _

theorem init_rising {l : Nat → Nat} {ops : List Op} (hw : WellFormed ⟨n, ops⟩) (hlc : LevelClean l ⟨n, ops⟩)
    (hfetch : ∀ o ∈ ops, ∀ c, o.kind = .fetch c → ∀ a ∈ o.args, locs ops a < n ∨ isStored ops a = true) :
    ∀ (pre post : List Op), ops = pre ++ post → ∀ e ∈ initInfo pre,
      (e.1 :: e.2).Pairwise fun a b => l a ≤ l b := by
  intro pre
  induction pre using List.reverseRecOn with
  | nil => intro post _ e he; cases he
  | append_singleton pre op ih =>
    intro post e0
    have e' : ops = pre ++ op :: post := by simp [e0]
    have ih := ih (op :: post) e'
    obtain ⟨ih1, -⟩ := init_inv hw hfetch pre (op :: post) e'
    have hst : initInfo (pre ++ [op]) = initStep (initInfo pre) op := by simp [initInfo, List.foldl_append]
    have hnew : ∀ e ∈ initInfo pre ++ [(op.res, [])], (e.1 :: e.2).Pairwise fun a b => l a ≤ l b := by
      intro e he
      rcases List.mem_append.1 he with he | he
      · exact ih e he
      · obtain rfl := List.mem_singleton.1 he
        simp
    rw [hst]
    unfold initStep
    cases hk : op.kind with
    | conv f b =>
      cases ho : op.out with
      | none => exact hnew
      | some s =>
        simp only
        cases hg : getStorage (initInfo pre) s with
        | none => exact ih
        | some root =>
          simp only
          unfold getStorage at hg
          obtain ⟨e1, hfind, rfl⟩ := Option.map_eq_some_iff.1 hg
          have he1 := List.mem_of_find?_eq_some hfind
          have hp := List.find?_some hfind
          simp only [Bool.or_eq_true, beq_iff_eq, List.contains_iff_mem] at hp
          have hLs : locs ops s = e1.1 := by
            rcases hp with h | h
            · rw [← h]; exact (ih1 e1 he1).own
            · exact (ih1 e1 he1).sound s h
          intro e he
          rcases mem_addRef he with ⟨e0, h0, hs0, rfl⟩ | ⟨hno, -⟩ | ⟨h0, hs0⟩
          · have hp0 := ih e0 h0
            rw [hs0] at hp0
            show ((e1.1 :: e0.2) ++ [op.res]).Pairwise fun a b => l a ≤ l b
            rw [List.pairwise_append]
            refine ⟨hp0, by simp, fun a ha b hb => ?_⟩
            rw [List.mem_singleton.1 hb]
            have hi0 := ih1 e0 h0
            rw [← hs0] at ha
            have hm := List.mem_cons.1 ha
            obtain ⟨o, ho1, ho2, -⟩ := hi0.known a hm
            refine hlc pre op post e' s ho a (Or.inr ⟨o, ho1, ho2⟩) ?_
            show locs ops a = locs ops s
            rw [hLs, ← hs0]
            rcases hm with rfl | hm
            · exact hi0.own
            · exact hi0.sound a hm
          · exact absurd rfl (hno e1 he1)
          · exact ih e h0
    | alloc f => exact hnew
    | _ => exact ih

/-! ## Arguments -/

/-- The pass gives no operation the object of an argument, other than that of a cell it loads. -/
theorem args_step (hi : Inv n st pre (op :: post)) (hnl : ∀ o ∈ pre ++ op :: post, ∀ c, o.kind ≠ .fetch (some c))
    (hargs : ∀ o ∈ pre ++ op :: post, (∃ f, o.kind.fn? = some f) → n ≤ locs (pre ++ op :: post) o.res)
    {st' : Info} {op' : Op} (h : lattigoStep lev st pre op post = some (st', op')) :
    (∀ o ∈ pre ++ op' :: post, ∀ c, o.kind ≠ .fetch (some c)) ∧
    ∀ o ∈ pre ++ op' :: post, (∃ f, o.kind.fn? = some f) → n ≤ locs (pre ++ op' :: post) o.res := by
  rcases step_cases h with ⟨rfl, rfl⟩ | ⟨s, rfl, rfl, hk, ho, ⟨e, he, rfl, ha⟩ | ⟨o, hop, c, hok, -⟩⟩
  · exact ⟨hnl, hargs⟩
  · obtain ⟨hr, -⟩ := avail_reusable hi hk ho he ha
    obtain ⟨hg, -⟩ := avail_facts hi he ha
    have hset := loc_into hr.wf hr.conv hr.out hr.known
    refine ⟨fun o ho c => ?_, fun o ho hf => ?_⟩
    · obtain ⟨o0, ho0, -, hk0, -⟩ := mem_into ho
      rw [← hk0]; exact hnl o0 ho0 c
    · obtain ⟨o0, ho0, hr0, hk0, -⟩ := mem_into ho
      rw [← hr0, hset]
      split
      · rw [hg.own]; exact hg.ge
      · exact hargs o0 ho0 (by rw [hk0]; exact hf)
  · exact absurd hok (hnl o (by simp [hop]) c)

theorem args_go : ∀ (post : List Op) (st : Info) (pre out : List Op), Inv n st pre post →
    (∀ o ∈ pre ++ post, ∀ c, o.kind ≠ .fetch (some c)) →
    (∀ o ∈ pre ++ post, (∃ f, o.kind.fn? = some f) → n ≤ locs (pre ++ post) o.res) →
    lattigoGo lev st pre post = some out →
    ∀ o ∈ out, (∃ f, o.kind.fn? = some f) → n ≤ locs out o.res := by
  intro post
  induction post with
  | nil =>
    intro st pre out hi _ h2 h
    obtain rfl : pre = out := by simpa [lattigoGo] using h
    simpa using h2
  | cons op post ih =>
    intro st pre out hi h1 h2 h
    rw [lattigoGo] at h
    cases hs : lattigoStep lev st pre op post with
    | none => rw [hs] at h; cases h
    | some r =>
      rw [hs] at h
      obtain ⟨h3, h4⟩ := args_step hi h1 h2 (st' := r.1) (op' := r.2) hs
      have hap : pre ++ r.2 :: post = pre ++ [r.2] ++ post := by simp
      rw [hap] at h3 h4
      exact ih _ _ _ (inv_step hi hs) h3 h4 h

theorem memAll_args {D : Type} (I : Nat → List D → D) (L : Nat → Nat) {a : Nat} : ∀ (ops : List Op),
    (∀ o ∈ ops, (∃ f, o.kind.fn? = some f) → L o.res ≠ a) → ∀ mem : Nat → D, memAll I L mem ops a = mem a := by
  intro ops
  induction ops with
  | nil => intro _ mem; rfl
  | cons o os ih =>
    intro h mem
    have h0 := h o List.mem_cons_self
    have : memAll I L mem (o :: os) = memAll I L (memStep I L mem o) os := rfl
    rw [this, ih (fun o' ho' => h o' (List.mem_cons_of_mem _ ho'))]
    unfold memStep
    cases hk : o.kind with
    | conv f b => exact upd_ne _ _ (fun e => h0 ⟨f, by simp [hk, Kind.fn?]⟩ e.symm)
    | alloc f => exact upd_ne _ _ (fun e => h0 ⟨f, by simp [hk, Kind.fn?]⟩ e.symm)
    | plain f => exact upd_ne _ _ (fun e => h0 ⟨f, by simp [hk, Kind.fn?]⟩ e.symm)
    | _ => rfl

end

end Heir.InPlace
