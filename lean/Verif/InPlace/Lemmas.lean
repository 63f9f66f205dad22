import Mathlib.Data.List.Induction
import Mathlib.Tactic.ByContra
import Verif.InPlace.Spec

/-! # Objects of values, and why clean programs compute the right values -/

namespace Heir.InPlace

theorem upd_same {α : Type} (t : Nat → α) (r : Nat) (x : α) : upd t r x r = x := by simp [upd]

theorem upd_ne {α : Type} (t : Nat → α) {r v : Nat} (x : α) (h : v ≠ r) : upd t r x v = t v := by
  simp [upd, h]

theorem locStep_ne (t : Nat → Nat) (op : Op) {v : Nat} (h : v ≠ op.res) : locStep t op v = t v := by
  unfold locStep; cases op.kind <;> first | rfl | exact upd_ne _ _ h

theorem valStep_ne {D : Type} (I : Nat → List D → D) (t : Nat → D) (op : Op) {v : Nat} (h : v ≠ op.res) :
    valStep I t op v = t v := by
  unfold valStep; cases op.kind <;> first | rfl | exact upd_ne _ _ h

theorem foldl_stable {α : Type} (step : (Nat → α) → Op → Nat → α) (v : Nat)
    (hs : ∀ t op, v ≠ op.res → step t op v = t v) :
    ∀ (ops : List Op) (t : Nat → α), (∀ o ∈ ops, o.res ≠ v) → ops.foldl step t v = t v := by
  intro ops
  induction ops with
  | nil => intro t _; rfl
  | cons o os ih =>
    intro t h
    rw [List.foldl_cons, ih _ fun o' ho' => h o' (List.mem_cons_of_mem _ ho')]
    exact hs t o (fun e => h o List.mem_cons_self e.symm)

theorem Known.mono {n : Nat} {pre post : List Op} {v : Nat} (h : Known n pre v) : Known n (pre ++ post) v := by
  rcases h with h | ⟨o, ho, e⟩
  · exact Or.inl h
  · exact Or.inr ⟨o, List.mem_append_left _ ho, e⟩

theorem known_snoc {n : Nat} {pre : List Op} {op : Op} {v : Nat} (h : Known n (pre ++ [op]) v) (hv : v ≠ op.res) :
    Known n pre v := by
  rcases h with h | ⟨o, ho, e⟩
  · exact Or.inl h
  · rcases List.mem_append.1 ho with ho | ho
    · exact Or.inr ⟨o, ho, e⟩
    · obtain rfl := List.mem_singleton.1 ho
      exact absurd e.symm hv

section
variable {n : Nat} {ops pre post : List Op} {op : Op}

theorem known_ne (hw : WellFormed ⟨n, ops⟩) (e : ops = pre ++ post) {v : Nat} (hv : Known n pre v) :
    ∀ o ∈ post, o.res ≠ v := by
  intro o ho
  obtain ⟨a, b, rfl⟩ := List.append_of_mem ho
  obtain ⟨h1, h2, -⟩ := hw (pre ++ a) o b (by simp [e])
  rcases hv with hv | ⟨o', ho', rfl⟩
  · have h1 : n ≤ o.res := h1
    omega
  · exact fun h => h2 o' (List.mem_append_left _ ho') h.symm

theorem not_known (hw : WellFormed ⟨n, ops⟩) (e : ops = pre ++ op :: post) : ¬ Known n pre op.res := fun h =>
  known_ne hw e h op List.mem_cons_self rfl

theorem locs_append (a b : List Op) : locs (a ++ b) = b.foldl locStep (locs a) := by
  simp [locs, List.foldl_append]

theorem val_append {D : Type} (I : Nat → List D → D) (env : Nat → D) (a b : List Op) :
    val I env (a ++ b) = b.foldl (valStep I) (val I env a) := by
  simp [val, List.foldl_append]

theorem locs_stable (hw : WellFormed ⟨n, ops⟩) (e : ops = pre ++ post) {v : Nat} (hv : Known n pre v) :
    locs ops v = locs pre v := by
  rw [e, locs_append]
  exact foldl_stable locStep v (fun t op h => locStep_ne t op h) _ _ (known_ne hw e hv)

theorem val_stable {D : Type} (I : Nat → List D → D) (env : Nat → D) (hw : WellFormed ⟨n, ops⟩)
    (e : ops = pre ++ post) {v : Nat} (hv : Known n pre v) : val I env ops v = val I env pre v := by
  rw [e, val_append]
  exact foldl_stable (valStep I) v (fun t op h => valStep_ne I t op h) _ _ (known_ne hw e hv)

theorem locs_unknown {v : Nat} (h : ∀ o ∈ pre, o.res ≠ v) : locs pre v = v :=
  foldl_stable locStep v (fun t op h => locStep_ne t op h) pre id h

theorem uses_known (hw : WellFormed ⟨n, ops⟩) (e : ops = pre ++ op :: post) {v : Nat} (hv : v ∈ op.uses) :
    Known n pre v := (hw pre op post e).2.2.1 v hv

theorem mem_uses_args {v : Nat} (h : v ∈ op.args) : v ∈ op.uses := List.mem_append_left _ h

theorem mem_uses_out {v : Nat} (h : op.out = some v) : v ∈ op.uses :=
  List.mem_append_right _ (by simp [h])

theorem locs_snoc_res (hw : WellFormed ⟨n, ops⟩) (e : ops = pre ++ op :: post) :
    locs (pre ++ [op]) op.res = (match op.kind with
      | .conv _ _ => (op.out.map (locs pre)).getD op.res
      | .fetch _ => locs pre (op.args.headD 0)
      | _ => op.res) := by
  have hu : locs pre op.res = op.res := locs_unknown (hw pre op post e).2.1
  rw [locs_append]
  simp only [List.foldl_cons, List.foldl_nil]
  unfold locStep
  cases op.kind <;> simp [upd_same, hu]

theorem loc_known (hw : WellFormed ⟨n, ops⟩) : ∀ (pre post : List Op), ops = pre ++ post → ∀ v, Known n pre v →
    Known n pre (locs pre v) := by
  intro pre
  induction pre using List.reverseRecOn with
  | nil =>
    intro post _ v hv
    exact hv
  | append_singleton pre op ih =>
    intro post e v hv
    have e' : ops = pre ++ op :: post := by simp [e]
    have ih := ih (op :: post) e'
    by_cases hr : v = op.res
    · subst hr
      rw [locs_snoc_res hw e']
      have hself : Known n (pre ++ [op]) op.res := Or.inr ⟨op, by simp, rfl⟩
      cases hk : op.kind with
      | conv f b =>
        cases ho : op.out with
        | none => simpa [hk, ho] using hself
        | some s => simpa [hk, ho] using (ih s (uses_known hw e' (mem_uses_out ho))).mono
      | fetch c =>
        obtain ⟨a, ha⟩ := (hw pre op post e').2.2.2.2 c hk
        simpa [ha] using (ih a (uses_known hw e' (mem_uses_args (by simp [ha])))).mono
      | _ => exact hself
    · have hv' := known_snoc hv hr
      rw [locs_append]
      simp only [List.foldl_cons, List.foldl_nil]
      rw [locStep_ne _ _ hr]
      exact (ih v hv').mono

/-- The object of a known value was made for a known value. -/
theorem loc_known' (hw : WellFormed ⟨n, ops⟩) (e : ops = pre ++ post) {v : Nat} (hv : Known n pre v) :
    Known n pre (locs ops v) := by
  rw [locs_stable hw e hv]
  exact loc_known hw pre post e v hv

theorem loc_res (hw : WellFormed ⟨n, ops⟩) (e : ops = pre ++ op :: post) :
    locs ops op.res = locs (pre ++ [op]) op.res :=
  locs_stable hw (pre := pre ++ [op]) (post := post) (by simp [e]) (Or.inr ⟨op, by simp, rfl⟩)

theorem loc_res_out (hw : WellFormed ⟨n, ops⟩) (e : ops = pre ++ op :: post) {s : Nat} (ho : op.out = some s) :
    locs ops op.res = locs ops s := by
  obtain ⟨f, b, hk⟩ := (hw pre op post e).2.2.2.1 (by simp [ho])
  rw [loc_res hw e, locs_snoc_res hw e, hk, locs_stable hw e (uses_known hw e (mem_uses_out ho))]
  simp [ho]

theorem loc_res_fetch (hw : WellFormed ⟨n, ops⟩) (e : ops = pre ++ op :: post) {c : Option Nat} {a : Nat}
    (hk : op.kind = .fetch c) (ha : op.args = [a]) : locs ops op.res = locs ops a := by
  rw [loc_res hw e, locs_snoc_res hw e, hk,
    locs_stable hw e (v := a) (uses_known hw e (mem_uses_args (by simp [ha])))]
  simp [ha]

theorem loc_res_own (hw : WellFormed ⟨n, ops⟩) (e : ops = pre ++ op :: post) (ho : op.out = none)
    (hk : ∀ c, op.kind ≠ .fetch c) : locs ops op.res = op.res := by
  rw [loc_res hw e, locs_snoc_res hw e]
  cases h : op.kind with
  | fetch c => exact absurd h (hk c)
  | _ => simp [ho]

/-- An argument is an object of its own. -/
theorem loc_arg (hw : WellFormed ⟨n, ops⟩) {v : Nat} (hv : v < n) : locs ops v = v := by
  rw [locs_stable hw (pre := []) (post := ops) rfl (Or.inl hv)]; rfl

theorem memAll_snoc {D : Type} (I : Nat → List D → D) (L : Nat → Nat) (env : Nat → D) (pre : List Op) (op : Op) :
    memAll I L env (pre ++ [op]) = memStep I L (memAll I L env pre) op := by
  simp [memAll, List.foldl_append]

theorem val_snoc {D : Type} (I : Nat → List D → D) (env : Nat → D) (pre : List Op) (op : Op) :
    val I env (pre ++ [op]) = valStep I (val I env pre) op := by
  simp [val, List.foldl_append]

/-- In a clean program the object of a value someone still looks at has that value in it. -/
theorem mem_right {D : Type} (I : Nat → List D → D) (env : Nat → D) (hw : WellFormed ⟨n, ops⟩)
    (hc : Clean ⟨n, ops⟩) : ∀ (pre post : List Op), ops = pre ++ post → ∀ v, Known n pre v →
    ((∃ o ∈ post, v ∈ o.args) ∨ IsHeld ops v) →
    memAll I (locs ops) env pre (locs ops v) = val I env pre v := by
  intro pre
  induction pre using List.reverseRecOn with
  | nil =>
    intro post e v hv _
    rcases hv with hv | ⟨o, ho, _⟩
    · rw [loc_arg hw hv]; rfl
    · cases ho
  | append_singleton pre op ih =>
    intro post e v hv hl
    have e' : ops = pre ++ op :: post := by simp [e]
    have ih := ih (op :: post) e'
    have harg : ∀ a ∈ op.args, memAll I (locs ops) env pre (locs ops a) = val I env pre a := fun a ha =>
      ih a (uses_known hw e' (mem_uses_args ha)) (Or.inl ⟨op, List.mem_cons_self, ha⟩)
    have hargs : (op.args.map fun a => memAll I (locs ops) env pre (locs ops a)) = op.args.map (val I env pre) :=
      List.map_congr_left harg
    rw [memAll_snoc, val_snoc]
    by_cases hr : v = op.res
    · subst hr
      cases hk : op.kind with
      | fetch c =>
        obtain ⟨a, ha⟩ := (hw pre op post e').2.2.2.2 c hk
        simp only [memStep, valStep, hk, upd_same, ha, List.headD_cons]
        rw [loc_res_fetch hw e' hk ha]
        exact harg a (by simp [ha])
      | hold c b =>
        simp only [memStep, valStep, hk]
        rw [loc_res_own hw e' (by
          by_contra h
          obtain ⟨f, b', hk'⟩ := (hw pre op post e').2.2.2.1 h
          rw [hk] at hk'; cases hk') (by simp [hk])]
        have hu := not_known hw e'
        have h1 : ∀ o ∈ pre, o.res ≠ op.res := (hw pre op post e').2.1
        have h2 : val I env pre op.res = env op.res :=
          foldl_stable (valStep I) op.res (fun t op h => valStep_ne I t op h) pre env h1
        rw [h2]
        -- nobody has written an object of an unknown value
        have h3 : ∀ (a b : List Op), pre = a ++ b → memAll I (locs ops) env a op.res = env op.res := by
          intro a
          induction a using List.reverseRecOn with
          | nil => intro b _; rfl
          | append_singleton a o iha =>
            intro b eb
            rw [memAll_snoc]
            have heo : ops = a ++ o :: (b ++ op :: post) := by simp [e', eb]
            have hne : op.res ≠ locs ops o.res := by
              intro hh
              have : Known n (a ++ [o]) (locs ops o.res) :=
                loc_known' hw (pre := a ++ [o]) (post := b ++ op :: post) (by simp [heo]) (Or.inr ⟨o, by simp, rfl⟩)
              rw [← hh] at this
              exact hu (by rw [eb]; exact this.mono)
            have iha := iha ([o] ++ b) (by simp [eb])
            unfold memStep
            cases o.kind <;> first | exact iha | (dsimp only; rw [upd_ne _ _ hne]; exact iha)
        exact h3 pre [] (by simp)
      | conv f b => simp [memStep, valStep, hk, upd_same, hargs]
      | alloc f => simp [memStep, valStep, hk, upd_same, hargs]
      | plain f => simp [memStep, valStep, hk, upd_same, hargs]
    · have hv' := known_snoc hv hr
      rw [valStep_ne _ _ _ hr]
      have hl' : (∃ o ∈ op :: post, v ∈ o.args) ∨ IsHeld ops v := by
        rcases hl with ⟨o, ho, h⟩ | h
        · exact Or.inl ⟨o, List.mem_cons_of_mem _ ho, h⟩
        · exact Or.inr h
      have hne : (∀ c, op.kind ≠ .fetch c) → (∀ c b, op.kind ≠ .hold c b) → locs ops v ≠ locs ops op.res := by
        intro hf _ heq
        cases ho : op.out with
        | some s =>
          rw [loc_res_out hw e' ho] at heq
          obtain ⟨h1, h2⟩ := hc pre op post e' s ho v hv' heq
          rcases hl with ⟨o, ho, h⟩ | h
          · exact h1 o ho h
          · exact h2 h
        | none =>
          rw [loc_res_own hw e' ho hf] at heq
          exact not_known hw e' (heq ▸ loc_known' hw e' hv')
      have := ih v hv' hl'
      cases hk : op.kind with
      | fetch c => simpa [memStep, hk] using this
      | hold c b => simpa [memStep, hk] using this
      | conv f b => simpa [memStep, hk, upd_ne _ _ (hne (by simp [hk]) (by simp [hk]))] using this
      | alloc f => simpa [memStep, hk, upd_ne _ _ (hne (by simp [hk]) (by simp [hk]))] using this
      | plain f => simpa [memStep, hk, upd_ne _ _ (hne (by simp [hk]) (by simp [hk]))] using this

theorem reads_right {D : Type} (I : Nat → List D → D) (env : Nat → D) (hw : WellFormed ⟨n, ops⟩)
    (hc : Clean ⟨n, ops⟩) : ∀ (post pre : List Op), ops = pre ++ post →
    readsFrom I (locs ops) (memAll I (locs ops) env pre) post =
      post.map fun o => o.args.map (val I env ops) := by
  intro post
  induction post with
  | nil => intro pre _; rfl
  | cons op post ih =>
    intro pre e
    rw [readsFrom, List.map_cons, ← memAll_snoc, ih (pre ++ [op]) (by simp [e])]
    congr 1
    refine List.map_congr_left fun a ha => ?_
    have hk := uses_known hw e (mem_uses_args ha)
    rw [mem_right I env hw hc pre _ e a hk (Or.inl ⟨op, List.mem_cons_self, ha⟩), val_stable I env hw e hk]

theorem held_mem {v : Nat} (h : IsHeld ops v) : ∃ o ∈ ops, v ∈ o.args ∧ ∃ c b, o.kind = .hold c b := by
  obtain ⟨as, h1, h2⟩ := h
  obtain ⟨o, ho, he⟩ := List.mem_filterMap.1 h1
  cases hk : o.kind with
  | hold c b =>
    rw [hk] at he
    obtain rfl := Option.some.inj he
    exact ⟨o, ho, h2, c, b, hk⟩
  | _ => rw [hk] at he; cases he

theorem clean_right {D : Type} (I : Nat → List D → D) (env : Nat → D) (hw : WellFormed ⟨n, ops⟩)
    (hc : Clean ⟨n, ops⟩) : Right I env ⟨n, ops⟩ ⟨n, ops⟩ := by
  refine ⟨reads_right I env hw hc ops [] rfl, ?_⟩
  refine List.map_congr_left fun as has => List.map_congr_left fun a ha => ?_
  have hh : IsHeld ops a := ⟨as, has, ha⟩
  obtain ⟨o, ho, hao, -⟩ := held_mem hh
  obtain ⟨x, y, hxy⟩ := List.append_of_mem ho
  have hk : Known n ops a := by
    have := uses_known hw hxy (mem_uses_args hao)
    rw [hxy]; exact this.mono
  exact mem_right I env hw hc ops [] (by simp) a hk (Or.inr hh)

end

/-! ## Programs that differ in storages only -/

/-- The operation without its storage. -/
def Op.bare (op : Op) : Op := { op with out := none }

theorem valStep_bare {D : Type} (I : Nat → List D → D) (t : Nat → D) (op : Op) :
    valStep I t op.bare = valStep I t op := rfl

theorem val_bare {D : Type} (I : Nat → List D → D) (env : Nat → D) (ops : List Op) :
    val I env (ops.map Op.bare) = val I env ops := by
  simp only [val, List.foldl_map, valStep_bare]

theorem heldArgs_bare (ops : List Op) : heldArgs (ops.map Op.bare) = heldArgs ops := by
  simp only [heldArgs, List.filterMap_map]
  rfl

theorem right_of_bare {D : Type} (I : Nat → List D → D) (env : Nat → D) {p q : Prog}
    (h : q.ops.map Op.bare = p.ops.map Op.bare) (hr : Right I env q q) : Right I env p q := by
  have hv : val I env p.ops = val I env q.ops := by rw [← val_bare, ← h, val_bare]
  have hh : heldArgs p.ops = heldArgs q.ops := by rw [← heldArgs_bare, ← h, heldArgs_bare]
  have hm : p.ops.map (fun o => o.args.map (val I env q.ops)) = q.ops.map fun o => o.args.map (val I env q.ops) := by
    have h2 := congrArg (List.map fun o : Op => o.args.map (val I env q.ops)) h
    simp only [List.map_map] at h2
    exact h2.symm
  unfold Right
  rw [hv, hh, hm]
  exact hr

end Heir.InPlace
