import Verif.InPlace.Lemmas

/-! # Giving one operation a storage -/

namespace Heir.InPlace

theorem split_at {pre post A B : List Op} {op o : Op} (h : pre ++ op :: post = A ++ o :: B) :
    (∃ C, pre = A ++ o :: C ∧ B = C ++ op :: post) ∨ (A = pre ∧ o = op ∧ B = post) ∨
      ∃ C, A = pre ++ op :: C ∧ post = C ++ o :: B := by
  rcases List.append_eq_append_iff.1 h with ⟨C, h1, h2⟩ | ⟨C, h1, h2⟩
  · cases C with
    | nil =>
      simp only [List.nil_append, List.cons.injEq] at h2
      right; left
      exact ⟨by simpa using h1, h2.1.symm, h2.2.symm⟩
    | cons c C =>
      simp only [List.cons_append, List.cons.injEq] at h2
      right; right
      exact ⟨C, by rw [h1, ← h2.1], h2.2⟩
  · cases C with
    | nil =>
      simp only [List.nil_append, List.cons.injEq] at h2
      right; left
      exact ⟨by simpa using h1.symm, h2.1, h2.2⟩
    | cons c C =>
      simp only [List.cons_append, List.cons.injEq] at h2
      left
      exact ⟨C, by rw [h1, ← h2.1], h2.2⟩

/-- The operation in place, with storage `s`. -/
def Op.into (op : Op) (s : Nat) : Op := { op with out := some s }

section
variable {n : Nat} {ops pre post : List Op} {op : Op} {s : Nat}

theorem any_res {P : Op → Prop} (hP : ∀ a b : Op, a.res = b.res → (P a ↔ P b)) (a b : List Op) (op : Op) (s : Nat) :
    (∀ o ∈ a ++ op.into s :: b, P o) ↔ ∀ o ∈ a ++ op :: b, P o := by
  simp only [List.mem_append, List.mem_cons]
  constructor
  · rintro h o (ho | rfl | ho)
    · exact h o (Or.inl ho)
    · exact (hP o (o.into s) rfl).2 (h (o.into s) (Or.inr (Or.inl rfl)))
    · exact h o (Or.inr (Or.inr ho))
  · rintro h o (ho | ho | ho)
    · exact h o (Or.inl ho)
    · subst ho
      exact (hP (op.into s) op rfl).2 (h op (Or.inr (Or.inl rfl)))
    · exact h o (Or.inr (Or.inr ho))

theorem known_into (a b : List Op) (op : Op) (s v : Nat) :
    Known n (a ++ op.into s :: b) v ↔ Known n (a ++ op :: b) v := by
  unfold Known
  refine or_congr_right ?_
  have := any_res (P := fun o => o.res ≠ v) (fun a b h => by simp [h]) a b op s
  constructor
  · rintro ⟨o, ho, e⟩
    by_contra hc
    push Not at hc
    exact this.2 hc o ho e
  · rintro ⟨o, ho, e⟩
    by_contra hc
    push Not at hc
    exact this.1 hc o ho e

theorem wf_into (hw : WellFormed ⟨n, pre ++ op :: post⟩) (hk : ∃ f b, op.kind = .conv f b) (hs : Known n pre s) :
    WellFormed ⟨n, pre ++ op.into s :: post⟩ := by
  intro A o B e
  simp only at e
  rcases split_at e with ⟨C, h1, h2⟩ | ⟨rfl, rfl, rfl⟩ | ⟨C, rfl, h2⟩
  · exact hw A o (C ++ op :: post) (by simp [h1])
  · obtain ⟨h1, h2, h3, h4, h5⟩ := hw A op B rfl
    refine ⟨h1, h2, ?_, fun _ => hk, h5⟩
    intro v hv
    simp only [Op.uses, Op.into, Option.toList_some, List.mem_append, List.mem_singleton] at hv
    rcases hv with hv | rfl
    · exact h3 v (List.mem_append_left _ hv)
    · exact hs
  · obtain ⟨h1, h2, h3, h4⟩ := hw (pre ++ op :: C) o B (by simp [h2])
    refine ⟨h1, ?_, ?_, h4⟩
    · exact (any_res (P := fun o' => o'.res ≠ o.res) (fun a b h => by simp [h]) pre C op s).2 h2
    · intro v hv
      exact (known_into pre C op s v).2 (h3 v hv)

theorem foldl_loc_rel (r : Nat) (f : Nat → Nat) (hf : ∀ x, x ≠ r → f x = x) : ∀ (post : List Op) (t0 t1 : Nat → Nat),
    (∀ v, t1 v = f (t0 v)) → (∀ o ∈ post, o.res ≠ r) →
    ∀ v, post.foldl locStep t1 v = f (post.foldl locStep t0 v) := by
  intro post
  induction post with
  | nil => intro t0 t1 h _ v; exact h v
  | cons o os ih =>
    intro t0 t1 h hr v
    simp only [List.foldl_cons]
    refine ih _ _ ?_ (fun o' ho' => hr o' (List.mem_cons_of_mem _ ho')) v
    intro v
    by_cases hv : v = o.res
    · subst hv
      unfold locStep
      cases o.kind with
      | conv f' b =>
        cases o.out with
        | none => simp [upd_same, hf _ (hr o List.mem_cons_self)]
        | some s => simp [upd_same, h]
      | fetch c => simp only [upd_same, h]
      | _ => exact h _
    · rw [locStep_ne _ _ hv, locStep_ne _ _ hv, h]

theorem loc_into (hw : WellFormed ⟨n, pre ++ op :: post⟩) (hk : ∃ f b, op.kind = .conv f b) (ho : op.out = none)
    (hs : Known n pre s) (v : Nat) :
    locs (pre ++ op.into s :: post) v =
      if locs (pre ++ op :: post) v = op.res then locs (pre ++ op :: post) s else locs (pre ++ op :: post) v := by
  obtain ⟨f, b, hk⟩ := hk
  have hLs : locs (pre ++ op :: post) s = locs pre s := locs_stable hw rfl hs
  rw [hLs, locs_append, locs_append, List.foldl_cons, List.foldl_cons]
  refine foldl_loc_rel op.res (fun x => if x = op.res then locs pre s else x) (fun x hx => by simp [hx]) post _ _
    ?_ ?_ v
  · intro v
    by_cases hv : v = op.res
    · subst hv
      simp [locStep, Op.into, hk, ho, upd_same]
    · have h1 : locStep (locs pre) op v = locs pre v := locStep_ne _ _ hv
      have h2 : locStep (locs pre) (op.into s) v = locs pre v := locStep_ne _ _ hv
      rw [h1, h2]
      have : locs pre v ≠ op.res := by
        intro h
        by_cases hkn : Known n pre v
        · exact not_known hw rfl (h ▸ loc_known hw pre _ rfl v hkn)
        · have : locs pre v = v := locs_unknown fun o ho e => hkn (Or.inr ⟨o, ho, e⟩)
          exact hv (this ▸ h)
      simp [this]
  · exact known_ne hw (pre := pre ++ [op]) (post := post) (by simp) (Or.inr ⟨op, by simp, rfl⟩)

theorem heldArgs_into (hk : ∃ f b, op.kind = .conv f b) :
    heldArgs (pre ++ op.into s :: post) = heldArgs (pre ++ op :: post) := by
  obtain ⟨f, b, hk⟩ := hk
  simp [heldArgs, List.filterMap_append, Op.into, hk]

theorem isHeld_into (hk : ∃ f b, op.kind = .conv f b) (v : Nat) :
    IsHeld (pre ++ op.into s :: post) v ↔ IsHeld (pre ++ op :: post) v := by
  unfold IsHeld; rw [heldArgs_into hk]

theorem isStored_into (hk : ∃ f b, op.kind = .conv f b) (v : Nat) :
    isStored (pre ++ op.into s :: post) v = isStored (pre ++ op :: post) v := by
  obtain ⟨f, b, hk⟩ := hk
  simp [isStored, Op.into, hk]

/-- What has to be the case for an operation to be given the storage `s`: of the values that refer to its object, none
has a property `Bad` or is written through later. -/
structure Reusable (n : Nat) (pre : List Op) (op : Op) (post : List Op) (s : Nat) : Prop where
  wf : WellFormed ⟨n, pre ++ op :: post⟩
  conv : ∃ f b, op.kind = .conv f b
  out : op.out = none
  known : Known n pre s
  later : ∀ o ∈ post, ∀ t, o.out = some t →
    locs (pre ++ op :: post) t ≠ locs (pre ++ op :: post) s

/-- Where in-place operations stand after the change, and what their storages refer to. -/
theorem into_cases (h : Reusable n pre op post s) {A B : List Op} {o : Op} {t : Nat}
    (e : pre ++ op.into s :: post = A ++ o :: B) (ht : o.out = some t) {v : Nat} (hv : Known n A v)
    (hl : locs (pre ++ op.into s :: post) v = locs (pre ++ op.into s :: post) t) :
    -- the operation itself
    (A = pre ∧ o = op.into s ∧ B = post ∧ locs (pre ++ op :: post) v = locs (pre ++ op :: post) s) ∨
    -- as before
    (∃ A' B', pre ++ op :: post = A' ++ o :: B' ∧ Known n A' v ∧
      locs (pre ++ op :: post) v = locs (pre ++ op :: post) t ∧
      (∀ x : Nat, (∀ o ∈ B', x ∉ o.args) → ∀ o ∈ B, x ∉ o.args)) ∨
    -- an operation on the object of the result that is now in the storage
    ((∃ C, post = C ++ o :: B) ∧ locs (pre ++ op :: post) v = locs (pre ++ op :: post) s ∧
      ∃ A', pre ++ op :: post = A' ++ o :: B ∧ Known n A' op.res ∧
        locs (pre ++ op :: post) op.res = locs (pre ++ op :: post) t) := by
  have hset := loc_into h.wf h.conv h.out h.known
  obtain ⟨f, b, hk⟩ := h.conv
  have hown : locs (pre ++ op :: post) op.res = op.res := loc_res_own h.wf rfl h.out (by simp [hk])
  have hfar : ∀ {x : Nat}, Known n pre x → locs (pre ++ op :: post) x ≠ op.res := fun hx he =>
    not_known h.wf rfl (he ▸ loc_known' h.wf rfl hx)
  rcases split_at e with ⟨C, h1, h2⟩ | ⟨rfl, rfl, rfl⟩ | ⟨C, rfl, h2⟩
  · right; left
    have e' : pre ++ op :: post = A ++ o :: (C ++ op :: post) := by simp [h1]
    have hvp : Known n pre v := by rw [h1]; exact hv.mono
    have htp : Known n pre t := by rw [h1]; exact (uses_known h.wf e' (mem_uses_out ht)).mono
    rw [hset, hset, if_neg (hfar hvp), if_neg (hfar htp)] at hl
    refine ⟨A, C ++ op :: post, e', hv, hl, ?_⟩
    intro x hx
    rw [h2]
    intro o' ho'
    rcases List.mem_append.1 ho' with ho' | ho'
    · exact hx o' (List.mem_append_left _ ho')
    · rcases List.mem_cons.1 ho' with rfl | ho'
      · exact hx op (by simp)
      · exact hx o' (by simp [ho'])
  · left
    obtain rfl : s = t := by simpa [Op.into] using ht
    rw [hset, hset, if_neg (hfar hv), if_neg (hfar h.known)] at hl
    exact ⟨rfl, rfl, rfl, hl⟩
  · have e' : pre ++ op :: post = (pre ++ op :: C) ++ o :: B := by simp [h2]
    have hv' : Known n (pre ++ op :: C) v := (known_into pre C op s v).1 hv
    have hop : o ∈ post := by simp [h2]
    have htn := h.later o hop t ht
    rw [hset, hset] at hl
    by_cases htr : locs (pre ++ op :: post) t = op.res
    · by_cases hvr : locs (pre ++ op :: post) v = op.res
      · right; left
        exact ⟨_, _, e', hv', by rw [hvr, htr], fun x hx => hx⟩
      · right; right
        rw [if_neg hvr, if_pos htr] at hl
        exact ⟨⟨C, h2⟩, hl, _, e', Or.inr ⟨op, by simp, rfl⟩, by rw [hown, htr]⟩
    · rw [if_neg htr] at hl
      by_cases hvr : locs (pre ++ op :: post) v = op.res
      · rw [if_pos hvr] at hl
        exact absurd hl.symm htn
      · rw [if_neg hvr] at hl
        right; left
        exact ⟨_, _, e', hv', hl, fun x hx => hx⟩

theorem clean_into (h : Reusable n pre op post s) (hc : Clean ⟨n, pre ++ op :: post⟩)
    (hd : ∀ v, locs (pre ++ op :: post) v = locs (pre ++ op :: post) s →
      (∀ o ∈ post, v ∉ o.args) ∧ ¬ IsHeld (pre ++ op :: post) v) :
    Clean ⟨n, pre ++ op.into s :: post⟩ := by
  intro A o B e t ht v hv hl
  simp only [isHeld_into h.conv]
  rcases into_cases h e ht hv hl with ⟨rfl, rfl, rfl, h1⟩ | ⟨A', B', e', h1, h2, h3⟩ | ⟨⟨C, hC⟩, h1, -⟩
  · exact hd v h1
  · obtain ⟨h4, h5⟩ := hc A' o B' e' t ht v h1 h2
    exact ⟨h3 v h4, h5⟩
  · obtain ⟨h4, h5⟩ := hd v h1
    exact ⟨fun o' ho' => h4 o' (by simp [hC, ho']), h5⟩

theorem levelClean_into (l : Nat → Nat) (h : Reusable n pre op post s) (hc : LevelClean l ⟨n, pre ++ op :: post⟩)
    (hd : ∀ v, locs (pre ++ op :: post) v = locs (pre ++ op :: post) s → l v ≤ l op.res) :
    LevelClean l ⟨n, pre ++ op.into s :: post⟩ := by
  intro A o B e t ht v hv hl
  rcases into_cases h e ht hv hl with ⟨rfl, rfl, rfl, h1⟩ | ⟨A', B', e', h1, h2, h3⟩ | ⟨-, h1, A', e', h2, h3⟩
  · exact hd v h1
  · exact hc A' o B' e' t ht v h1 h2
  · exact Nat.le_trans (hd v h1) (hc A' o B e' t ht _ h2 h3)

end

/-! ## Levels -/

section
variable {n : Nat} {ops pre post : List Op} {op : Op}

/-- In a program whose in-place operations write into objects of lower levels consumed every object is at the level of
the last value written. -/
theorem lvls_right (l : Nat → Nat) (hw : WellFormed ⟨n, ops⟩) (hc : LevelClean l ⟨n, ops⟩) :
    ∀ (post pre : List Op) (lv : Nat → Nat), ops = pre ++ post →
    (∀ v, Known n pre v → ∃ u, Known n pre u ∧ locs ops u = locs ops v ∧ lv (locs ops v) = l u) →
    (∀ v, ¬ Known n pre v → lv v = l v) →
    ∀ o ∈ post.zip (lvlsFrom l (locs ops) lv post), (∃ f, o.1.kind.fn? = some f) → o.2 = l o.1.res := by
  intro post
  induction post with
  | nil => intro pre lv _ _ _ o ho; cases ho
  | cons op post ih =>
    intro pre lv e hlv hun
    have hwr : (∃ f, op.kind.fn? = some f) →
        lvlStep l (locs ops) lv op = upd lv (locs ops op.res) (l op.res) := by
      rintro ⟨f, hf⟩
      cases hk : op.kind with
      | conv f b =>
        cases ho : op.out with
        | none => simp [lvlStep, hk, ho]
        | some s =>
          obtain ⟨u, hu, hul, hus⟩ := hlv s (uses_known hw e (mem_uses_out ho))
          have := hc pre op post e s ho u hu hul
          simp [lvlStep, hk, ho, hus, this]
      | alloc f => simp [lvlStep, hk]
      | plain f => simp [lvlStep, hk]
      | fetch c => rw [hk] at hf; cases hf
      | hold c b => rw [hk] at hf; cases hf
    have hsame : ¬ (∃ f, op.kind.fn? = some f) → lvlStep l (locs ops) lv op = lv := by
      intro hf
      cases hk : op.kind with
      | fetch c => simp [lvlStep, hk]
      | hold c b => simp [lvlStep, hk]
      | _ => simp [hk, Kind.fn?] at hf
    intro o ho
    rw [lvlsFrom, List.zip_cons_cons, List.mem_cons] at ho
    rcases ho with rfl | ho
    · intro hf
      simp only [hwr hf, upd_same]
    · refine ih (pre ++ [op]) _ (by simp [e]) ?_ ?_ o ho
      · intro v hv
        by_cases hf : ∃ f, op.kind.fn? = some f
        · rw [hwr hf]
          by_cases hloc : locs ops v = locs ops op.res
          · exact ⟨op.res, Or.inr ⟨op, by simp, rfl⟩, hloc.symm, by rw [hloc, upd_same]⟩
          · have hne : v ≠ op.res := fun h => hloc (by rw [h])
            obtain ⟨u, hu, h1, h2⟩ := hlv v (known_snoc hv hne)
            exact ⟨u, hu.mono, h1, by rw [upd_ne _ _ hloc, h2]⟩
        · rw [hsame hf]
          by_cases hne : v = op.res
          · subst hne
            cases hk : op.kind with
            | fetch c =>
              obtain ⟨a, ha⟩ := (hw pre op post e).2.2.2.2 c hk
              obtain ⟨u, hu, h1, h2⟩ := hlv a (uses_known hw e (mem_uses_args (by simp [ha])))
              rw [loc_res_fetch hw e hk ha]
              exact ⟨u, hu.mono, h1, h2⟩
            | hold c b =>
              have hown : locs ops op.res = op.res := loc_res_own hw e (by
                by_contra h
                obtain ⟨f, b', hk'⟩ := (hw pre op post e).2.2.2.1 h
                rw [hk] at hk'; cases hk') (by simp [hk])
              exact ⟨op.res, hv, rfl, by rw [hown]; exact hun _ (not_known hw e)⟩
            | _ => simp [hk, Kind.fn?] at hf
          · obtain ⟨u, hu, h1, h2⟩ := hlv v (known_snoc hv hne)
            exact ⟨u, hu.mono, h1, h2⟩
      · intro v hv
        have hvp : ¬ Known n pre v := fun h => hv h.mono
        by_cases hf : ∃ f, op.kind.fn? = some f
        · rw [hwr hf, upd_ne]
          · exact hun v hvp
          · intro h
            refine hv ?_
            rw [h]
            exact loc_known' hw (pre := pre ++ [op]) (post := post) (by simp [e]) (Or.inr ⟨op, by simp, rfl⟩)
        · rw [hsame hf]
          exact hun v hvp

end

end Heir.InPlace
