import Verif.Halo.Lemmas

/-!
# Lemmas for C149–C151: values, and levels of copies of a body
-/

namespace Heir.Halo

variable {V : Type}

/-! ### values do not depend on levels -/

theorem mapM_map {α β : Type} (g : α → β) {as : List α} (xs : List Nat) {r : List α}
    (h : (xs.mapM fun x => as[x]?) = some r) :
    (xs.mapM fun x => (as.map g)[x]?) = some (r.map g) := by
  induction xs generalizing r with
  | nil => simp at h; subst h; rfl
  | cons x xs ih =>
    simp only [List.mapM_cons, Option.bind_eq_bind] at h
    cases ha : as[x]? with
    | none => simp [ha] at h
    | some a =>
      cases hl : xs.mapM fun x => as[x]? with
      | none => simp [ha, hl] at h
      | some l =>
        simp only [ha, hl, Option.bind_some, Option.pure_def, Option.some.injEq] at h
        subst h
        have hx : (as.map g)[x]? = some (g a) := by simp [ha]
        simp only [List.mapM_cons, hx, ih hl, Option.bind_eq_bind, Option.bind_some,
          Option.pure_def, List.map_cons]

theorem reduce_fst {k : Nat} {v w : CV V} (h : v.reduce k = some w) : w.1 = v.1 := by
  obtain ⟨v, l⟩ := v
  cases l with
  | none => simp only [CV.reduce, Option.some.injEq] at h; rw [← h]
  | some l =>
    simp only [CV.reduce] at h
    split at h
    · simp only [Option.some.injEq] at h; rw [← h]
    · cases h

theorem bootstrap_fst {L0 top : Nat} {v w : CV V} (h : v.bootstrap L0 top = some w) :
    w.1 = v.1 := by
  obtain ⟨v, l⟩ := v
  cases l with
  | none => simp only [CV.bootstrap, Option.some.injEq] at h; rw [← h]
  | some l =>
    simp only [CV.bootstrap] at h
    split at h
    · simp only [Option.some.injEq] at h; rw [← h]
    · cases h

theorem bootAll_fst {L0 top : Nat} {flags : List Bool} {vs ws : List (CV V)}
    (h : bootAll L0 top flags vs = some ws) : ws.map Prod.fst = vs.map Prod.fst := by
  induction flags generalizing vs ws with
  | nil =>
    cases vs with
    | nil => simp only [bootAll, Option.some.injEq] at h; rw [← h]
    | cons v vs => simp [bootAll] at h
  | cons f fs ih =>
    cases vs with
    | nil => simp [bootAll] at h
    | cons v vs =>
      simp only [bootAll, Option.bind_eq_some_iff, Option.map_eq_some_iff] at h
      obtain ⟨w, h1, ws', h2, rfl⟩ := h
      have : w.1 = v.1 := by
        cases f with
        | true => exact bootstrap_fst h1
        | false => simp at h1; rw [h1]
      simp [this, ih h2]

theorem minAll_fst {flags : List Bool} {vs ws : List (CV V)}
    (h : minAll flags vs = some ws) : ws.map Prod.fst = vs.map Prod.fst := by
  induction flags generalizing vs ws with
  | nil =>
    cases vs with
    | nil => simp only [minAll, Option.some.injEq] at h; rw [← h]
    | cons v vs => simp [minAll] at h
  | cons f fs ih =>
    cases vs with
    | nil => simp [minAll] at h
    | cons v vs =>
      simp only [minAll, Option.map_eq_some_iff] at h
      obtain ⟨ws', h2, rfl⟩ := h
      cases f <;> simp [CV.reduceMin, ih h2]

theorem runSegs_fst {L0 top : Nat} {flags : List Bool}
    {f : Int → List (CV V) → Option (List (CV V))} {g : Int → List V → Option (List V)}
    (hfg : ∀ i st r, f i st = some r → g i (st.map Prod.fst) = some (r.map Prod.fst))
    (gs : List Seg) {st r : List (CV V)} (h : runSegs L0 top flags f gs st = some r) :
    iterV g (gs.map Seg.iv) (st.map Prod.fst) = some (r.map Prod.fst) := by
  induction gs generalizing st with
  | nil => simp only [runSegs, Option.some.injEq] at h; subst h; rfl
  | cons s gs ih =>
    simp only [runSegs, Option.bind_eq_some_iff] at h
    obtain ⟨s1, h1, s2, h2, s3, h3, h4⟩ := h
    have := hfg _ _ _ h2
    rw [bootAll_fst h1] at this
    simp only [List.map_cons, iterV, this, Option.bind_some]
    rw [← minAll_fst h3]
    exact ih h4

theorem segs_iv (b : Bounds) : b.segs.map Seg.iv = b.ivs := by
  rw [Bounds.segs, List.map_map]
  exact List.map_id _

theorem eval_fst {m : Sem V} {L0 top : Nat} (p : Prog) {env res : List (CV V)}
    (h : eval m L0 top p env = some res) :
    evalV m p (env.map Prod.fst) = some (res.map Prod.fst) := by
  induction p generalizing env res with
  | ret ys => exact mapM_map _ ys h
  | op o rest ih =>
    simp only [eval, Option.bind_eq_some_iff] at h
    obtain ⟨v, h1, h2⟩ := h
    have h3 := ih h2
    simp only [List.map_append, List.map_cons, List.map_nil] at h3
    have : evalOpV m (env.map Prod.fst) o = some v.1 := by
      cases o with
      | pure fn xs =>
        simp only [evalOp, Option.map_eq_some_iff] at h1
        obtain ⟨vs, h4, rfl⟩ := h1
        simp only [evalOpV, mapM_map _ xs h4, Option.map_some]
      | reduce k x =>
        simp only [evalOp, Option.bind_eq_some_iff] at h1
        obtain ⟨w, h4, h5⟩ := h1
        simp [evalOpV, h4, reduce_fst h5]
      | reduceMin x =>
        simp only [evalOp, Option.map_eq_some_iff] at h1
        obtain ⟨w, h4, rfl⟩ := h1
        simp [evalOpV, h4, CV.reduceMin]
      | bootstrap x =>
        simp only [evalOp, Option.bind_eq_some_iff] at h1
        obtain ⟨w, h4, h5⟩ := h1
        simp [evalOpV, h4, bootstrap_fst h5]
    simp only [evalV, this, Option.bind_some, h3]
  | loop b flags inits body rest ihb ihr =>
    simp only [eval, Option.bind_eq_some_iff] at h
    obtain ⟨s1, h1, s2, h2, s3, h3, h4⟩ := h
    have h5 := ihr h4
    have h6 := runSegs_fst (g := fun i st => evalV m body (env.map Prod.fst ++ m.iv i :: st))
      (by
        intro i st r hr
        have := ihb hr
        simpa only [List.map_append, List.map_cons] using this) _ h3
    rw [minAll_fst h2] at h6
    simp only [List.map_append] at h5
    simp only [evalV, mapM_map _ inits h1, Option.bind_some]
    have h7 : (b.segs.map Seg.iv) = b.ivs := segs_iv b
    rw [h7] at h6
    rw [h6]
    exact h5
  | ite c t e rest iht ihe ihr =>
    simp only [eval, Option.bind_eq_some_iff] at h
    obtain ⟨v, h1, st, h2, h3⟩ := h
    have h5 := ihr h3
    simp only [List.map_append] at h5
    have hc : (env.map Prod.fst)[c]? = some v.1 := by simp [h1]
    simp only [evalV, hc, Option.bind_some]
    cases hm : m.cond v.1 with
    | true =>
      simp only [hm, if_true] at h2
      simp only [if_true]
      rw [iht h2]; exact h5
    | false =>
      simp only [hm, Bool.false_eq_true, if_false] at h2
      simp only [Bool.false_eq_true, if_false]
      rw [ihe h2]; exact h5

/-! ### deeper starts -/

/-- A state `a` levels deeper. -/
def LS.shift (a : Nat) : LS → LS
  | .int n => .int (n + a)
  | s => s

theorem LS.le_shift (a : Nat) (s : LS) : s.le (s.shift a) := by
  cases s <;> simp [LS.le, LS.join, LS.shift]

theorem LS.shift_mono {a b : Nat} (h : a ≤ b) (s : LS) : (s.shift a).le (s.shift b) := by
  cases s <;> simp [LS.le, LS.join, LS.shift, h]

theorem LS.shift_shift (a b : Nat) (s : LS) : (s.shift a).shift b = s.shift (a + b) := by
  cases s <;> simp [LS.shift, Nat.add_assoc]

theorem LS.shift_le {a : Nat} {s t : LS} (h : s.le t) : (s.shift a).le (t.shift a) := by
  cases s <;> cases t <;> simp [LS.le, LS.join, LS.shift] at *
  all_goals omega

theorem LS.shift_join (a : Nat) (s t : LS) : (s.join t).shift a = (s.shift a).join (t.shift a) := by
  cases s <;> cases t <;> simp [LS.join, LS.shift]

theorem LS.join_mono {a b c d : LS} (h1 : a.le b) (h2 : c.le d) : (a.join c).le (b.join d) :=
  LS.join_le (LS.le_trans h1 (LS.le_join_left _ _)) (LS.le_trans h2 (LS.le_join_right _ _))

theorem foldl_join_mono {as bs : List LS} (h : leAll as bs) {a b : LS} (hab : a.le b) :
    (as.foldl LS.join a).le (bs.foldl LS.join b) := by
  induction h generalizing a b with
  | nil => exact hab
  | cons h1 _ ih => exact ih (LS.join_mono hab h1)

theorem foldl_shift (k : Nat) (as : List LS) (a : LS) :
    (as.foldl LS.join a).shift k = (as.map (LS.shift k)).foldl LS.join (a.shift k) := by
  induction as generalizing a with
  | nil => rfl
  | cons s as ih => simp only [List.foldl_cons, List.map_cons, ih, LS.shift_join]

theorem foldl_good {B : Nat} {as : List LS} (h : ∀ s ∈ as, s.good B) {a : LS} (ha : a.good B) :
    (as.foldl LS.join a).good B := by
  induction as generalizing a with
  | nil => exact ha
  | cons s as ih =>
    exact ih (fun s hs => h s (List.mem_cons_of_mem _ hs)) (good_join ha (h s (by simp)))

theorem clip_good {B : Nat} {s : LS} (h : s.good B) : s.clip B = s := by
  cases s with
  | int n =>
    simp only [LS.good] at h
    simp [LS.clip]; omega
  | _ => rfl

theorem leAll_refl (l : List LS) : leAll l l := by
  induction l with
  | nil => exact .nil
  | cons a l ih => exact .cons (LS.le_refl a) ih

theorem leAll_trans {a b c : List LS} (h1 : leAll a b) (h2 : leAll b c) : leAll a c := by
  induction h1 generalizing c with
  | nil => cases h2; exact .nil
  | cons h _ ih =>
    cases h2 with
    | cons h' h2 => exact .cons (LS.le_trans h h') (ih h2)

theorem mapM_mem {as : List LS} (xs : List Nat) {r : List LS}
    (h : (xs.mapM fun x => as[x]?) = some r) : ∀ s ∈ r, s ∈ as := by
  induction xs generalizing r with
  | nil => simp at h; subst h; simp
  | cons x xs ih =>
    simp only [List.mapM_cons, Option.bind_eq_bind] at h
    cases ha : as[x]? with
    | none => simp [ha] at h
    | some a =>
      cases hl : xs.mapM fun x => as[x]? with
      | none => simp [ha, hl] at h
      | some l =>
        simp only [ha, hl, Option.bind_some, Option.pure_def, Option.some.injEq] at h
        subst h
        intro s hs
        rcases List.mem_cons.1 hs with rfl | hs
        · exact List.mem_of_getElem? ha
        · exact ih hl s hs

theorem mins_mono {flags : List Bool} {a b : List LS} (h : leAll a b) :
    leAll (mins flags a) (mins flags b) := by
  induction h generalizing flags with
  | nil => cases flags <;> exact .nil
  | @cons s t a b h1 _ ih =>
    cases flags with
    | nil => exact .nil
    | cons f fs =>
      refine .cons ?_ ih
      cases f with
      | false => exact h1
      | true => revert h1; cases s <;> cases t <;> simp [LS.le, LS.join, LS.reduceMin]

theorem mins_shift (k : Nat) (flags : List Bool) (a : List LS) :
    mins flags (a.map (LS.shift k)) = (mins flags a).map (LS.shift k) := by
  induction flags generalizing a with
  | nil => rfl
  | cons f fs ih =>
    cases a with
    | nil => rfl
    | cons s a =>
      simp only [List.map_cons, mins, ih]
      cases f <;> cases s <;> rfl

theorem boots_shift (L0 k : Nat) (flags : List Bool) (a : List LS) :
    leAll (boots L0 flags (a.map (LS.shift k))) ((boots L0 flags a).map (LS.shift k)) := by
  induction flags generalizing a with
  | nil => exact .nil
  | cons f fs ih =>
    cases a with
    | nil => exact .nil
    | cons s a =>
      refine .cons ?_ (ih a)
      cases f <;> cases s <;> simp [LS.shift, LS.bootstrap, LS.le, LS.join]

theorem shift_leAll {k : Nat} {a b : List LS} (h : leAll a b) :
    leAll (a.map (LS.shift k)) (b.map (LS.shift k)) := by
  induction h with
  | nil => exact .nil
  | cons h _ ih => exact .cons (LS.shift_le h) ih

theorem zip_mono {a b c d : List LS} (h1 : leAll a b) (h2 : leAll c d) :
    leAll (List.zipWith LS.join a c) (List.zipWith LS.join b d) := by
  induction h1 generalizing c d with
  | nil => exact .nil
  | cons h _ ih =>
    cases h2 with
    | nil => exact .nil
    | cons h' h2 => exact .cons (LS.join_mono h h') (ih h2)

theorem zip_shift (k : Nat) (a b : List LS) :
    (List.zipWith LS.join a b).map (LS.shift k) =
      List.zipWith LS.join (a.map (LS.shift k)) (b.map (LS.shift k)) := by
  induction a generalizing b with
  | nil => simp
  | cons s a ih =>
    cases b with
    | nil => simp
    | cons t b => simp [ih, LS.shift_join]

theorem shift_good {B k : Nat} {s : LS} (h : s.good B) : (s.shift k).good (B + k) := by
  cases s <;> simp [LS.good, LS.shift] at *
  omega

theorem good_append {B : Nat} {a b : List LS} (ha : ∀ s ∈ a, s.good B) (hb : ∀ s ∈ b, s.good B) :
    ∀ s ∈ a ++ b, s.good B := by
  intro s hs
  rcases List.mem_append.1 hs with hs | hs
  · exact ha s hs
  · exact hb s hs

theorem absOp_shift {L0 B k : Nat} {env env' : List LS} (hle : leAll env' (env.map (LS.shift k)))
    (hg : ∀ s ∈ env', s.good (B + k)) (o : Op) {s : LS} (h : absOp L0 B env o = some s)
    (hs : s ≠ .invalid) :
    ∃ s', absOp L0 (B + k) env' o = some s' ∧ s'.le (s.shift k) ∧ s'.good (B + k) := by
  have hle' : List.Forall₂ (fun t s => s.le (t.shift k)) env env' := by
    have := hle.flip
    rw [List.forall₂_map_left_iff] at this
    exact this
  cases o with
  | pure fn xs =>
    simp only [absOp, Option.map_eq_some_iff] at h
    obtain ⟨ss, h1, rfl⟩ := h
    obtain ⟨h2, h3⟩ := clip_valid hs
    obtain ⟨r, h4, h5⟩ := mapM_rel hle' xs h1
    have hgood : (r.foldl LS.join .uninit).good (B + k) :=
      foldl_good (fun s hs => hg s (mapM_mem xs h4 s hs)) trivial
    refine ⟨_, by simp only [absOp, h4, Option.map_some]; rfl, ?_, ?_⟩
    · rw [clip_good hgood, h2, foldl_shift]
      refine foldl_join_mono ?_ (LS.le_refl _)
      have := h5.flip
      rw [leAll, List.forall₂_map_right_iff]
      exact this
    · rw [clip_good hgood]; exact hgood
  | reduce j x =>
    simp only [absOp, Option.map_eq_some_iff] at h
    obtain ⟨a, h1, rfl⟩ := h
    obtain ⟨h2, h3⟩ := clip_valid hs
    obtain ⟨a', h4, h5⟩ := get_rel hle' h1
    have hg' := hg a' (List.mem_of_getElem? h4)
    have hgood : (a'.reduce j).good (B + k) ∧ (a'.reduce j).le ((a.reduce j).shift k) := by
      revert h3 h5 hg'
      cases a <;> cases a' <;> simp [LS.reduce, LS.good, LS.le, LS.join, LS.shift]
      all_goals omega
    refine ⟨_, by simp only [absOp, h4, Option.map_some]; rfl, ?_, ?_⟩
    · rw [clip_good hgood.1, h2]; exact hgood.2
    · rw [clip_good hgood.1]; exact hgood.1
  | reduceMin x =>
    simp only [absOp, Option.map_eq_some_iff] at h
    obtain ⟨a, h1, rfl⟩ := h
    obtain ⟨h2, h3⟩ := clip_valid hs
    obtain ⟨a', h4, h5⟩ := get_rel hle' h1
    have hg' := hg a' (List.mem_of_getElem? h4)
    have hgood : (a'.reduceMin).good (B + k) ∧ (a'.reduceMin).le ((a.reduceMin).shift k) := by
      revert h3 h5 hg'
      cases a <;> cases a' <;> simp [LS.reduceMin, LS.good, LS.le, LS.join, LS.shift]
    refine ⟨_, by simp only [absOp, h4, Option.map_some]; rfl, ?_, ?_⟩
    · rw [clip_good hgood.1, h2]; exact hgood.2
    · rw [clip_good hgood.1]; exact hgood.1
  | bootstrap x =>
    simp only [absOp, Option.map_eq_some_iff] at h
    obtain ⟨a, h1, rfl⟩ := h
    obtain ⟨h2, h3⟩ := clip_valid hs
    obtain ⟨a', h4, h5⟩ := get_rel hle' h1
    have hg' := hg a' (List.mem_of_getElem? h4)
    have hgood : (a'.bootstrap L0).good (B + k) ∧
        (a'.bootstrap L0).le ((a.bootstrap L0).shift k) := by
      revert h3 h5 hg'
      cases a <;> cases a' <;> simp [LS.bootstrap, LS.good, LS.le, LS.join, LS.shift]
      all_goals omega
    refine ⟨_, by simp only [absOp, h4, Option.map_some]; rfl, ?_, ?_⟩
    · rw [clip_good hgood.1, h2]; exact hgood.2
    · rw [clip_good hgood.1]; exact hgood.1

/-- A program that is fine within a budget is fine when it starts `k` levels deeper, with `k` more
levels. -/
theorem Ok.shift {L0 B : Nat} (k : Nat) (p : Prog) {env env' out : List LS}
    (h : Ok L0 B p env out) (hle : leAll env' (env.map (LS.shift k)))
    (hg : ∀ s ∈ env', s.good (B + k)) :
    ∃ out', Ok L0 (B + k) p env' out' ∧ leAll out' (out.map (LS.shift k)) := by
  induction p generalizing env env' out with
  | ret ys =>
    have hle' : List.Forall₂ (fun t s => s.le (t.shift k)) env env' := by
      have := hle.flip
      rw [List.forall₂_map_left_iff] at this
      exact this
    obtain ⟨r, h1, h2⟩ := mapM_rel hle' ys h
    refine ⟨r, h1, ?_⟩
    have := h2.flip
    rw [leAll, List.forall₂_map_right_iff]
    exact this
  | op o rest ih =>
    obtain ⟨s, h1, h2, h3⟩ := h
    obtain ⟨s', h4, h5, h6⟩ := absOp_shift hle hg o h1 h2
    obtain ⟨out', h7, h8⟩ := ih (env' := env' ++ [s']) h3
      (by rw [List.map_append]; exact append_rel hle (.cons h5 .nil))
      (good_append hg (by intro x hx; simp at hx; subst hx; exact h6))
    refine ⟨out', ⟨s', h4, ?_, h7⟩, h8⟩
    intro he; rw [he] at h6; exact h6
  | loop b flags inits body rest ihb ihr =>
    obtain ⟨ini, sts, outs, h1, h2, h3, h4, h5, h6, h7, h7', h8⟩ := h
    have hle' : List.Forall₂ (fun t s => s.le (t.shift k)) env env' := by
      have := hle.flip
      rw [List.forall₂_map_left_iff] at this
      exact this
    obtain ⟨ini', e1, e2⟩ := mapM_rel hle' inits h1
    have e3 : leAll ini' (ini.map (LS.shift k)) := by
      have := e2.flip
      rw [leAll, List.forall₂_map_right_iff]
      exact this
    have g1 : ∀ s ∈ sts.map (LS.shift k), s.good (B + k) := by
      intro s hs
      obtain ⟨t, ht, rfl⟩ := List.mem_map.1 hs
      exact shift_good (h4 t ht)
    have g2 : ∀ s ∈ boots L0 flags (sts.map (LS.shift k)), s.good (B + k) := by
      clear * - h4 h5
      induction flags generalizing sts with
      | nil => simp [boots]
      | cons f fs ih =>
        cases sts with
        | nil => simp [boots]
        | cons t sts =>
          intro s hs
          simp only [List.map_cons, boots, List.mem_cons] at hs
          rcases hs with rfl | hs
          · have a1 := h4 t (by simp)
            have a2 := h5 (if f then t.bootstrap L0 else t) (by simp [boots])
            cases f
            · exact shift_good a1
            · revert a2
              cases t <;> simp [LS.bootstrap, LS.shift, LS.good] <;> omega
          · exact ih sts (fun s hs => h4 s (List.mem_cons_of_mem _ hs))
              (fun s hs => h5 s (by simp only [boots]; exact List.mem_cons_of_mem _ hs)) s hs
    obtain ⟨outs', o1, o2⟩ := ihb (env' := env' ++ .uninit :: boots L0 flags (sts.map (LS.shift k)))
      h6 (by
        rw [List.map_append, List.map_cons]
        exact append_rel hle (.cons (LS.le_refl _) (boots_shift _ _ _ _)))
      (good_append hg (by
        intro s hs
        rcases List.mem_cons.1 hs with rfl | hs
        · trivial
        · exact g2 s hs))
    obtain ⟨out', r1, r2⟩ := ihr (env' := env' ++ sts.map (LS.shift k)) h8
      (by rw [List.map_append]; exact append_rel hle (leAll_refl _)) (good_append hg g1)
    refine ⟨out', ⟨ini', sts.map (LS.shift k), outs', e1, ?_, ?_, g1, g2, o1, ?_, ?_, r1⟩, r2⟩
    · rw [h2, e3.length_eq, List.length_map]
    · refine leAll_trans (mins_mono e3) ?_
      rw [mins_shift]
      exact shift_leAll h3
    · refine leAll_trans (mins_mono o2) ?_
      rw [mins_shift]
      exact shift_leAll h7
    · rw [o2.length_eq, List.length_map, h7']
  | ite c t e rest iht ihe ihr =>
    obtain ⟨a, b, hc, h1, h2, h3, h4⟩ := h
    obtain ⟨a', a1, a2⟩ := iht h1 hle hg
    obtain ⟨b', b1, b2⟩ := ihe h2 hle hg
    have ga := Ok.good t a1 hg
    have gb := Ok.good e b1 hg
    obtain ⟨out', r1, r2⟩ := ihr (env' := env' ++ List.zipWith LS.join a' b') h4
      (by
        rw [List.map_append, zip_shift]
        exact append_rel hle (zip_mono a2 b2))
      (good_append hg (good_zip ga gb))
    refine ⟨out', ⟨a', b', ?_, a1, b1, ?_, r1⟩, r2⟩
    · have := hle.length_eq
      simp only [List.length_map] at this
      omega
    · have l1 := a2.length_eq
      have l2 := b2.length_eq
      simp only [List.length_map] at l1 l2
      omega

end Heir.Halo
