import Verif.Halo.Spec
import Mathlib.Data.List.Forall2
import Mathlib.Order.Basic

/-!
# Lemmas for C148: the analysis is sound
-/

namespace Heir.Halo

variable {V : Type}

theorem mapM_length {α β : Type} {f : α → Option β} {l : List α} {r : List β}
    (h : l.mapM f = some r) : r.length = l.length := by
  induction l generalizing r with
  | nil => simp at h; simp [← h]
  | cons a l ih =>
    simp only [List.mapM_cons, Option.bind_eq_bind] at h
    cases ha : f a with
    | none => simp [ha] at h
    | some b =>
      cases hl : l.mapM f with
      | none => simp [ha, hl] at h
      | some bs =>
        simp only [ha, hl, Option.bind_some, Option.pure_def, Option.some.injEq] at h
        simp [← h, ih hl]

/-- Operands of related environments are related. -/
theorem mapM_rel {α β : Type} {R : α → β → Prop} {as : List α} {bs : List β}
    (h : List.Forall₂ R as bs) (xs : List Nat) {r : List α}
    (hr : (xs.mapM fun x => as[x]?) = some r) :
    ∃ r', (xs.mapM fun x => bs[x]?) = some r' ∧ List.Forall₂ R r r' := by
  induction xs generalizing r with
  | nil => simp at hr; subst hr; exact ⟨[], rfl, .nil⟩
  | cons x xs ih =>
    simp only [List.mapM_cons, Option.bind_eq_bind] at hr
    cases ha : as[x]? with
    | none => simp [ha] at hr
    | some a =>
      cases hl : xs.mapM fun x => as[x]? with
      | none => simp [ha, hl] at hr
      | some l =>
        simp only [ha, hl, Option.bind_some, Option.pure_def, Option.some.injEq] at hr
        obtain ⟨r', h1, h2⟩ := ih hl
        obtain ⟨b, hb, hab⟩ : ∃ b, bs[x]? = some b ∧ R a b := by
          obtain ⟨hlt, hax⟩ := List.getElem?_eq_some_iff.1 ha
          have hlt' : x < bs.length := h.length_eq ▸ hlt
          refine ⟨bs[x], List.getElem?_eq_getElem hlt', ?_⟩
          have := h.get hlt hlt'
          simp only [List.get_eq_getElem] at this
          rwa [hax] at this
        exact ⟨b :: r', by simp [List.mapM_cons, hb, h1], hr ▸ .cons hab h2⟩

theorem get_rel {α β : Type} {R : α → β → Prop} {as : List α} {bs : List β}
    (h : List.Forall₂ R as bs) {x : Nat} {a : α} (ha : as[x]? = some a) :
    ∃ b, bs[x]? = some b ∧ R a b := by
  obtain ⟨hlt, hax⟩ := List.getElem?_eq_some_iff.1 ha
  have hlt' : x < bs.length := h.length_eq ▸ hlt
  refine ⟨bs[x], List.getElem?_eq_getElem hlt', ?_⟩
  have := h.get hlt hlt'
  simp only [List.get_eq_getElem] at this
  rwa [hax] at this

/-! ### the lattice -/

theorem LS.le_refl (a : LS) : a.le a := by
  cases a <;> simp [LS.le, LS.join]

theorem LS.le_join_left (a b : LS) : a.le (a.join b) := by
  cases a <;> cases b <;> simp [LS.le, LS.join]
  omega

theorem LS.le_join_right (a b : LS) : b.le (a.join b) := by
  cases a <;> cases b <;> simp [LS.le, LS.join]
  omega

theorem LS.le_trans {a b c : LS} (h1 : a.le b) (h2 : b.le c) : a.le c := by
  cases a <;> cases b <;> cases c <;> simp [LS.le, LS.join] at *
  all_goals omega

theorem LS.join_le {a b c : LS} (h1 : a.le c) (h2 : b.le c) : (a.join b).le c := by
  cases a <;> cases b <;> cases c <;> simp [LS.le, LS.join] at *
  all_goals omega

theorem Rel.mono {top : Nat} {a b : LS} {l : Option Nat} (h : a.le b) (hb : b ≠ .invalid)
    (hr : Rel top a l) : Rel top b l := by
  cases a <;> cases b <;> cases l <;> simp [LS.le, LS.join, Rel] at *
  all_goals omega

theorem Rel.join {top : Nat} {a b : LS} {l r : Option Nat} (ha : Rel top a l) (hb : Rel top b r) :
    Rel top (a.join b) (lower l r) := by
  cases a <;> cases b <;> cases l <;> cases r <;> simp [LS.join, Rel, lower] at *
  all_goals omega

theorem Rel.foldl {top : Nat} {as : List LS} {ls : List (Option Nat)}
    (h : List.Forall₂ (Rel top) as ls) (a : LS) (l : Option Nat) (h0 : Rel top a l) :
    Rel top (as.foldl LS.join a) (ls.foldl lower l) := by
  induction h generalizing a l with
  | nil => exact h0
  | cons h1 _ ih => exact ih _ _ (h0.join h1)

theorem clip_valid {B : Nat} {s : LS} (h : s.clip B ≠ .invalid) : s.clip B = s ∧ s.good B := by
  cases s with
  | int n =>
    simp only [LS.clip] at h ⊢
    split at h
    · exact absurd rfl h
    · next hn =>
      rw [if_neg hn]
      exact ⟨rfl, by simp only [LS.good]; omega⟩
  | invalid => exact absurd rfl h
  | _ => exact ⟨rfl, trivial⟩

/-! ### operations -/

theorem op_sound {m : Sem V} {L0 top : Nat} {env : List LS} {cenv : List (CV V)}
    (hr : RelAll top env cenv) (o : Op) {s : LS} (h : absOp L0 top env o = some s)
    (hs : s ≠ .invalid) :
    ∃ v, evalOp m L0 top cenv o = some v ∧ Rel top s v.2 ∧ s.good top := by
  cases o with
  | pure fn xs =>
    simp only [absOp, Option.map_eq_some_iff] at h
    obtain ⟨ss, h1, rfl⟩ := h
    obtain ⟨h2, h3⟩ := clip_valid hs
    obtain ⟨vs, h4, h5⟩ := mapM_rel hr xs h1
    simp only [evalOp, h4, Option.map_some]
    refine ⟨_, rfl, ?_, by rw [h2]; exact h3⟩
    rw [h2]
    refine Rel.foldl ?_ _ _ (by simp [Rel])
    rw [List.forall₂_map_right_iff]
    exact h5
  | reduce k x =>
    simp only [absOp, Option.map_eq_some_iff] at h
    obtain ⟨a, h1, rfl⟩ := h
    obtain ⟨h2, h3⟩ := clip_valid hs
    obtain ⟨v, h4, h5⟩ := get_rel hr h1
    obtain ⟨v, l⟩ := v
    rw [h2]
    simp only [evalOp, h4, Option.bind_some, CV.reduce]
    cases l with
    | none =>
      refine ⟨_, rfl, ?_, h3⟩
      revert h3; cases a <;> simp [LS.reduce, Rel, LS.good]
    | some l =>
      cases a with
      | int n =>
        simp only [LS.reduce, LS.good] at h3
        simp only [Rel] at h5
        have hk : k ≤ l := by omega
        refine ⟨(v, some (l - k)), by simp [hk], ?_, h3⟩
        simp only [LS.reduce, Rel]; omega
      | uninit => exact absurd h5 (by simp [Rel])
      | max => exact absurd h3 (by simp [LS.reduce, LS.good])
      | invalid => exact absurd h5 (by simp [Rel])
  | reduceMin x =>
    simp only [absOp, Option.map_eq_some_iff] at h
    obtain ⟨a, h1, rfl⟩ := h
    obtain ⟨h2, h3⟩ := clip_valid hs
    obtain ⟨v, h4, h5⟩ := get_rel hr h1
    obtain ⟨v, l⟩ := v
    rw [h2]
    simp only [evalOp, h4, Option.map_some]
    refine ⟨_, rfl, ?_, h3⟩
    revert h5 h3
    cases a <;> cases l <;> simp [LS.reduceMin, CV.reduceMin, Rel, LS.good]
  | bootstrap x =>
    simp only [absOp, Option.map_eq_some_iff] at h
    obtain ⟨a, h1, rfl⟩ := h
    obtain ⟨h2, h3⟩ := clip_valid hs
    obtain ⟨v, h4, h5⟩ := get_rel hr h1
    obtain ⟨v, l⟩ := v
    rw [h2]
    simp only [evalOp, h4, Option.bind_some, CV.bootstrap]
    cases l with
    | none =>
      refine ⟨_, rfl, ?_, h3⟩
      revert h3; cases a <;> simp [LS.bootstrap, Rel, LS.good]
    | some l =>
      cases a with
      | int n =>
        simp only [LS.bootstrap, LS.good] at h3
        refine ⟨(v, some (top - L0)), by simp [h3], ?_, h3⟩
        simp only [LS.bootstrap, Rel]; omega
      | max =>
        simp only [LS.bootstrap, LS.good] at h3
        refine ⟨(v, some (top - L0)), by simp [h3], ?_, h3⟩
        simp only [LS.bootstrap, Rel]; omega
      | uninit => exact absurd h5 (by simp [Rel])
      | invalid => exact absurd h5 (by simp [Rel])

/-! ### loops -/

theorem bootAll_sound {L0 top : Nat} {flags : List Bool} {ss : List LS} {vs : List (CV V)}
    (hr : RelAll top ss vs) (hl : flags.length = ss.length)
    (hg : ∀ s ∈ boots L0 flags ss, s.good top) :
    ∃ vs', bootAll L0 top flags vs = some vs' ∧ RelAll top (boots L0 flags ss) vs' := by
  induction hr generalizing flags with
  | nil =>
    obtain rfl := List.length_eq_zero_iff.1 hl
    exact ⟨[], rfl, .nil⟩
  | @cons s v ss vs h1 _ ih =>
    cases flags with
    | nil => simp at hl
    | cons f fs =>
      obtain ⟨vs', h2, h3⟩ := ih (flags := fs) (by simpa using hl)
        (fun s hs => hg s (by simp only [boots]; exact List.mem_cons_of_mem _ hs))
      have hg0 := hg (if f then s.bootstrap L0 else s) (by simp [boots])
      have : ∃ w, (if f then v.bootstrap L0 top else some v) = some w ∧
          Rel top (if f then s.bootstrap L0 else s) w.2 := by
        cases f with
        | false => exact ⟨v, rfl, h1⟩
        | true =>
          simp only [if_true] at hg0 ⊢
          obtain ⟨v, l⟩ := v
          simp only [CV.bootstrap]
          cases l with
          | none => exact ⟨_, rfl, by revert h1; cases s <;> simp [LS.bootstrap, Rel]⟩
          | some l =>
            have : L0 ≤ top := by
              revert hg0 h1; cases s <;> simp [LS.bootstrap, LS.good, Rel]
              omega
            refine ⟨(v, some (top - L0)), by simp [this], ?_⟩
            revert h1; cases s <;> simp [LS.bootstrap, Rel]
            all_goals omega
      obtain ⟨w, h4, h5⟩ := this
      exact ⟨w :: vs', by simp [bootAll, h4, h2], .cons h5 h3⟩

theorem minAll_sound {top : Nat} {flags : List Bool} {ss : List LS} {vs : List (CV V)}
    (hr : RelAll top ss vs) (hl : flags.length = ss.length) :
    ∃ vs', minAll flags vs = some vs' ∧ RelAll top (mins flags ss) vs' := by
  induction hr generalizing flags with
  | nil =>
    obtain rfl := List.length_eq_zero_iff.1 hl
    exact ⟨[], rfl, .nil⟩
  | @cons s v ss vs h1 _ ih =>
    cases flags with
    | nil => simp at hl
    | cons f fs =>
      obtain ⟨vs', h2, h3⟩ := ih (flags := fs) (by simpa using hl)
      refine ⟨(if f then v.reduceMin else v) :: vs', by simp [minAll, h2], .cons ?_ h3⟩
      cases f with
      | false => exact h1
      | true =>
        obtain ⟨v, l⟩ := v
        revert h1
        cases s <;> cases l <;> simp [LS.reduceMin, CV.reduceMin, Rel]

theorem RelAll.mono {top : Nat} {ss tt : List LS} {vs : List (CV V)} (hr : RelAll top ss vs)
    (hle : leAll ss tt) (hg : ∀ s ∈ tt, s.good top) : RelAll top tt vs := by
  induction hle generalizing vs with
  | nil => cases hr; exact .nil
  | @cons s t ss tt h1 _ ih =>
    cases hr with
    | cons h2 h3 =>
      refine .cons (h2.mono h1 ?_) (ih h3 fun s hs => hg s (List.mem_cons_of_mem _ hs))
      have := hg t (by simp)
      intro he; rw [he] at this; exact this

theorem boots_length {L0 : Nat} {flags : List Bool} {ss : List LS}
    (h : flags.length = ss.length) : (boots L0 flags ss).length = flags.length := by
  induction flags generalizing ss with
  | nil => rfl
  | cons f fs ih =>
    cases ss with
    | nil => simp at h
    | cons s ss => simp [boots, ih (by simpa using h)]

theorem mins_length {flags : List Bool} {ss : List LS}
    (h : flags.length = ss.length) : (mins flags ss).length = flags.length := by
  induction flags generalizing ss with
  | nil => rfl
  | cons f fs ih =>
    cases ss with
    | nil => simp at h
    | cons s ss => simp [mins, ih (by simpa using h)]

theorem append_rel {α β : Type} {R : α → β → Prop} {a c : List α} {b d : List β}
    (h1 : List.Forall₂ R a b) (h2 : List.Forall₂ R c d) : List.Forall₂ R (a ++ c) (b ++ d) :=
  List.rel_append h1 h2

/-- Joined states of branches. -/
theorem join_rel {top : Nat} {a b : List LS} {vs : List (CV V)} (hl : a.length = b.length)
    (h : RelAll top a vs ∨ RelAll top b vs)
    (hga : ∀ s ∈ a, s ≠ .invalid) (hgb : ∀ s ∈ b, s ≠ .invalid) :
    RelAll top (List.zipWith LS.join a b) vs := by
  have hv : ∀ s t : LS, s ≠ .invalid → t ≠ .invalid → s.join t ≠ .invalid := by
    intro s t; cases s <;> cases t <;> simp [LS.join]
  induction a generalizing b vs with
  | nil =>
    obtain rfl := List.length_eq_zero_iff.1 hl.symm
    rcases h with h | h <;> (cases h; exact .nil)
  | cons s a ih =>
    cases b with
    | nil => simp at hl
    | cons t b =>
      have hj := hv s t (hga s (by simp)) (hgb t (by simp))
      rcases h with h | h
      · cases h with
        | cons h1 h2 =>
          exact .cons (h1.mono (LS.le_join_left _ _) hj) (ih (by simpa using hl) (.inl h2)
            (fun s hs => hga s (by simp [hs])) fun s hs => hgb s (by simp [hs]))
      · cases h with
        | cons h1 h2 =>
          exact .cons (h1.mono (LS.le_join_right _ _) hj) (ih (by simpa using hl) (.inr h2)
            (fun s hs => hga s (by simp [hs])) fun s hs => hgb s (by simp [hs]))

theorem good_join {B : Nat} {s t : LS} (g1 : s.good B) (g2 : t.good B) : (s.join t).good B := by
  cases s <;> cases t <;> simp [LS.join, LS.good] at *
  all_goals omega

theorem good_zip {B : Nat} {a b : List LS} (ga : ∀ s ∈ a, s.good B) (gb : ∀ s ∈ b, s.good B) :
    ∀ s ∈ List.zipWith LS.join a b, s.good B := by
  induction a generalizing b with
  | nil => simp
  | cons s a ih =>
    cases b with
    | nil => simp
    | cons t b =>
      intro x hx
      simp only [List.zipWith_cons_cons, List.mem_cons] at hx
      rcases hx with rfl | hx
      · exact good_join (ga s (by simp)) (gb t (by simp))
      · exact ih (fun s hs => ga s (List.mem_cons_of_mem _ hs))
          (fun s hs => gb s (List.mem_cons_of_mem _ hs)) x hx

/-- The states of a valid solution are valid. -/
theorem Ok.good {L0 B : Nat} (p : Prog) {env out : List LS} (h : Ok L0 B p env out)
    (hg : ∀ s ∈ env, s.good B) : ∀ s ∈ out, s.good B := by
  induction p generalizing env out with
  | ret ys =>
    simp only [Ok] at h
    intro s hs
    clear * - h hs hg
    induction ys generalizing out with
    | nil => simp at h; subst h; cases hs
    | cons y ys ih =>
      simp only [List.mapM_cons, Option.bind_eq_bind] at h
      cases ha : env[y]? with
      | none => simp [ha] at h
      | some a =>
        cases hl : ys.mapM fun x => env[x]? with
        | none => simp [ha, hl] at h
        | some l =>
          simp only [ha, hl, Option.bind_some, Option.pure_def, Option.some.injEq] at h
          subst h
          rcases List.mem_cons.1 hs with rfl | hs
          · exact hg _ (List.mem_of_getElem? ha)
          · exact ih hl hs
  | op o rest ih =>
    obtain ⟨s, h1, h2, h3⟩ := h
    refine ih h3 ?_
    intro x hx
    rcases List.mem_append.1 hx with hx | hx
    · exact hg x hx
    · simp only [List.mem_singleton] at hx
      subst hx
      cases o with
      | pure fn xs =>
        simp only [absOp, Option.map_eq_some_iff] at h1
        obtain ⟨ss, -, rfl⟩ := h1
        rw [(clip_valid h2).1]; exact (clip_valid h2).2
      | reduce k x =>
        simp only [absOp, Option.map_eq_some_iff] at h1
        obtain ⟨ss, -, rfl⟩ := h1
        rw [(clip_valid h2).1]; exact (clip_valid h2).2
      | reduceMin x =>
        simp only [absOp, Option.map_eq_some_iff] at h1
        obtain ⟨ss, -, rfl⟩ := h1
        rw [(clip_valid h2).1]; exact (clip_valid h2).2
      | bootstrap x =>
        simp only [absOp, Option.map_eq_some_iff] at h1
        obtain ⟨ss, -, rfl⟩ := h1
        rw [(clip_valid h2).1]; exact (clip_valid h2).2
  | loop b flags inits body rest ihb ihr =>
    obtain ⟨ini, sts, outs, -, -, -, h4, -, -, -, -, h8⟩ := h
    refine ihr h8 ?_
    intro x hx
    rcases List.mem_append.1 hx with hx | hx
    · exact hg x hx
    · exact h4 x hx
  | ite c t e rest iht ihe ihr =>
    obtain ⟨a, b, -, h1, h2, -, h3⟩ := h
    have ga := iht h1 hg
    have gb := ihe h2 hg
    refine ihr h3 ?_
    intro x hx
    rcases List.mem_append.1 hx with hx | hx
    · exact hg x hx
    · exact good_zip ga gb x hx

theorem good_ne {B : Nat} {ss : List LS} (h : ∀ s ∈ ss, s.good B) : ∀ s ∈ ss, s ≠ .invalid := by
  intro s hs he
  have := h s hs
  rw [he] at this; exact this

/-- All iterations of a loop. -/
theorem runSegs_sound {L0 top : Nat} {flags : List Bool} {sts : List LS}
    {f : Int → List (CV V) → Option (List (CV V))} (hl : flags.length = sts.length)
    (hg : ∀ s ∈ sts, s.good top) (hgb : ∀ s ∈ boots L0 flags sts, s.good top)
    (hf : ∀ i vs, RelAll top (boots L0 flags sts) vs → ∃ vs' outs, f i vs = some vs' ∧
      RelAll top outs vs' ∧ outs.length = flags.length ∧ leAll (mins flags outs) sts)
    (is : List Int) (vs : List (CV V)) (hr : RelAll top sts vs) :
    ∃ vs', runSegs L0 top flags f (is.map fun i => ⟨i, true, true⟩) vs = some vs' ∧
      RelAll top sts vs' := by
  induction is generalizing vs with
  | nil => exact ⟨vs, rfl, hr⟩
  | cons i is ih =>
    obtain ⟨v1, h1, h2⟩ := bootAll_sound hr hl hgb
    obtain ⟨v2, outs, h3, h4, h5, h6⟩ := hf i v1 h2
    obtain ⟨v3, h7, h8⟩ := minAll_sound h4 h5.symm
    obtain ⟨v4, h9, h10⟩ := ih v3 (h8.mono h6 hg)
    exact ⟨v4, by simp [runSegs, h1, h3, h7, h9], h10⟩

/-- Programs run and the levels are as the analysis says. -/
theorem sound {m : Sem V} {L0 top : Nat} (p : Prog) {env out : List LS} {cenv : List (CV V)}
    (h : Ok L0 top p env out) (hg : ∀ s ∈ env, s.good top) (hr : RelAll top env cenv) :
    ∃ res, eval m L0 top p cenv = some res ∧ RelAll top out res := by
  induction p generalizing env out cenv with
  | ret ys =>
    obtain ⟨r, h1, h2⟩ := mapM_rel hr ys h
    exact ⟨r, h1, h2⟩
  | op o rest ih =>
    obtain ⟨s, h1, h2, h3⟩ := h
    obtain ⟨v, h4, h5, h6⟩ := op_sound (m := m) hr o h1 h2
    obtain ⟨res, h7, h8⟩ := ih h3 (by
      intro x hx
      rcases List.mem_append.1 hx with hx | hx
      · exact hg x hx
      · simp only [List.mem_singleton] at hx; subst hx; exact h6)
      (append_rel hr (.cons h5 .nil))
    exact ⟨res, by simp [eval, h4, h7], h8⟩
  | loop b flags inits body rest ihb ihr =>
    obtain ⟨ini, sts, outs, h1, h2, h3, h4, h5, h6, h7, h7', h8⟩ := h
    obtain ⟨v0, h9, h10⟩ := mapM_rel hr inits h1
    obtain ⟨v1, h11, h12⟩ := minAll_sound h10 h2
    have hlen : flags.length = sts.length := by
      rw [← mins_length h2]; exact h3.length_eq
    obtain ⟨v2, h13, h14⟩ := runSegs_sound (L0 := L0)
      (f := fun i st => eval m L0 top body (cenv ++ (m.iv i, none) :: st)) hlen h4 h5 (by
        intro i vs hvs
        obtain ⟨res, h15, h16⟩ := ihb h6 (by
          intro x hx
          rcases List.mem_append.1 hx with hx | hx
          · exact hg x hx
          · rcases List.mem_cons.1 hx with rfl | hx
            · trivial
            · exact h5 x hx) (append_rel hr (List.Forall₂.cons (b := ((m.iv i, none) : CV V))
            (show Rel top .uninit none from trivial) hvs))
        exact ⟨res, outs, h15, h16, h7', h7⟩) b.ivs v1 (h12.mono h3 h4)
    obtain ⟨res, h17, h18⟩ := ihr h8 (by
      intro x hx
      rcases List.mem_append.1 hx with hx | hx
      · exact hg x hx
      · exact h4 x hx) (append_rel hr h14)
    refine ⟨res, ?_, h18⟩
    simp only [eval, h9, Option.bind_some, h11, Bounds.segs]
    rw [h13]
    exact h17
  | ite c t e rest iht ihe ihr =>
    obtain ⟨a, b, hc, h1, h2, h3, h4⟩ := h
    obtain ⟨v, hv, -⟩ := get_rel hr (List.getElem?_eq_getElem hc)
    have ga := Ok.good t h1 hg
    have gb := Ok.good e h2 hg
    obtain ⟨r1, e1, e2⟩ := iht h1 hg hr
    obtain ⟨r2, e3, e4⟩ := ihe h2 hg hr
    have : ∃ r, (if m.cond v.1 then eval m L0 top t cenv else eval m L0 top e cenv) = some r ∧
        (RelAll top a r ∨ RelAll top b r) := by
      cases m.cond v.1 with
      | true => exact ⟨r1, by simp [e1], .inl e2⟩
      | false => exact ⟨r2, by simp [e3], .inr e4⟩
    obtain ⟨r, e5, e6⟩ := this
    have hj := join_rel h3 e6 (good_ne ga) (good_ne gb)
    have hgj := good_zip ga gb
    obtain ⟨res, h17, h18⟩ := ihr h4 (by
      intro x hx
      rcases List.mem_append.1 hx with hx | hx
      · exact hg x hx
      · exact hgj x hx) (append_rel hr hj)
    exact ⟨res, by simp [eval, hv, e5, h17], h18⟩

end Heir.Halo
