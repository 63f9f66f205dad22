import Verif.Secret.Spec
import Mathlib.Data.List.Count

/-! # If-to-select: elementary moves -/

namespace Heir.Secret

variable {V : Type} {S : Sem V}

theorem eval_app : ∀ (a b : Blk) (s : St V), eval S (a.app b) s = eval S b (eval S a s) := by
  intro a
  induction a with
  | done => intro b s; rfl
  | op r f x rest ih => intro b s; exact ih b _
  | reg r f x c rest ih => intro b s; exact ih b _
  | reveal r x rest ih => intro b s; exact ih b _
  | eff r f x rest ih => intro b s; exact ih b _
  | ite res c t ty e ey rest _ _ ih =>
    intro b s
    simp only [Blk.app, eval]
    split
    · exact ih b _
    · exact ih b _
  | loop res bs iv ps ins body ys rest _ ih => intro b s; exact ih b _

theorem app_done : ∀ b : Blk, b.app .done = b := by
  intro b
  induction b <;> simp_all [Blk.app]

theorem setMany_frame : ∀ (ns : List Nat) (vs : List V) (env : Nat → V) (v : Nat), v ∉ ns →
    setMany env ns vs v = env v := by
  intro ns
  induction ns with
  | nil => intro vs env v _; cases vs <;> rfl
  | cons n ns ih =>
    intro vs env v hv
    cases vs with
    | nil => rfl
    | cons x vs =>
      simp only [List.mem_cons, not_or] at hv
      simp only [setMany]
      rw [ih _ _ _ hv.2, Function.update_of_ne hv.1]

theorem eval_frame : ∀ (b : Blk) (s : St V) (v : Nat), v ∉ topDefs b → (eval S b s).env v = s.env v := by
  intro b
  induction b with
  | done => intro s v _; rfl
  | op r f x rest ih =>
    intro s v hv
    simp only [topDefs, List.mem_cons, not_or] at hv
    simp only [eval]
    rw [ih _ _ hv.2]; exact Function.update_of_ne hv.1 _ _
  | reg r f x c rest ih =>
    intro s v hv
    simp only [topDefs, List.mem_cons, not_or] at hv
    simp only [eval]
    rw [ih _ _ hv.2]; exact Function.update_of_ne hv.1 _ _
  | reveal r x rest ih =>
    intro s v hv
    simp only [topDefs, List.mem_cons, not_or] at hv
    simp only [eval]
    rw [ih _ _ hv.2]; exact Function.update_of_ne hv.1 _ _
  | eff r f x rest ih =>
    intro s v hv
    simp only [topDefs, List.mem_cons, not_or] at hv
    simp only [eval]
    rw [ih _ _ hv.2]; exact Function.update_of_ne hv.1 _ _
  | ite res c t ty e ey rest _ _ ih =>
    intro s v hv
    simp only [topDefs, List.mem_append, not_or] at hv
    simp only [eval]
    split
    · rw [ih _ _ hv.2]; exact setMany_frame _ _ _ _ hv.1
    · rw [ih _ _ hv.2]; exact setMany_frame _ _ _ _ hv.1
  | loop res bs iv ps ins body ys rest _ ih =>
    intro s v hv
    simp only [topDefs, List.mem_append, not_or] at hv
    simp only [eval]
    rw [ih _ _ hv.2]; exact setMany_frame _ _ _ _ hv.1

theorem eval_pure_mem : ∀ (b : Blk) (s : St V), b.isPure = true → (eval S b s).mem = s.mem := by
  intro b
  induction b with
  | done => intro s _; rfl
  | op r f x rest ih => intro s h; simp only [eval]; rw [ih _ h]
  | reg r f x c rest ih => intro s h; simp only [eval]; rw [ih _ h]
  | reveal r x rest ih => intro s h; simp only [eval]; rw [ih _ h]
  | eff r f x rest ih => intro s h; simp [Blk.isPure] at h
  | ite res c t ty e ey rest iht ihe ih =>
    intro s h
    simp only [Blk.isPure, Bool.and_eq_true] at h
    simp only [eval]
    split
    · rw [ih _ h.2]; exact iht _ h.1.1
    · rw [ih _ h.2]; exact ihe _ h.1.2
  | loop res bs iv ps ins body ys rest ihb ih =>
    intro s h
    simp only [Blk.isPure, Bool.and_eq_true] at h
    simp only [eval]
    rw [ih _ h.2]
    simp only [St.leave]
    generalize S.trips (bs.map s.env) = n
    generalize hc : s.ctl ++ _ = c
    clear hc
    induction n with
    | zero => rfl
    | succ n ihn => simp only [iter, loopStep]; rw [ihb _ h.1]; exact ihn

/-- Every execution of `b'` does what `b` does. -/
def Sim (S : Sem V) (P : List Nat) (b b' : Blk) : Prop :=
  topDefs b ⊆ topDefs b' ∧
  ∀ s s', SameOn P s s' → SameOn (P ++ topDefs b) (eval S b s) (eval S b' s')

theorem SameOn.mono {P Q : List Nat} {s s' : St V} (h : SameOn P s s') (hq : Q ⊆ P) :
    SameOn Q s s' := ⟨fun v hv => h.1 v (hq hv), h.2⟩

theorem SameOn.trans {P : List Nat} {s s' s'' : St V} (h : SameOn P s s') (h' : SameOn P s' s'') :
    SameOn P s s'' := ⟨fun v hv => (h.1 v hv).trans (h'.1 v hv), h.2.trans h'.2⟩

theorem SameOn.refl (P : List Nat) (s : St V) : SameOn P s s := ⟨fun _ _ => rfl, rfl⟩

theorem SameOn.map {P a : List Nat} {s s' : St V} (h : SameOn P s s') (ha : a ⊆ P) :
    a.map s.env = a.map s'.env := List.map_congr_left fun v hv => h.1 v (ha hv)

theorem update_same {P : List Nat} {env env' : Nat → V} (h : ∀ v ∈ P, env v = env' v) (r : Nat)
    {x x' : V} (hx : x = x') :
    ∀ v ∈ r :: P, Function.update env r x v = Function.update env' r x' v := by
  intro v hv
  subst hx
  by_cases hvr : v = r
  · subst hvr; simp
  · rw [Function.update_of_ne hvr, Function.update_of_ne hvr]
    rcases List.mem_cons.mp hv with h' | h'
    · exact absurd h' hvr
    · exact h v h'

theorem setMany_same : ∀ (ns P : List Nat) (vs : List V) (env env' : Nat → V),
    (∀ v ∈ P, env v = env' v) → ns.length ≤ vs.length →
    ∀ v ∈ ns ++ P, setMany env ns vs v = setMany env' ns vs v := by
  intro ns
  induction ns with
  | nil => intro P vs env env' h _ v hv; cases vs <;> exact h v hv
  | cons n ns ih =>
    intro P vs env env' h hl v hv
    cases vs with
    | nil => simp at hl
    | cons x vs =>
      simp only [setMany]
      refine ih (n :: P) vs _ _ (update_same h n rfl) (by simpa using hl) v ?_
      simp only [List.cons_append, List.mem_cons, List.mem_append] at hv ⊢
      tauto

theorem Sim.trans {P : List Nat} {b b' b'' : Blk} (h : Sim S P b b') (h' : Sim S P b' b'') :
    Sim S P b b'' := by
  refine ⟨h.1.trans h'.1, fun s s' hs => ?_⟩
  refine (h.2 s s' hs).trans ((h'.2 s' s' (SameOn.refl _ _)).mono ?_)
  intro v hv
  rcases List.mem_append.mp hv with hv | hv
  · exact List.mem_append_left _ hv
  · exact List.mem_append_right _ (h.1 hv)

theorem sim_op {P : List Nat} {r : Nat} {f : Fn} {a : List Nat} {b b' : Blk} (ha : a ⊆ P)
    (h : Sim S (r :: P) b b') : Sim S P (.op r f a b) (.op r f a b') := by
  refine ⟨fun v hv => ?_, fun s s' hs => ?_⟩
  · simp only [topDefs, List.mem_cons] at hv ⊢
    exact hv.imp id (fun h' => h.1 h')
  · simp only [eval]
    have h1 : a.map s.env = a.map s'.env := hs.map ha
    rw [h1]
    refine SameOn.mono (h.2 _ _ ?_) ?_
    · exact ⟨fun v hv => update_same hs.1 r rfl v hv, hs.2⟩
    intro v hv
    simp only [topDefs, List.mem_cons, List.mem_append] at hv ⊢
    tauto

theorem sim_reg {P : List Nat} {r f : Nat} {a c : List Nat} {b b' : Blk} (ha : a ⊆ P) (hc : c ⊆ P)
    (h : Sim S (r :: P) b b') : Sim S P (.reg r f a c b) (.reg r f a c b') := by
  refine ⟨fun v hv => ?_, fun s s' hs => ?_⟩
  · simp only [topDefs, List.mem_cons] at hv ⊢
    exact hv.imp id (fun h' => h.1 h')
  · simp only [eval]
    have h1 : (a ++ c).map s.env = (a ++ c).map s'.env :=
      hs.map (List.append_subset.mpr ⟨ha, hc⟩)
    rw [h1]
    refine SameOn.mono (h.2 _ _ ?_) ?_
    · exact ⟨fun v hv => update_same hs.1 r rfl v hv, hs.2⟩
    intro v hv
    simp only [topDefs, List.mem_cons, List.mem_append] at hv ⊢
    tauto

theorem sim_reveal {P : List Nat} {r a : Nat} {b b' : Blk} (ha : a ∈ P)
    (h : Sim S (r :: P) b b') : Sim S P (.reveal r a b) (.reveal r a b') := by
  refine ⟨fun v hv => ?_, fun s s' hs => ?_⟩
  · simp only [topDefs, List.mem_cons] at hv ⊢
    exact hv.imp id (fun h' => h.1 h')
  · simp only [eval]
    refine SameOn.mono (h.2 _ _ ?_) ?_
    · exact ⟨fun v hv => update_same hs.1 r (hs.1 a ha) v hv, hs.2⟩
    intro v hv
    simp only [topDefs, List.mem_cons, List.mem_append] at hv ⊢
    tauto

theorem sim_eff {P : List Nat} {r f : Nat} {a : List Nat} {b b' : Blk} (ha : a ⊆ P)
    (h : Sim S (r :: P) b b') : Sim S P (.eff r f a b) (.eff r f a b') := by
  refine ⟨fun v hv => ?_, fun s s' hs => ?_⟩
  · simp only [topDefs, List.mem_cons] at hv ⊢
    exact hv.imp id (fun h' => h.1 h')
  · simp only [eval]
    have h1 : a.map s.env = a.map s'.env := hs.map ha
    rw [h1, hs.2]
    refine SameOn.mono (h.2 _ _ ?_) ?_
    · exact ⟨fun v hv => update_same hs.1 r rfl v hv, rfl⟩
    intro v hv
    simp only [topDefs, List.mem_cons, List.mem_append] at hv ⊢
    tauto

/-- Leaving regions with the same values. -/
theorem SameOn.leave {P Q res : List Nat} {s s' : St V} {env env' : Nat → V} {vals vals' : List V}
    (h : SameOn Q s s') (he : ∀ v ∈ P, env v = env' v) (hv : vals = vals')
    (hl : vals.length = res.length) :
    SameOn (res ++ P) (s.leave env res vals) (s'.leave env' res vals') := by
  subst hv
  exact ⟨setMany_same res P vals env env' he (by omega), h.2⟩

theorem sim_ite {P res ty ey : List Nat} {c : Nat} {t t' e e' rest rest' : Blk} (hc : c ∈ P)
    (ht : Sim S P t t') (hty : ty ⊆ P ++ topDefs t) (htl : ty.length = res.length)
    (he : Sim S P e e') (hey : ey ⊆ P ++ topDefs e) (hel : ey.length = res.length)
    (hr : Sim S (res ++ P) rest rest') :
    Sim S P (.ite res c t ty e ey rest) (.ite res c t' ty e' ey rest') := by
  refine ⟨fun v hv => ?_, fun s s' hs => ?_⟩
  · simp only [topDefs, List.mem_append] at hv ⊢
    exact hv.imp id (fun h' => hr.1 h')
  · simp only [eval]
    rw [← hs.1 c hc]
    have sub : P ++ topDefs (.ite res c t ty e ey rest) ⊆ (res ++ P) ++ topDefs rest := by
      intro v hv
      simp only [topDefs, List.mem_append] at hv ⊢
      tauto
    split
    · have h1 := ht.2 { s with ctl := s.ctl ++ [.branch true] }
        { s' with ctl := s'.ctl ++ [.branch true] } hs
      exact (hr.2 _ _ (h1.leave hs.1 (h1.map hty) (by simpa using htl))).mono sub
    · have h1 := he.2 { s with ctl := s.ctl ++ [.branch false] }
        { s' with ctl := s'.ctl ++ [.branch false] } hs
      exact (hr.2 _ _ (h1.leave hs.1 (h1.map hey) (by simpa using hel))).mono sub

theorem sim_loop {P res bs ps ins ys : List Nat} {iv : Nat} {b b' rest rest' : Blk} (hbs : bs ⊆ P)
    (hins : ins ⊆ P) (hil : ins.length = res.length) (hpl : ps.length = res.length)
    (hb : Sim S (iv :: ps ++ P) b b') (hys : ys ⊆ (iv :: ps ++ P) ++ topDefs b)
    (hyl : ys.length = res.length) (hr : Sim S (res ++ P) rest rest') :
    Sim S P (.loop res bs iv ps ins b ys rest) (.loop res bs iv ps ins b' ys rest') := by
  refine ⟨fun v hv => ?_, fun s s' hs => ?_⟩
  · simp only [topDefs, List.mem_append] at hv ⊢
    exact hv.imp id (fun h' => hr.1 h')
  · simp only [eval]
    have sub : P ++ topDefs (.loop res bs iv ps ins b ys rest) ⊆ (res ++ P) ++ topDefs rest := by
      intro v hv
      simp only [topDefs, List.mem_append] at hv ⊢
      tauto
    refine (hr.2 _ _ ?_).mono sub
    rw [hs.map hbs, hs.map hins]
    generalize S.trips (bs.map s'.env) = n
    generalize S.iv (bs.map s'.env) = ivAt
    generalize hc : s.ctl ++ _ = c
    generalize hc' : s'.ctl ++ _ = c'
    clear hc hc'
    have key : ∀ n, ∃ vals st st',
        iter (loopStep (eval S b) s.env iv ivAt ps ys) n (ins.map s'.env, { s with ctl := c }) =
          (vals, st) ∧
        iter (loopStep (eval S b') s'.env iv ivAt ps ys) n (ins.map s'.env, { s' with ctl := c' }) =
          (vals, st') ∧ st.mem = st'.mem ∧ vals.length = res.length := by
      intro n
      induction n with
      | zero => exact ⟨_, _, _, rfl, rfl, hs.2, by simpa using hil⟩
      | succ n ih =>
        obtain ⟨vals, st, st', h1, h2, h3, h4⟩ := ih
        simp only [iter, h1, h2, loopStep]
        have h5 := hb.2 { st with env := setMany (Function.update s.env iv (ivAt n)) ps vals }
          { st' with env := setMany (Function.update s'.env iv (ivAt n)) ps vals }
          ⟨by
            intro v hv
            refine setMany_same ps (iv :: P) _ _ _ (update_same hs.1 iv rfl) (by omega) v ?_
            simp only [List.cons_append, List.mem_cons, List.mem_append] at hv ⊢
            tauto, h3⟩
        exact ⟨_, _, _, rfl, by rw [h5.map hys], h5.2, by simpa using hyl⟩
    obtain ⟨vals, st, st', h1, h2, h3, h4⟩ := key n
    rw [h1, h2]
    exact SameOn.leave (Q := []) ⟨by simp, h3⟩ hs.1 rfl h4

/-- Programs read visible values only. -/
theorem sim_refl : ∀ (b : Blk) (P : List Nat), Valid P b → Sim S P b b := by
  intro b
  induction b with
  | done => intro P _; exact ⟨fun _ h => h, fun s s' h => by simpa [topDefs, eval] using h⟩
  | op r f x rest ih => intro P h; exact sim_op h.1 (ih _ h.2)
  | reg r f x c rest ih => intro P h; exact sim_reg h.1 h.2.1 (ih _ h.2.2)
  | reveal r x rest ih => intro P h; exact sim_reveal h.1 (ih _ h.2)
  | eff r f x rest ih => intro P h; exact sim_eff h.1 (ih _ h.2)
  | ite res c t ty e ey rest iht ihe ih =>
    intro P h
    obtain ⟨h1, h2, h3, h4, h5, h6, h7, h8⟩ := h
    exact sim_ite h1 (iht _ h2) h3 h4 (ihe _ h5) h6 h7 (ih _ h8)
  | loop res bs iv ps ins body ys rest ihb ih =>
    intro P h
    obtain ⟨h1, h2, h3, h4, h5, h6, h7, h8⟩ := h
    exact sim_loop h1 h2 h3 h4 (ihb _ h5) h6 h7 (ih _ h8)

theorem Valid.mono : ∀ (b : Blk) (P Q : List Nat), P ⊆ Q → Valid P b → Valid Q b := by
  have cons : ∀ {P Q : List Nat} (r : Nat), P ⊆ Q → r :: P ⊆ r :: Q :=
    fun r h => List.cons_subset_cons r h
  have app : ∀ {P Q : List Nat} (l : List Nat), P ⊆ Q → l ++ P ⊆ l ++ Q :=
    fun l h v hv => by simp only [List.mem_append] at hv ⊢; exact hv.imp id (fun h' => h h')
  have appr : ∀ {P Q : List Nat} (l : List Nat), P ⊆ Q → P ++ l ⊆ Q ++ l :=
    fun l h v hv => by simp only [List.mem_append] at hv ⊢; exact hv.imp (fun h' => h h') id
  intro b
  induction b with
  | done => intro P Q _ _; trivial
  | op r f x rest ih => intro P Q hs h; exact ⟨h.1.trans hs, ih _ _ (cons r hs) h.2⟩
  | reg r f x c rest ih =>
    intro P Q hs h; exact ⟨h.1.trans hs, h.2.1.trans hs, ih _ _ (cons r hs) h.2.2⟩
  | reveal r x rest ih => intro P Q hs h; exact ⟨hs h.1, ih _ _ (cons r hs) h.2⟩
  | eff r f x rest ih => intro P Q hs h; exact ⟨h.1.trans hs, ih _ _ (cons r hs) h.2⟩
  | ite res c t ty e ey rest iht ihe ih =>
    intro P Q hs h
    obtain ⟨h1, h2, h3, h4, h5, h6, h7, h8⟩ := h
    exact ⟨hs h1, iht _ _ hs h2, h3.trans (appr _ hs), h4, ihe _ _ hs h5, h6.trans (appr _ hs), h7,
      ih _ _ (app _ hs) h8⟩
  | loop res bs iv ps ins body ys rest ihb ih =>
    intro P Q hs h
    obtain ⟨h1, h2, h3, h4, h5, h6, h7, h8⟩ := h
    exact ⟨h1.trans hs, h2.trans hs, h3, h4, ihb _ _ (app _ hs) h5, h6.trans (appr _ (app _ hs)), h7,
      ih _ _ (app _ hs) h8⟩

theorem topDefs_app : ∀ a b : Blk, topDefs (a.app b) = topDefs a ++ topDefs b := by
  intro a b
  induction a <;> simp_all [Blk.app, topDefs]

theorem allDefs_app : ∀ a b : Blk, allDefs (a.app b) = allDefs a ++ allDefs b := by
  intro a b
  induction a <;> simp_all [Blk.app, allDefs]

theorem isPure_app : ∀ a b : Blk, (a.app b).isPure = (a.isPure && b.isPure) := by
  intro a b
  induction a <;> simp_all [Blk.app, Blk.isPure, Bool.and_assoc]

theorem topDefs_subset : ∀ b : Blk, topDefs b ⊆ allDefs b := by
  intro b
  induction b with
  | done => exact fun _ h => h
  | op r f x rest ih => exact List.cons_subset_cons _ ih
  | reg r f x c rest ih => exact List.cons_subset_cons _ ih
  | reveal r x rest ih => exact List.cons_subset_cons _ ih
  | eff r f x rest ih => exact List.cons_subset_cons _ ih
  | ite res c t ty e ey rest _ _ ih =>
    intro v hv
    simp only [topDefs, allDefs, List.mem_append] at hv ⊢
    have := @ih v
    tauto
  | loop res bs iv ps ins body ys rest _ ih =>
    intro v hv
    simp only [topDefs, allDefs, List.mem_append] at hv ⊢
    have := @ih v
    tauto

theorem valid_app : ∀ (a b : Blk) (P : List Nat), Valid P (a.app b) ↔
    Valid P a ∧ Valid (P ++ topDefs a) b := by
  have perm : ∀ {b : Blk} {P Q : List Nat}, (∀ v, v ∈ P ↔ v ∈ Q) → (Valid P b ↔ Valid Q b) :=
    fun h => ⟨Valid.mono _ _ _ (fun v hv => (h v).mp hv), Valid.mono _ _ _ (fun v hv => (h v).mpr hv)⟩
  intro a b
  induction a with
  | done => intro P; simp [Blk.app, Valid, topDefs]
  | op r f x rest ih =>
    intro P
    simp only [Blk.app, Valid, ih, topDefs, and_assoc]
    rw [perm (P := r :: P ++ topDefs rest) (Q := P ++ r :: topDefs rest) (by intro v; simp; tauto)]
  | reg r f x c rest ih =>
    intro P
    simp only [Blk.app, Valid, ih, topDefs, and_assoc]
    rw [perm (P := r :: P ++ topDefs rest) (Q := P ++ r :: topDefs rest) (by intro v; simp; tauto)]
  | reveal r x rest ih =>
    intro P
    simp only [Blk.app, Valid, ih, topDefs, and_assoc]
    rw [perm (P := r :: P ++ topDefs rest) (Q := P ++ r :: topDefs rest) (by intro v; simp; tauto)]
  | eff r f x rest ih =>
    intro P
    simp only [Blk.app, Valid, ih, topDefs, and_assoc]
    rw [perm (P := r :: P ++ topDefs rest) (Q := P ++ r :: topDefs rest) (by intro v; simp; tauto)]
  | ite res c t ty e ey rest _ _ ih =>
    intro P
    simp only [Blk.app, Valid, ih, topDefs, and_assoc]
    rw [perm (P := res ++ P ++ topDefs rest) (Q := P ++ (res ++ topDefs rest))
      (by intro v; simp; tauto)]
  | loop res bs iv ps ins body ys rest _ ih =>
    intro P
    simp only [Blk.app, Valid, ih, topDefs, and_assoc]
    rw [perm (P := res ++ P ++ topDefs rest) (Q := P ++ (res ++ topDefs rest))
      (by intro v; simp; tauto)]

theorem split_app : ∀ b : Blk, b.split.1.app b.split.2 = b ∧ b.split.1.isPure = true := by
  intro b
  induction b with
  | done => exact ⟨rfl, rfl⟩
  | op r f x rest ih => simpa [Blk.split, Blk.app, Blk.isPure] using ih
  | reg r f x c rest ih => simpa [Blk.split, Blk.app, Blk.isPure] using ih
  | reveal r x rest ih => simpa [Blk.split, Blk.app, Blk.isPure] using ih
  | eff r f x rest ih => exact ⟨rfl, rfl⟩
  | ite res c t ty e ey rest _ _ ih =>
    simp only [Blk.split]
    split
    · rename_i h
      simp only [Bool.and_eq_true] at h
      simpa [Blk.app, Blk.isPure, h.1, h.2] using ih
    · exact ⟨rfl, rfl⟩
  | loop res bs iv ps ins body ys rest _ ih =>
    simp only [Blk.split]
    split
    · rename_i h
      simpa [Blk.app, Blk.isPure, h] using ih
    · exact ⟨rfl, rfl⟩

end Heir.Secret
