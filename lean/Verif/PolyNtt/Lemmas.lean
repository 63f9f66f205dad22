import Verif.PolyNtt.Spec

/-!
# Lemmas for C146: the simulation
-/

namespace Heir.PolyNtt

variable {P C E : Type}

/-! ### lists of operands -/

theorem mapM_link {α β : Type} {ops : List Nat} {get : Nat → Option α} {lk : Nat → Option Nat}
    {fet : Nat → Option β} {g : α → β}
    (h : ∀ x ∈ ops, ∃ v k, get x = some v ∧ lk x = some k ∧ fet k = some (g v)) :
    ∃ xs ks, ops.mapM get = some xs ∧ ops.mapM lk = some ks ∧ ks.mapM fet = some (xs.map g) := by
  induction ops with
  | nil => exact ⟨[], [], rfl, rfl, rfl⟩
  | cons x rest ih =>
    obtain ⟨v, k, h1, h2, h3⟩ := h x (by simp)
    obtain ⟨xs, ks, i1, i2, i3⟩ := ih fun y hy => h y (by simp [hy])
    exact ⟨v :: xs, k :: ks, by simp [List.mapM_cons, h1, i1], by simp [List.mapM_cons, h2, i2],
      by simp [List.mapM_cons, h3, i3]⟩

theorem mapM_bind_some {α β : Type} {ops : List Nat} {get : Nat → Option α} {h : α → Option β}
    {ps : List β} (hp : (ops.mapM fun x => (get x).bind h) = some ps) :
    ∃ xs, ops.mapM get = some xs ∧ xs.mapM h = some ps := by
  induction ops generalizing ps with
  | nil => exact ⟨[], rfl, by simpa using hp⟩
  | cons x rest ih =>
    simp only [List.mapM_cons, Option.bind_eq_bind] at hp
    cases hx : get x with
    | none => simp [hx] at hp
    | some v =>
      cases hv : h v with
      | none => simp [hx, hv] at hp
      | some b =>
        cases hr : rest.mapM fun x => (get x).bind h with
        | none => simp [hx, hv, hr] at hp
        | some bs =>
          obtain ⟨xs, h1, h2⟩ := ih hr
          refine ⟨v :: xs, by simp [List.mapM_cons, hx, h1], ?_⟩
          simp only [hx, hv, hr, Option.bind_some, Option.pure_def, Option.some.injEq] at hp
          simp [List.mapM_cons, hv, h2, hp]

theorem mapM_length {α β : Type} {f : α → Option β} {l : List α} {r : List β}
    (h : l.mapM f = some r) : r.length = l.length := by
  induction l generalizing r with
  | nil => simp at h; simp [← h]
  | cons a l ih =>
    simp only [List.mapM_cons, Option.bind_eq_bind] at h
    cases ha : f a with
    | none => simp [ha] at h
    | some b =>
      cases hl : l.mapM f with
      | none => simp [ha, hl] at h
      | some bs =>
        simp only [ha, hl, Option.bind_some, Option.pure_def, Option.some.injEq] at h
        simp [← h, ih hl]

/-! ### the rewritten operations -/

theorem tgtBody_append (m : Sem P C E) (a b : List TIns) (ws : List (W P C E)) :
    tgtBody m (a ++ b) ws = (tgtBody m a ws).bind fun ws => tgtBody m b ws := by
  induction a generalizing ws with
  | nil => rfl
  | cons t a ih =>
    simp only [List.cons_append, tgtBody, Option.bind_assoc]
    congr 1; funext w
    exact ih _

theorem tgtBody_snoc {m : Sem P C E} {a : List TIns} {ws ws' : List (W P C E)} {t : TIns}
    {w : W P C E} (h : tgtBody m a ws = some ws') (ht : tgtIns m ws' t = some w) :
    tgtBody m (a ++ [t]) ws = some (ws' ++ [w]) := by
  rw [tgtBody_append, h, Option.bind_some]
  simp [tgtBody, ht]

/-! ### the invariant -/

/-- Is a value needed in a form? -/
def needs (ty : List Bool) (s : Sol) (j : Nat) : Form → Prop
  | .coeff => isPoly ty j = false ∨ (s j).c = true
  | .eval => isPoly ty j = false ∨ (s j).e = true

/-- The value is of its type and is found in the forms in which it is needed. -/
def Found (m : Sem P C E) (ty : List Bool) (s : Sol) (ents : List Ent) (ws : List (W P C E))
    (j : Nat) (v : V P C) : Prop :=
  (asC v).isSome = isPoly ty j ∧
  ∀ f, needs ty s j f → ∃ k, look ty ents f j = some k ∧ ws[k]? = some (inForm m f v)

structure Inv (m : Sem P C E) (ty : List Bool) (s : Sol) (ws0 : List (W P C E)) (vs : List (V P C))
    (st : St) (ws : List (W P C E)) : Prop where
  len : st.next = ws.length
  ents : st.ents.length = vs.length
  run : tgtBody m st.out ws0 = some ws
  ok : ∀ j v, vs[j]? = some v → Found m ty s st.ents ws j v

theorem look_append {ty : List Bool} {ents : List Ent} {f : Form} {j k : Nat} (x : Ent)
    (h : look ty ents f j = some k) : look ty (ents ++ [x]) f j = some k := by
  unfold look at h ⊢
  cases he : ents[j]? with
  | none => simp [he] at h
  | some e =>
    have hj : j < ents.length := (List.getElem?_eq_some_iff.1 he).1
    rw [List.getElem?_append_left hj, he]
    rw [he] at h; exact h

theorem Found.append {m : Sem P C E} {ty : List Bool} {s : Sol} {ents : List Ent}
    {ws : List (W P C E)} {j : Nat} {v : V P C} (h : Found m ty s ents ws j v) (x : Ent)
    (more : List (W P C E)) : Found m ty s (ents ++ [x]) (ws ++ more) j v := by
  refine ⟨h.1, fun f hf => ?_⟩
  obtain ⟨k, h1, h2⟩ := h.2 f hf
  refine ⟨k, look_append x h1, ?_⟩
  rw [List.getElem?_append_left (List.getElem?_eq_some_iff.1 h2).1, h2]

/-- A new value is recorded. -/
theorem Inv.add {m : Sem P C E} {ty : List Bool} {s : Sol} {ws0 : List (W P C E)}
    {vs : List (V P C)} {st : St} {ws : List (W P C E)} (h : Inv m ty s ws0 vs st ws)
    (out : List TIns) (more : List (W P C E)) (x : Ent) (v : V P C)
    (hr : tgtBody m out ws0 = some (ws ++ more))
    (hv : Found m ty s (st.ents ++ [x]) (ws ++ more) vs.length v) :
    Inv m ty s ws0 (vs ++ [v]) ⟨out, st.next + more.length, st.ents ++ [x]⟩ (ws ++ more) := by
  refine ⟨by simp [h.len], by simp [h.ents], hr, ?_⟩
  intro j u hj
  rcases Nat.lt_trichotomy j vs.length with hlt | heq | hgt
  · rw [List.getElem?_append_left hlt] at hj
    exact (h.ok j u hj).append x more
  · subst heq
    rw [List.getElem?_concat_length] at hj
    cases hj
    exact hv
  · rw [List.getElem?_eq_none (by simp; omega)] at hj
    cases hj

theorem look_last {ty : List Bool} {ents : List Ent} {f : Form} {x : Ent} :
    look ty (ents ++ [x]) f ents.length =
      if isPoly ty ents.length then (match f with | .coeff => x.c | .eval => x.e) else x.p := by
  unfold look
  rw [List.getElem?_concat_length]; rfl

section steps

variable {m : Sem P C E} {ty : List Bool} {s : Sol} {ws0 : List (W P C E)}
    {vs : List (V P C)} {st : St} {ws : List (W P C E)}

/-- A value that is not polynomial. -/
theorem Inv.plain (h : Inv m ty s ws0 vs st ws) (t : TIns) (a : P)
    (ht : tgtIns m ws t = some (.p a)) (hty : isPoly ty vs.length = false) :
    ∃ ws', Inv m ty s ws0 (vs ++ [.inl a]) ((st.emit t).record { p := some st.next }) ws' := by
  refine ⟨_, h.add _ [.p a] _ _ (tgtBody_snoc h.run ht) ⟨by simp [asC, hty], ?_⟩⟩
  intro f _
  refine ⟨st.next, ?_, ?_⟩
  · rw [← h.ents] at hty ⊢
    rw [look_last, hty]; rfl
  · rw [h.len]; simp [inForm]

theorem Inv.coeffOut (h : Inv m ty s ws0 vs st ws) (w : Nat) (t : TIns) (c : C) (alsoE : Bool)
    (ht : tgtIns m ws t = some (.c c)) (hty : isPoly ty vs.length = true)
    (he : (s vs.length).e = true → alsoE = true) :
    ∃ ws', Inv m ty s ws0 (vs ++ [.inr c]) (coeffOut st w t alsoE) ws' := by
  have hrun := tgtBody_snoc h.run ht
  have hty' : isPoly ty st.ents.length = true := by rw [h.ents]; exact hty
  cases alsoE with
  | true =>
    have h2 : tgtIns m (ws ++ [.c c]) (.ntt w st.next) = some (.e (m.ntt c)) := by
      simp [tgtIns, h.len]
    have hr2 := tgtBody_snoc hrun h2
    rw [List.append_assoc ws] at hr2
    refine ⟨_, h.add _ [.c c, .e (m.ntt c)] { c := some st.next, e := some (st.next + 1) } _ hr2
      ⟨by simp [asC, hty], ?_⟩⟩
    rintro (_ | _) _
    · refine ⟨st.next, ?_, ?_⟩
      · rw [← h.ents, look_last, hty']; rfl
      · rw [h.len]; simp [inForm]
    · refine ⟨st.next + 1, ?_, ?_⟩
      · rw [← h.ents, look_last, hty']; rfl
      · rw [h.len]; simp [inForm]
  | false =>
    refine ⟨_, h.add _ [.c c] { c := some st.next } _ hrun ⟨by simp [asC, hty], ?_⟩⟩
    rintro (_ | _) hn
    · refine ⟨st.next, ?_, ?_⟩
      · rw [← h.ents, look_last, hty']; rfl
      · rw [h.len]; simp [inForm]
    · rcases hn with hn | hn
      · rw [hty] at hn; cases hn
      · cases he hn

theorem Inv.evalOut (hm : m.Right) (h : Inv m ty s ws0 vs st ws) (w : Nat) (t : TIns) (c : C)
    (alsoC : Bool) (ht : tgtIns m ws t = some (.e (m.ntt c))) (hty : isPoly ty vs.length = true)
    (hc : (s vs.length).c = true → alsoC = true) :
    ∃ ws', Inv m ty s ws0 (vs ++ [.inr c]) (evalOut st w t alsoC) ws' := by
  have hrun := tgtBody_snoc h.run ht
  have hty' : isPoly ty st.ents.length = true := by rw [h.ents]; exact hty
  cases alsoC with
  | true =>
    have h2 : tgtIns m (ws ++ [.e (m.ntt c)]) (.intt w st.next) = some (.c c) := by
      simp [tgtIns, h.len, hm.left]
    have hr2 := tgtBody_snoc hrun h2
    rw [List.append_assoc ws] at hr2
    refine ⟨_, h.add _ [.e (m.ntt c), .c c] { e := some st.next, c := some (st.next + 1) } _ hr2
      ⟨by simp [asC, hty], ?_⟩⟩
    rintro (_ | _) _
    · refine ⟨st.next + 1, ?_, ?_⟩
      · rw [← h.ents, look_last, hty']; rfl
      · rw [h.len]; simp [inForm]
    · refine ⟨st.next, ?_, ?_⟩
      · rw [← h.ents, look_last, hty']; rfl
      · rw [h.len]; simp [inForm]
  | false =>
    refine ⟨_, h.add _ [.e (m.ntt c)] { e := some st.next } _ hrun ⟨by simp [asC, hty], ?_⟩⟩
    rintro (_ | _) hn
    · rcases hn with hn | hn
      · rw [hty] at hn; cases hn
      · cases hc hn
    · refine ⟨st.next, ?_, ?_⟩
      · rw [← h.ents, look_last, hty']; rfl
      · rw [h.len]; simp [inForm]

/-- Operands found in one form. -/
theorem Inv.operands (h : Inv m ty s ws0 vs st ws) {f : Form} {ops : List Nat}
    (hlt : ∀ x ∈ ops, x < vs.length) (hn : ∀ x ∈ ops, needs ty s x f) {β : Type}
    {get : V P C → Option β} {fet : W P C E → Option β}
    (hg : ∀ x ∈ ops, ∀ v, (asC v).isSome = isPoly ty x → ∃ b, get v = some b ∧
      fet (inForm m f v) = some b) :
    ∃ xs bs ks, (ops.mapM fun x => vs[x]?) = some xs ∧ xs.mapM get = some bs ∧
      looks ty st.ents f ops = some ks ∧ fetch ws fet ks = some bs := by
  have key : ∀ x ∈ ops, ∃ b k, (vs[x]?).bind get = some b ∧ look ty st.ents f x = some k ∧
      (ws[k]?).bind fet = some (id b) := by
    intro x hx
    have hl := hlt x hx
    have hv : vs[x]? = some vs[x] := List.getElem?_eq_getElem hl
    have hf := h.ok x _ hv
    obtain ⟨b, h1, h2⟩ := hg x hx _ hf.1
    obtain ⟨k, h3, h4⟩ := hf.2 f (hn x hx)
    exact ⟨b, k, by rw [hv, Option.bind_some, h1], h3, by rw [h4, Option.bind_some, h2]; rfl⟩
  obtain ⟨bs, ks, h1, h2, h3⟩ := mapM_link key
  obtain ⟨xs, h4, h5⟩ := mapM_bind_some h1
  rw [List.map_id] at h3
  exact ⟨xs, bs, ks, h4, h5, h2, h3⟩

/-- What every operation needs of the solution. -/
structure Ready (m : Sem P C E) (ty : List Bool) (s : Sol) (i : Nat) (ins : Ins) : Prop where
  wf : insWf ty i ins = true
  ok : insOK ty s i ins = true
  need : ins.poly = true → (s i).c = true ∨ (s i).e = true
  comm : ins.cls = .either → (s i).mode = true → m.Commutes ins.fn
  const : ins.cls = .const → (s i).e = true → m.constE ins.fn = m.ntt (m.const ins.fn)

theorem needs_of_poly {x : Nat} {f : Form} {ops : List Nat} (hx : x ∈ ops)
    (h : ∀ y ∈ polyOps ty ops, (match f with | .coeff => (s y).c | .eval => (s y).e) = true) :
    needs ty s x f := by
  by_cases hp : isPoly ty x = true
  · have := h x (by simp [polyOps, hx, hp])
    cases f <;> exact .inr this
  · cases f <;> exact .inl (by simpa using hp)

theorem mapM_some_id {α : Type} (xs bs : List α) (h : xs.mapM some = some bs) : bs = xs := by
  have : xs.mapM (m := Option) some = some xs := by
    clear h
    induction xs with
    | nil => rfl
    | cons x xs ih => simp [List.mapM_cons, ih]
  rw [this] at h; exact (Option.some.inj h).symm

theorem mapM_some_map {α β : Type} (g : α → β) (xs : List α) (bs : List β)
    (h : xs.mapM (fun x => some (g x)) = some bs) : bs = xs.map g := by
  have : xs.mapM (m := Option) (fun x => some (g x)) = some (xs.map g) := by
    clear h
    induction xs with
    | nil => rfl
    | cons x xs ih => simp [List.mapM_cons, ih]
  rw [this] at h; exact (Option.some.inj h).symm

theorem toC_inForm (v : V P C) : (inForm m .coeff v).toC = some v := by cases v <;> rfl

theorem toE_inForm (v : V P C) : (inForm m .eval v).toE = some (Sum.map id m.ntt v) := by
  cases v <;> rfl

theorem step (hm : m.Right) (h : Inv m ty s ws0 vs st ws) (w : Nat) (ins : Ins)
    (hty : isPoly ty vs.length = ins.poly) (hr : Ready m ty s vs.length ins) :
    ∃ xs v st' ws', (ins.ops.mapM fun x => vs[x]?) = some xs ∧ srcIns m ins xs = some v ∧
      transIns ty s w vs.length ins st = some st' ∧ Inv m ty s ws0 (vs ++ [v]) st' ws' := by
  obtain ⟨hwf, hok, hneed, hcomm, hconst⟩ := hr
  obtain ⟨cls, poly, ops, fn⟩ := ins
  simp only [insWf, Bool.and_eq_true, List.all_eq_true, decide_eq_true_eq] at hwf
  obtain ⟨hlt, hwf⟩ := hwf
  cases cls with
  | plain =>
    simp only [Bool.and_eq_true, Bool.not_eq_true', List.all_eq_true] at hwf
    obtain ⟨xs, bs, ks, h1, h2, h3, h4⟩ := h.operands (f := .coeff) (ops := ops) hlt
      (fun x hx => .inl (hwf.2 x hx)) (get := asP) (fet := W.onlyP) (by
        intro x hx v hv
        rw [hwf.2 x hx] at hv
        cases v with
        | inl a => exact ⟨a, rfl, rfl⟩
        | inr c => simp [asC] at hv)
    obtain ⟨ws', h5⟩ := h.plain (.plain fn ks) (m.plain fn bs) (by simp [tgtIns, h4])
      (by rw [hty]; exact hwf.1)
    exact ⟨xs, _, _, ws', h1, by simp only [srcIns, h2, Option.map_some],
      by simp only [transIns, h3, Option.map_some], h5⟩
  | coeff =>
    have hc : ∀ y ∈ polyOps ty ops, (s y).c = true := by
      cases poly with
      | true =>
        simp only [insOK, if_true, Bool.and_eq_true, Bool.or_eq_true, Bool.not_eq_true',
          List.all_eq_true] at hok
        have : (s vs.length).c = true := by
          rcases hneed rfl with h' | h'
          · exact h'
          · rcases hok.1.1 with h'' | h''
            · rw [h'] at h''; cases h''
            · exact h''
        intro y hy
        rcases hok.2 y hy with h' | h'
        · rw [this] at h'; cases h'
        · exact h'
      | false =>
        simp only [insOK, Bool.false_eq_true, if_false, List.all_eq_true] at hok
        exact hok
    obtain ⟨xs, bs, ks, h1, h2, h3, h4⟩ := h.operands (f := .coeff) (ops := ops) hlt
      (fun x hx => needs_of_poly hx hc) (get := some) (fet := W.toC)
      (fun x _ v _ => ⟨v, rfl, toC_inForm v⟩)
    have hb := mapM_some_id _ _ h2
    subst hb
    cases poly with
    | true =>
      simp only [insOK, if_true, Bool.and_eq_true, Bool.or_eq_true, Bool.not_eq_true',
        List.all_eq_true, beq_iff_eq] at hok
      have hcc : (s vs.length).c = true := by
        rcases hneed rfl with h' | h'
        · exact h'
        · rcases hok.1.1 with h'' | h''
          · rw [h'] at h''; cases h''
          · exact h''
      obtain ⟨ws', h5⟩ := h.coeffOut w (.coeff fn true ks) (m.coeffC fn bs) (s vs.length).e
        (by simp [tgtIns, h4]) hty id
      refine ⟨bs, _, _, ws', h1, by simp only [srcIns, if_true], ?_, h5⟩
      simp [transIns, h3, hcc, hok.1.2]
    | false =>
      obtain ⟨ws', h5⟩ := h.plain (.coeff fn false ks) (m.coeffP fn bs) (by simp [tgtIns, h4]) hty
      refine ⟨bs, _, _, ws', h1, by simp only [srcIns, Bool.false_eq_true, if_false], ?_, h5⟩
      simp [transIns, h3]
  | eval =>
    simp only [Bool.and_eq_true, List.all_eq_true, beq_iff_eq] at hwf
    obtain ⟨⟨hp, hlen⟩, hops⟩ := hwf
    subst hp
    simp only [insOK, Bool.and_eq_true, Bool.or_eq_true, Bool.not_eq_true', List.all_eq_true,
      beq_iff_eq] at hok
    have hee : (s vs.length).e = true := by
      rcases hneed rfl with h' | h'
      · rcases hok.1.1 with h'' | h''
        · rw [h'] at h''; cases h''
        · exact h''
      · exact h'
    have he : ∀ y ∈ polyOps ty ops, (s y).e = true := by
      intro y hy
      rcases hok.2 y hy with h' | h'
      · rw [hee] at h'; cases h'
      · exact h'
    obtain ⟨xs, bs, ks, h1, h2, h3, h4⟩ := h.operands (f := .eval) (ops := ops) hlt
      (fun x hx => needs_of_poly hx he) (β := E) (get := fun v => (asC v).map m.ntt)
      (fet := W.onlyE) (by
        intro x hx v hv
        rw [hops x hx] at hv
        cases v with
        | inl a => simp [asC] at hv
        | inr c => exact ⟨m.ntt c, rfl, rfl⟩)
    obtain ⟨a, b, rfl, rfl⟩ : ∃ a b, xs = [.inr a, .inr b] ∧ bs = [m.ntt a, m.ntt b] := by
      have hx2 : xs.length = 2 := (mapM_length h1).trans hlen
      obtain ⟨u, v, rfl⟩ := List.length_eq_two.1 hx2
      cases u with
      | inl _ => simp [List.mapM_cons, asC] at h2
      | inr a =>
        cases v with
        | inl _ => simp [List.mapM_cons, asC] at h2
        | inr b =>
          refine ⟨a, b, rfl, ?_⟩
          simp [List.mapM_cons, asC] at h2
          exact h2.symm
    obtain ⟨ws', h5⟩ := h.evalOut hm w (.mul ks) (m.mulC a b) (s vs.length).c
      (by simp [tgtIns, h4, hm.mul]) hty id
    refine ⟨_, _, _, ws', h1, by simp [srcIns, List.mapM_cons, asC], ?_, h5⟩
    simp [transIns, h3, hee, hok.1.2]
  | either =>
    have hwf' : poly = true := hwf
    subst hwf'
    simp only [insOK, Bool.and_eq_true, List.all_eq_true] at hok
    obtain ⟨⟨hmode, himp⟩, hconv⟩ := hok
    have hn := hneed rfl
    cases hmd : (s vs.length).mode with
    | true =>
      have he : ∀ y ∈ polyOps ty ops, (s y).e = true := by
        intro y hy
        have := himp y hy
        simp only [implyMode, hmd] at this
        rcases hn with h' | h' <;> simp [h'] at this
        · exact this.1
        · exact this.2
      obtain ⟨xs, bs, ks, h1, h2, h3, h4⟩ := h.operands (f := .eval) (ops := ops) hlt
        (fun x hx => needs_of_poly hx he) (β := P ⊕ E) (get := fun v => some (Sum.map id m.ntt v))
        (fet := W.toE) (fun x _ v _ => ⟨_, rfl, toE_inForm v⟩)
      have hb := mapM_some_map _ _ _ h2
      subst hb
      obtain ⟨ws', h5⟩ := h.evalOut hm w (.eithE fn ks) (m.eithC fn xs) (s vs.length).c
        (by simp [tgtIns, h4, hcomm rfl hmd xs, evals]) hty id
      refine ⟨xs, _, _, ws', h1, by simp only [srcIns], ?_, h5⟩
      simp only [transIns, transEither, h3, Option.map_some]
      revert hmode hconv
      simp only [opMode, convBoth, hmd]
      cases (s vs.length).c <;> cases (s vs.length).e <;> cases (s vs.length).conv <;> simp
    | false =>
      have hc : ∀ y ∈ polyOps ty ops, (s y).c = true := by
        intro y hy
        have := himp y hy
        simp only [implyMode, hmd] at this
        rcases hn with h' | h' <;> simp [h'] at this
        · exact this.1
        · exact this.2
      obtain ⟨xs, bs, ks, h1, h2, h3, h4⟩ := h.operands (f := .coeff) (ops := ops) hlt
        (fun x hx => needs_of_poly hx hc) (get := some) (fet := W.toC)
        (fun x _ v _ => ⟨v, rfl, toC_inForm v⟩)
      have hb := mapM_some_id _ _ h2
      subst hb
      obtain ⟨ws', h5⟩ := h.coeffOut w (.eithC fn ks) (m.eithC fn bs) (s vs.length).e
        (by simp [tgtIns, h4]) hty id
      refine ⟨bs, _, _, ws', h1, by simp only [srcIns], ?_, h5⟩
      simp only [transIns, transEither, h3, Option.map_some]
      revert hmode hconv
      simp only [opMode, convBoth, hmd]
      cases (s vs.length).c <;> cases (s vs.length).e <;> cases (s vs.length).conv <;> simp
  | const =>
    simp only [Bool.and_eq_true] at hwf
    have hwf' : poly = true := hwf.1
    subst hwf'
    simp only [insOK, Bool.not_eq_true'] at hok
    have hx : ∃ xs, (ops.mapM fun x => vs[x]?) = some xs := by
      clear hok hneed hcomm hconst hwf hty
      induction ops with
      | nil => exact ⟨[], rfl⟩
      | cons x rest ih =>
        obtain ⟨xs, hxs⟩ := ih fun y hy => hlt y (by simp [hy])
        have hl := hlt x (by simp)
        have hv : vs[x]? = some vs[x] := List.getElem?_eq_getElem hl
        exact ⟨vs[x] :: xs, by simp [List.mapM_cons, hxs, hv]⟩
    obtain ⟨xs, hxs⟩ := hx
    have hty' : isPoly ty st.ents.length = true := by rw [h.ents]; exact hty
    cases hc : (s vs.length).c with
    | true =>
      have hrun := tgtBody_snoc (t := .constC fn) (w := .c (m.const fn)) h.run rfl
      cases he : (s vs.length).e with
      | true =>
        have hr2 := tgtBody_snoc (t := .constE fn) (w := .e (m.constE fn)) hrun rfl
        rw [List.append_assoc ws] at hr2
        refine ⟨xs, .inr (m.const fn), _, _, hxs, rfl,
          by simp only [transIns, transConst, hok, hc, he]; rfl,
          h.add _ [.c (m.const fn), .e (m.constE fn)]
            { c := some st.next, e := some (st.next + 1) } _ hr2 ⟨by simp [asC, hty], ?_⟩⟩
        rintro (_ | _) _
        · refine ⟨st.next, ?_, ?_⟩
          · rw [← h.ents, look_last, hty']; rfl
          · rw [h.len]; simp [inForm]
        · refine ⟨st.next + 1, ?_, ?_⟩
          · rw [← h.ents, look_last, hty']; rfl
          · rw [h.len]; simp [inForm, hconst rfl he]
      | false =>
        refine ⟨xs, .inr (m.const fn), _, _, hxs, rfl,
          by simp only [transIns, transConst, hok, hc, he]; rfl,
          h.add _ [.c (m.const fn)] { c := some st.next } _ hrun ⟨by simp [asC, hty], ?_⟩⟩
        rintro (_ | _) hn
        · refine ⟨st.next, ?_, ?_⟩
          · rw [← h.ents, look_last, hty']; rfl
          · rw [h.len]; simp [inForm]
        · rcases hn with hn | hn
          · rw [hty] at hn; cases hn
          · rw [he] at hn; cases hn
    | false =>
      have hrun := tgtBody_snoc (t := .constE fn) (w := .e (m.constE fn)) h.run rfl
      refine ⟨xs, .inr (m.const fn), _, _, hxs, rfl,
          by simp only [transIns, transConst, hok, hc]; rfl,
          h.add _ [.e (m.constE fn)] { e := some st.next } _ hrun ⟨by simp [asC, hty], ?_⟩⟩
      rintro (_ | _) hn
      · rcases hn with hn | hn
        · rw [hty] at hn; cases hn
        · rw [hc] at hn; cases hn
      · refine ⟨st.next, ?_, ?_⟩
        · rw [← h.ents, look_last, hty']; rfl
        · rcases hn with hn | hn
          · rw [hty] at hn; cases hn
          · rw [h.len]; simp [inForm, hconst rfl hn]
  | unknown => cases hwf

end steps

end Heir.PolyNtt
