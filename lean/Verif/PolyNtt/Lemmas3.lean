import Verif.PolyNtt.Lemmas2

/-!
# Lemmas for C147: counting transforms
-/

namespace Heir.PolyNtt

theorem transforms_append (a b : List TIns) :
    transforms (a ++ b) = transforms a + transforms b := by simp [transforms]

/-- The weight of the conversion of a value. -/
def convW (p : Prog) (s : Sol) (i : Nat) : Nat :=
  if isPoly p.types i && (s i).conv then weight p i else 0

theorem sum_range_cons (f : Nat → Nat) (i n : Nat) :
    ((List.range (n + 1)).map fun k => f (i + k)).sum =
      f i + ((List.range n).map fun k => f (i + 1 + k)).sum := by
  rw [List.range_succ_eq_map, List.map_cons, List.sum_cons, List.map_map]
  congr 2
  apply List.map_congr_left
  intro k _
  simp only [Function.comp_apply]
  congr 1; omega

theorem transIns_count {p : Prog} {s : Sol} {i : Nat} {ins : Ins} {st st' : St}
    (hw : insWf p.types i ins = true) (hp : isPoly p.types i = ins.poly)
    (h : transIns p.types s (weight p i) i ins st = some st') :
    transforms st'.out = transforms st.out + convW p s i := by
  obtain ⟨cls, poly, ops, fn⟩ := ins
  simp only at hp
  simp only [insWf, Bool.and_eq_true] at hw
  unfold convW
  rw [hp]
  cases cls with
  | plain =>
    simp only [Bool.and_eq_true, Bool.not_eq_true'] at hw
    simp only [transIns, Option.map_eq_some_iff] at h
    obtain ⟨ks, _, rfl⟩ := h
    simp [St.emit, St.record, transforms_append, hw.2.1, transforms, TIns.weight]
  | coeff =>
    simp only [transIns, Option.bind_eq_some_iff] at h
    obtain ⟨ks, _, h⟩ := h
    cases poly with
    | false =>
      simp only [Bool.false_eq_true, if_false, Option.some.injEq] at h
      subst h
      simp [St.emit, St.record, transforms_append, transforms, TIns.weight]
    | true =>
      simp only [if_true] at h
      split at h
      · cases h
      · split at h
        · cases h
        · next hc =>
          simp only [Option.some.injEq] at h
          subst h
          have : (s i).e = (s i).conv := by simpa using hc
          rw [← this]
          cases (s i).e <;>
            simp [coeffOut, St.emit, St.record, transforms_append, transforms, TIns.weight]
  | eval =>
    simp only [transIns] at h
    split at h
    · cases h
    · split at h
      · cases h
      · next hc =>
        simp only [Option.map_eq_some_iff] at h
        obtain ⟨ks, _, rfl⟩ := h
        have : (s i).c = (s i).conv := by simpa using hc
        rw [← this]
        simp only [Bool.and_eq_true] at hw
        rw [hw.2.1.1]
        cases (s i).c <;>
          simp [evalOut, St.emit, St.record, transforms_append, transforms, TIns.weight]
  | either =>
    have hpl : poly = true := hw.2
    subst hpl
    simp only [transIns, transEither] at h
    split at h
    · cases h
    · next h1 =>
      split at h
      · cases h
      · next h2 =>
        split at h
        · cases h
        · next h3 =>
          split at h
          · next h4 =>
            simp only [Option.map_eq_some_iff] at h
            obtain ⟨ks, _, rfl⟩ := h
            revert h1 h2 h3
            rw [h4]
            cases (s i).c <;> cases (s i).e <;> cases (s i).conv <;>
              simp [evalOut, St.emit, St.record, transforms_append, transforms, TIns.weight]
          · next h4 =>
            simp only [Option.map_eq_some_iff] at h
            obtain ⟨ks, _, rfl⟩ := h
            have h4' : (s i).mode = false := by simpa using h4
            revert h1 h2 h3
            rw [h4']
            cases (s i).c <;> cases (s i).e <;> cases (s i).conv <;>
              simp [coeffOut, St.emit, St.record, transforms_append, transforms, TIns.weight]
  | const =>
    simp only [transIns, transConst] at h
    split at h
    · cases h
    · next hc =>
      have : (s i).conv = false := by simpa using hc
      rw [this]
      split at h
      · split at h <;> (simp only [Option.some.injEq] at h; subst h) <;>
          simp [St.emit, St.record, transforms_append, transforms, TIns.weight]
      · simp only [Option.some.injEq] at h
        subst h
        simp [St.emit, St.record, transforms_append, transforms, TIns.weight]
  | unknown => cases hw.2

theorem transBody_count {p : Prog} {s : Sol} (l : List Ins) (i : Nat) (st st' : St)
    (hw : ∀ (k : Nat) (ins : Ins), l[k]? = some ins →
      insWf p.types (i + k) ins = true ∧ isPoly p.types (i + k) = ins.poly)
    (h : transBody p s i l st = some st') :
    transforms st'.out =
      transforms st.out + ((List.range l.length).map fun k => convW p s (i + k)).sum := by
  induction l generalizing i st with
  | nil => simp only [transBody, Option.some.injEq] at h; subst h; simp
  | cons ins l ih =>
    simp only [transBody, Option.bind_eq_some_iff] at h
    obtain ⟨st1, h1, h2⟩ := h
    obtain ⟨h3, h4⟩ := hw 0 ins rfl
    have h5 := transIns_count h3 h4 h1
    have h6 := ih (i + 1) st1 (fun k ins' hk => by
      have := hw (k + 1) ins' (by simpa using hk)
      rwa [show i + (k + 1) = i + 1 + k from by omega] at this) h2
    simp only [Nat.add_zero] at h5
    rw [h6, h5, List.length_cons, sum_range_cons]
    omega

theorem transArgs_count {p : Prog} {s : Sol} (l : List Bool) (i : Nat) (st : St)
    (hl : ∀ (k : Nat) (b : Bool), l[k]? = some b → isPoly p.types (i + k) = b ∧
      (b = true → convBoth (s (i + k)) = true)) :
    transforms (transArgs p s i l st).out =
      transforms st.out + ((List.range l.length).map fun k => convW p s (i + k)).sum := by
  induction l generalizing i st with
  | nil => simp [transArgs]
  | cons b l ih =>
    obtain ⟨h1, h2⟩ := hl 0 b rfl
    rw [transArgs, ih (i + 1) _ (fun k b' hk => by
      have := hl (k + 1) b' (by simpa using hk)
      rwa [show i + (k + 1) = i + 1 + k from by omega] at this),
      List.length_cons, sum_range_cons, ← Nat.add_assoc]
    congr 1
    simp only [Nat.add_zero] at h1 h2
    unfold convW
    rw [h1]
    cases b with
    | false => simp [St.record]
    | true =>
      have := h2 rfl
      simp only [convBoth] at this
      revert this
      cases (s i).c <;> cases (s i).e <;> cases (s i).conv <;>
        simp [St.record, St.emit, transforms, TIns.weight]

/-- The conversions in the objective. -/
def convs (p : Prog) (s : Sol) : Nat := ((List.range p.types.length).map (convW p s)).sum

/-- The constants in the objective. -/
def madeConsts (p : Prog) (s : Sol) : Nat :=
  ((List.range p.types.length).map fun i =>
    if constAt p i then (s i).c.toNat + (s i).e.toNat else 0).sum

theorem types_length (p : Prog) : p.types.length = p.args.length + p.body.length := by
  simp [Prog.types]

theorem sum_split (f : Nat → Nat) (a b : Nat) :
    ((List.range (a + b)).map f).sum =
      ((List.range a).map f).sum + ((List.range b).map fun k => f (a + k)).sum := by
  rw [List.range_add, List.map_append, List.sum_append, List.map_map]; rfl

theorem objective_eq (p : Prog) (s : Sol) : objective p s = convs p s + madeConsts p s := by
  unfold objective convs madeConsts
  congr 1
  rw [types_length, sum_split]
  have h0 : ((List.range p.args.length).map fun i =>
      if constAt p i then (s i).c.toNat + (s i).e.toNat else 0).sum = 0 := by
    apply List.sum_eq_zero
    intro x hx
    simp only [List.mem_map, List.mem_range] at hx
    obtain ⟨i, hi, rfl⟩ := hx
    have : constAt p i = false := by simp [constAt]; omega
    rw [this]; rfl
  rw [h0, Nat.zero_add]
  congr 1
  apply List.map_congr_left
  intro j _
  have hc : constAt p (p.args.length + j) = decide ((p.body[j]?).map Ins.cls = some Cls.const) := by
    simp [constAt]
  rw [hc]
  cases (p.body[j]?).map Ins.cls with
  | none => simp
  | some c => cases c <;> simp

theorem trans_count {p : Prog} {s : Sol} {t : TProg} (hw : p.Wf = true)
    (hf : feasible p s = true) (h : trans p s = some t) : transforms t.body = convs p s := by
  simp only [trans, Option.bind_eq_some_iff, Option.map_eq_some_iff] at h
  obtain ⟨st, h1, rets, _, rfl⟩ := h
  simp only [Prog.Wf, Bool.and_eq_true] at hw
  simp only [feasible, Bool.and_eq_true, List.all_eq_true] at hf
  have h2 := transBody_count p.body _ _ _
    (fun k ins hk => ⟨bodyWf_get hw.1 hk, isPoly_body hk⟩) h1
  have h3 := transArgs_count (p := p) (s := s) p.args 0 ⟨[], p.args.length, []⟩ (by
    intro k b hk
    have hlt := (List.getElem?_eq_some_iff.1 hk).1
    have hp : isPoly p.types (0 + k) = b := by
      rw [Nat.zero_add, isPoly_arg hlt, List.getD_eq_getElem?_getD, hk]; rfl
    refine ⟨hp, fun hb => ?_⟩
    have := hf.1.1 k (by simp [hlt])
    rw [Nat.zero_add] at hp ⊢
    simpa [hp, hb] using this)
  rw [h2, h3, convs, types_length, sum_split]
  simp [transforms]

/-- A placement as a solution. -/
def asSol (p : Prog) (q : Placement) : Sol := fun i =>
  ⟨q.has i .coeff, q.has i .eval, !constAt p i && q.has i .coeff && q.has i .eval,
    decide (q.made i = .eval)⟩

theorem constAt_body {p : Prog} {k : Nat} {ins : Ins} (hk : p.body[k]? = some ins) :
    constAt p (p.args.length + k) = decide (ins.cls = .const) := by
  simp [constAt, hk]

theorem constAt_arg {p : Prog} {i : Nat} (hi : i < p.args.length) : constAt p i = false := by
  simp [constAt]; omega

theorem bodyOK_of {ty : List Bool} {s : Sol} (l : List Ins) (i : Nat)
    (h : ∀ (k : Nat) (ins : Ins), l[k]? = some ins → insOK ty s (i + k) ins = true) :
    bodyOK ty s i l = true := by
  induction l generalizing i with
  | nil => rfl
  | cons a l ih =>
    simp only [bodyOK, Bool.and_eq_true]
    refine ⟨h 0 a rfl, ih (i + 1) fun k ins hk => ?_⟩
    have := h (k + 1) ins (by simpa using hk)
    rwa [show i + (k + 1) = i + 1 + k from by omega] at this

theorem has_or {q : Placement} {i : Nat} (h : q.has i (q.made i) = true) :
    q.has i .coeff = true ∨ q.has i .eval = true := by
  cases hm : q.made i <;> rw [hm] at h
  · exact .inl h
  · exact .inr h

theorem asSol_feasible {p : Prog} {q : Placement} (hq : q.Valid p) :
    feasible p (asSol p q) = true := by
  simp only [feasible, Bool.and_eq_true, List.all_eq_true]
  refine ⟨⟨?_, bodyOK_of _ _ ?_⟩, ?_⟩
  · intro i hi
    have := constAt_arg (p := p) (List.mem_range.1 hi)
    simp only [Bool.or_eq_true, asSol, convBoth, this]
    right
    cases q.has i .coeff <;> cases q.has i .eval <;> rfl
  · intro k ins hk
    have h1 := hq.1 (p.args.length + k)
    have h2 := hq.2 k ins hk
    have h3 := constAt_body hk
    obtain ⟨cls, poly, ops, fn⟩ := ins
    have hmem : ∀ x ∈ polyOps p.types ops, x ∈ ops ∧ isPoly p.types x = true := by
      intro x hx
      simpa [polyOps] using hx
    cases cls with
    | plain => rfl
    | coeff =>
      obtain ⟨h4, h5⟩ := h2
      cases poly with
      | false =>
        simp only [insOK, Bool.false_eq_true, if_false, List.all_eq_true]
        intro x hx
        exact h5 x (hmem x hx).1 (hmem x hx).2
      | true =>
        have h6 := h4 rfl
        rw [h6] at h1
        simp only [insOK, if_true, Bool.and_eq_true, List.all_eq_true, asSol, h1, h3]
        refine ⟨⟨by simp, by simp⟩, fun x hx => ?_⟩
        simp [h5 x (hmem x hx).1 (hmem x hx).2]
    | eval =>
      obtain ⟨h4, h5⟩ := h2
      rw [h4] at h1
      simp only [insOK, Bool.and_eq_true, List.all_eq_true, asSol, h1, h3]
      refine ⟨⟨by simp, by simp⟩, fun x hx => ?_⟩
      simp [h5 x (hmem x hx).1 (hmem x hx).2]
    | either =>
      have h5 : ∀ x ∈ ops, isPoly p.types x = true →
        q.has x (q.made (p.args.length + k)) = true := h2
      simp only [insOK, Bool.and_eq_true, List.all_eq_true, asSol, opMode, implyMode, convBoth, h3]
      cases hm : q.made (p.args.length + k) with
      | coeff =>
        rw [hm] at h1 h5
        refine ⟨⟨by simp [h1], fun x hx => ?_⟩, ?_⟩
        · simp [h5 x (hmem x hx).1 (hmem x hx).2]
        · simp [h1]
      | eval =>
        rw [hm] at h1 h5
        refine ⟨⟨by simp [h1], fun x hx => ?_⟩, ?_⟩
        · simp [h5 x (hmem x hx).1 (hmem x hx).2]
        · simp [h1]
    | const => simp [insOK, asSol, h3]
    | unknown => exact absurd h2 (by simp [placedIns])
  · intro x _
    rcases has_or (hq.1 x) with h | h <;> simp [asSol, h]

theorem asSol_convs (p : Prog) (q : Placement) : convs p (asSol p q) = q.transforms p := by
  unfold convs Placement.transforms
  congr 1
  apply List.map_congr_left
  intro i _
  simp [convW, asSol, Bool.and_assoc]

theorem asSol_consts (p : Prog) (q : Placement) : madeConsts p (asSol p q) = q.consts p := rfl

end Heir.PolyNtt
