import Verif.PolyNtt.Lemmas

/-!
# Lemmas for C146: whole functions
-/

namespace Heir.PolyNtt

variable {P C E : Type}

theorem bodyOK_get {ty : List Bool} {s : Sol} {i k : Nat} {l : List Ins} {ins : Ins}
    (h : bodyOK ty s i l = true) (hk : l[k]? = some ins) : insOK ty s (i + k) ins = true := by
  induction l generalizing i k with
  | nil => simp at hk
  | cons a l ih =>
    simp only [bodyOK, Bool.and_eq_true] at h
    cases k with
    | zero => simp at hk; subst hk; exact h.1
    | succ k =>
      have := ih h.2 (by simpa using hk)
      rwa [show i + 1 + k = i + (k + 1) from by omega] at this

theorem bodyWf_get {ty : List Bool} {i k : Nat} {l : List Ins} {ins : Ins}
    (h : bodyWf ty i l = true) (hk : l[k]? = some ins) : insWf ty (i + k) ins = true := by
  induction l generalizing i k with
  | nil => simp at hk
  | cons a l ih =>
    simp only [bodyWf, Bool.and_eq_true] at h
    cases k with
    | zero => simp at hk; subst hk; exact h.1
    | succ k =>
      have := ih h.2 (by simpa using hk)
      rwa [show i + 1 + k = i + (k + 1) from by omega] at this

theorem isPoly_body {p : Prog} {k : Nat} {ins : Ins} (hk : p.body[k]? = some ins) :
    isPoly p.types (p.args.length + k) = ins.poly := by
  unfold isPoly Prog.types
  rw [List.getD_eq_getElem?_getD, List.getElem?_append_right (by omega),
    Nat.add_sub_cancel_left, List.getElem?_map, hk]
  rfl

theorem isPoly_arg {p : Prog} {i : Nat} (hi : i < p.args.length) :
    isPoly p.types i = p.args.getD i false := by
  unfold isPoly Prog.types
  rw [List.getD_eq_getElem?_getD, List.getElem?_append_left hi, List.getD_eq_getElem?_getD]

theorem lt_of_isPoly {ty : List Bool} {j : Nat} (h : isPoly ty j = true) : j < ty.length := by
  by_contra hc
  unfold isPoly at h
  rw [List.getD_eq_getElem?_getD, List.getElem?_eq_none (by omega)] at h
  cases h

/-- Live polynomial results are needed in some form. -/
theorem needed {p : Prog} {s : Sol} (hw : p.Wf = true) (hl : p.Live)
    (hf : feasible p s = true) :
    ∀ n j, p.types.length - j = n → p.args.length ≤ j → isPoly p.types j = true →
      (s j).c = true ∨ (s j).e = true := by
  simp only [Prog.Wf, Bool.and_eq_true] at hw
  simp only [feasible, Bool.and_eq_true, List.all_eq_true] at hf
  intro n
  induction n using Nat.strong_induction_on with
  | _ n ih =>
    intro j hn hj hp
    rcases hl j hj hp with hr | ⟨k, ins, hk, hmem⟩
    · have := hf.2 j (by simp [polyOps, hr, hp])
      simpa using this
    · have h1 := bodyWf_get hw.1 hk
      have h2 := bodyOK_get hf.1.2 hk
      have h3 := isPoly_body hk
      obtain ⟨cls, poly, ops, fn⟩ := ins
      simp only at hmem h3
      simp only [insWf, Bool.and_eq_true, List.all_eq_true, decide_eq_true_eq] at h1
      have hlt := h1.1 j hmem
      have hj' := lt_of_isPoly hp
      have hrec : poly = true → (s (p.args.length + k)).c = true ∨
          (s (p.args.length + k)).e = true := by
        intro hpl
        rw [hpl] at h3
        have := lt_of_isPoly h3
        exact ih _ (by omega) _ rfl (by omega) h3
      have hin : j ∈ polyOps p.types ops := by simp [polyOps, hmem, hp]
      cases cls with
      | plain =>
        simp only [Bool.and_eq_true, List.all_eq_true, Bool.not_eq_true'] at h1
        rw [h1.2.2 j hmem] at hp; cases hp
      | coeff =>
        cases poly with
        | true =>
          simp only [insOK, if_true, Bool.and_eq_true, Bool.or_eq_true, Bool.not_eq_true',
            List.all_eq_true] at h2
          have hc : (s (p.args.length + k)).c = true := by
            rcases hrec rfl with h' | h'
            · exact h'
            · rcases h2.1.1 with h'' | h''
              · rw [h'] at h''; cases h''
              · exact h''
          rcases h2.2 j hin with h' | h'
          · rw [hc] at h'; cases h'
          · exact .inl h'
        | false =>
          simp only [insOK, Bool.false_eq_true, if_false, List.all_eq_true] at h2
          exact .inl (h2 j hin)
      | eval =>
        simp only [Bool.and_eq_true] at h1
        simp only [insOK, Bool.and_eq_true, Bool.or_eq_true, Bool.not_eq_true',
          List.all_eq_true] at h2
        have he : (s (p.args.length + k)).e = true := by
          rcases hrec h1.2.1.1 with h' | h'
          · rcases h2.1.1 with h'' | h''
            · rw [h'] at h''; cases h''
            · exact h''
          · exact h'
        rcases h2.2 j hin with h' | h'
        · rw [he] at h'; cases h'
        · exact .inr h'
      | either =>
        simp only [insOK, Bool.and_eq_true, List.all_eq_true] at h2
        have hi := h2.1.2 j hin
        have := hrec h1.2
        revert hi this
        simp only [implyMode]
        cases (s (p.args.length + k)).c <;> cases (s (p.args.length + k)).e <;>
          cases (s (p.args.length + k)).mode <;> cases (s j).c <;> cases (s j).e <;> simp
      | const =>
        simp only [Bool.and_eq_true, List.isEmpty_iff] at h1
        rw [h1.2.2] at hmem; cases hmem
      | unknown => cases h1.2

/-- All operations. -/
theorem body_sim {m : Sem P C E} (hm : m.Right) {p : Prog} {s : Sol} {ws0 : List (W P C E)}
    (l : List Ins) (vs : List (V P C)) (st : St) (ws : List (W P C E))
    (h : Inv m p.types s ws0 vs st ws)
    (hr : ∀ (k : Nat) (ins : Ins), l[k]? = some ins →
      isPoly p.types (vs.length + k) = ins.poly ∧ Ready m p.types s (vs.length + k) ins) :
    ∃ vs' st' ws', srcBody m l vs = some vs' ∧ transBody p s vs.length l st = some st' ∧
      Inv m p.types s ws0 vs' st' ws' ∧ vs'.length = vs.length + l.length := by
  induction l generalizing vs st ws with
  | nil => exact ⟨vs, st, ws, rfl, rfl, h, rfl⟩
  | cons ins l ih =>
    obtain ⟨h1, h2⟩ := hr 0 ins rfl
    obtain ⟨xs, v, st', ws', e1, e2, e3, e4⟩ := step hm h (weight p vs.length) ins h1 h2
    obtain ⟨vs', st'', ws'', f1, f2, f3, f4⟩ := ih (vs ++ [v]) st' ws' e4 (by
      intro k ins' hk
      have := hr (k + 1) ins' (by simpa using hk)
      rw [show vs.length + (k + 1) = (vs ++ [v]).length + k from by simp; omega] at this
      exact this)
    refine ⟨vs', st'', ws'', by simp only [srcBody, e1, e2, Option.bind_some, f1], ?_, f3, ?_⟩
    · simp only [transBody, e3, Option.bind_some]
      rw [← f2]; simp
    · rw [f4]; simp; omega

/-- The arguments. -/
theorem args_sim {m : Sem P C E} {p : Prog} {s : Sol} {args : List (V P C)}
    (ht : typed p.args args) (l : List Bool) (i : Nat) (st : St) (more : List (W P C E))
    (hl : p.args.drop i = l) (hi : i ≤ p.args.length)
    (h : Inv m p.types s (args.mapIdx fun i v => inForm m (argForm (s i)) v) (args.take i) st
      ((args.mapIdx fun i v => inForm m (argForm (s i)) v) ++ more)) :
    ∃ ws, Inv m p.types s (args.mapIdx fun i v => inForm m (argForm (s i)) v) args
      (transArgs p s i l st) ws := by
  induction l generalizing i st more with
  | nil =>
    have : p.args.length ≤ i := by simpa using hl
    rw [List.take_of_length_le (by rw [ht.1]; exact this)] at h
    exact ⟨_, h⟩
  | cons b l ih =>
    have hlt : i < p.args.length := by
      by_contra hc
      rw [List.drop_of_length_le (by omega)] at hl; cases hl
    have hlt' : i < args.length := by rw [ht.1]; exact hlt
    rw [List.drop_eq_getElem_cons hlt] at hl
    simp only [List.cons.injEq] at hl
    obtain ⟨hb, hl⟩ := hl
    have hpoly : isPoly p.types i = b := by
      rw [isPoly_arg hlt, List.getD_eq_getElem?_getD, List.getElem?_eq_getElem hlt, hb]; rfl
    have hv : (asC args[i]).isSome = b := by
      rw [ht.2 i hlt', List.getD_eq_getElem?_getD, List.getElem?_eq_getElem hlt, hb]; rfl
    have hlen : (args.take i).length = i := by simp; omega
    have hents : st.ents.length = i := by rw [h.ents, hlen]
    have htake : args.take (i + 1) = args.take i ++ [args[i]] := (List.take_append_getElem hlt').symm
    set ws0 := args.mapIdx fun i v => inForm m (argForm (s i)) v with hws0
    have hget : ∀ more : List (W P C E), (ws0 ++ more)[i]? =
        some (inForm m (argForm (s i)) args[i]) := by
      intro more
      rw [List.getElem?_append_left (by simp [hws0, hlt'])]
      simp [hws0, List.getElem?_mapIdx, List.getElem?_eq_getElem hlt']
    -- an argument without a transform
    have hone : ∀ x : Ent, (∀ f, needs p.types s i f → (if b then (match f with
        | .coeff => x.c | .eval => x.e) else x.p) = some i ∧ (b = true → argForm (s i) = f)) →
        Inv m p.types s ws0 (args.take (i + 1)) (st.record x) (ws0 ++ more) := by
      intro x hx
      rw [htake]
      have := h.add st.out [] x args[i] (by simpa using h.run) ⟨by rw [hlen, hv, hpoly], ?_⟩
      · simpa [St.record] using this
      · intro f hf
        rw [hlen] at hf ⊢
        obtain ⟨h1, h2⟩ := hx f hf
        refine ⟨i, ?_, ?_⟩
        · have := look_last (ty := p.types) (ents := st.ents) (f := f) (x := x)
          rw [hents, hpoly] at this
          rw [this]; exact h1
        · rw [List.append_nil, hget]
          cases b with
          | true => rw [h2 rfl]
          | false =>
            cases hvi : args[i] with
            | inl a => rfl
            | inr c => rw [hvi] at hv; simp [asC] at hv
    rw [transArgs]
    cases b with
    | false =>
      simp only [Bool.false_eq_true, if_false]
      exact ih (i + 1) _ more hl hlt (hone _ fun f _ => ⟨rfl, by simp⟩)
    | true =>
      simp only [if_true]
      cases hc : (s i).c with
      | false =>
        simp only [Bool.false_eq_true, if_false]
        refine ih (i + 1) _ more hl hlt (hone _ ?_)
        rintro (_ | _) hn
        · rcases hn with hn | hn
          · rw [hpoly] at hn; cases hn
          · rw [hc] at hn; cases hn
        · exact ⟨rfl, fun _ => by simp [argForm, hc]⟩
      | true =>
        simp only [if_true]
        cases he : (s i).e with
        | false =>
          simp only [Bool.false_eq_true, if_false]
          refine ih (i + 1) _ more hl hlt (hone _ ?_)
          rintro (_ | _) hn
          · exact ⟨rfl, fun _ => by simp [argForm, hc]⟩
          · rcases hn with hn | hn
            · rw [hpoly] at hn; cases hn
            · rw [he] at hn; cases hn
        | true =>
          simp only [if_true]
          obtain ⟨c, hvc⟩ : ∃ c, args[i] = .inr c := by
            cases hvi : args[i] with
            | inl a => rw [hvi] at hv; simp [asC] at hv
            | inr c => exact ⟨c, rfl⟩
          have hi1 : (ws0 ++ more)[i]? = some (.c c) := by
            rw [hget, hvc]; simp [argForm, hc, inForm]
          refine ih (i + 1) _ (more ++ [.e (m.ntt c)]) hl hlt ?_
          rw [htake, ← List.append_assoc]
          refine h.add _ [.e (m.ntt c)] { c := some i, e := some st.next } _
            (tgtBody_snoc h.run (by simp only [tgtIns, hi1]; rfl)) ⟨by rw [hlen, hv, hpoly], ?_⟩
          intro f _
          rw [hlen]
          have hlook := look_last (ty := p.types) (ents := st.ents) (f := f)
            (x := { c := some i, e := some st.next })
          rw [hents, hpoly] at hlook
          cases f with
          | coeff =>
            refine ⟨i, by rw [hlook]; rfl, ?_⟩
            rw [List.getElem?_append_left (List.getElem?_eq_some_iff.1 hi1).1, hi1, hvc]; rfl
          | eval =>
            refine ⟨st.next, by rw [hlook]; rfl, ?_⟩
            rw [h.len, List.getElem?_concat_length, hvc]; rfl

theorem needs_argForm {ty : List Bool} {s : Sol} {x : Nat}
    (h : isPoly ty x = true → (s x).c = true ∨ (s x).e = true) :
    needs ty s x (argForm (s x)) := by
  unfold argForm
  cases hp : isPoly ty x with
  | false => split <;> exact .inl hp
  | true =>
    split
    · next hc => exact .inr hc
    · next hc =>
      rcases h hp with h' | h'
      · exact absurd h' hc
      · exact .inr h'

/-- The returned values. -/
theorem rets_sim {m : Sem P C E} {ty : List Bool} {s : Sol} {ws0 : List (W P C E)}
    {vs : List (V P C)} {st : St} {ws : List (W P C E)} (h : Inv m ty s ws0 vs st ws)
    (rets : List Nat) (hlt : ∀ x ∈ rets, x < vs.length)
    (hn : ∀ x ∈ rets, isPoly ty x = true → (s x).c = true ∨ (s x).e = true) :
    ∃ res ks, (rets.mapM fun x => vs[x]?) = some res ∧
      rets.mapM (transRet ty s st.ents) = some ks ∧
      (ks.mapM fun x => ws[x]?) =
        some (List.zipWith (fun x v => inForm m (argForm (s x)) v) rets res) := by
  induction rets with
  | nil => exact ⟨[], [], rfl, rfl, rfl⟩
  | cons x rest ih =>
    obtain ⟨res, ks, h1, h2, h3⟩ := ih (fun y hy => hlt y (by simp [hy]))
      fun y hy => hn y (by simp [hy])
    have hl := hlt x (by simp)
    have hv : vs[x]? = some vs[x] := List.getElem?_eq_getElem hl
    have hnx := hn x (by simp)
    obtain ⟨k, h4, h5⟩ := (h.ok x _ hv).2 _ (needs_argForm hnx)
    have hret : transRet ty s st.ents x = some k := by
      unfold transRet
      rw [if_neg, h4]
      intro hc
      simp only [Bool.and_eq_true, Bool.not_eq_true'] at hc
      rcases hnx hc.1.1 with h' | h'
      · rw [hc.1.2] at h'; cases h'
      · rw [hc.2] at h'; cases h'
    exact ⟨vs[x] :: res, k :: ks, by simp [List.mapM_cons, hv, h1],
      by simp [List.mapM_cons, hret, h2], by simp [List.mapM_cons, h5, h3]⟩

end Heir.PolyNtt
