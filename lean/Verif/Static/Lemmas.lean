import Verif.Static.Spec
import Mathlib.Tactic.Ring
import Mathlib.Tactic.Linarith
import Mathlib.Algebra.Order.Group.Int

namespace Heir.Static

variable {σ : Type} {ub : Int} {step : Nat} {body : Int → σ → σ}

theorem ForRun.det {iv : Int} {st o1 o2 : σ} (h1 : ForRun ub step body iv st o1)
    (h2 : ForRun ub step body iv st o2) : o1 = o2 := by
  induction h1 with
  | stop h => cases h2 with
    | stop _ => rfl
    | next h' _ => omega
  | next h _ ih => cases h2 with
    | stop h' => omega
    | next _ h2 => exact ih h2

theorem ForRun.total (hs : 0 < step) : ∀ (n : Nat) (iv : Int) (st : σ), (ub - iv).toNat ≤ n →
    ∃ out, ForRun ub step body iv st out := by
  intro n
  induction n with
  | zero => intro iv st h; exact ⟨st, .stop (by omega)⟩
  | succ n ih =>
    intro iv st h
    by_cases hlt : iv < ub
    · obtain ⟨out, ho⟩ := ih (iv + step) (body iv st) (by omega)
      exact ⟨out, .next hlt ho⟩
    · exact ⟨st, .stop (by omega)⟩

/-- A body that does nothing from some point on. -/
theorem ForRun.idle (hs : 0 < step) {lim : Int} (hb : ∀ iv st, lim ≤ iv → body iv st = st) :
    ∀ (n : Nat) (iv : Int) (st : σ), (ub - iv).toNat ≤ n → lim ≤ iv →
      ForRun ub step body iv st st := by
  intro n
  induction n with
  | zero => intro iv st h _; exact .stop (by omega)
  | succ n ih =>
    intro iv st h hl
    by_cases hlt : iv < ub
    · refine .next hlt ?_
      rw [hb iv st hl]
      exact ih _ _ (by omega) (by omega)
    · exact .stop (by omega)

/-- Running on past the real upper bound. -/
theorem ForRun.widen_up (hs : 0 < step) {body' : Int → σ → σ} {u lb : Int} (hu : ub ≤ u)
    (h1 : ∀ iv st, lb ≤ iv → iv < ub → body' iv st = body iv st)
    (h2 : u = ub ∨ ∀ iv st, ub ≤ iv → body' iv st = st)
    {iv : Int} {st out : σ} (h : ForRun ub step body iv st out) (hl : lb ≤ iv) :
    ForRun u step body' iv st out := by
  induction h with
  | @stop iv st h =>
    rcases h2 with rfl | h2
    · exact .stop h
    · exact ForRun.idle hs h2 _ _ _ le_rfl h
  | @next iv st out h _ ih =>
    refine .next (by omega) ?_
    rw [h1 _ _ hl h]
    exact ih (by omega)

/-- Starting before the real lower bound, on its grid. -/
theorem ForRun.widen_low (hs : 0 < step) {lb : Int} (hb : ∀ iv st, iv < lb → body iv st = st) :
    ∀ (k : Nat) (l : Int) (st out : σ), lb = l + k * step → ForRun ub step body lb st out →
      ForRun ub step body l st out := by
  intro k
  induction k with
  | zero => intro l st out h hr; simp at h; rw [h] at hr; exact hr
  | succ k ih =>
    intro l st out h hr
    have hk : (0 : Int) ≤ (k : Int) * step := by positivity
    have hlt : l < lb := by push_cast at h; rw [h]; nlinarith
    by_cases hu : l < ub
    · refine .next hu ?_
      rw [hb _ _ hlt]
      exact ih _ _ _ (by push_cast at h ⊢; rw [h]; ring) hr
    · cases hr with
      | stop _ => exact .stop (by omega)
      | next h' _ => omega

theorem Fwd.forwards_id {α : Type} {w : WhileOp α} (hlen : w.fwd.length = w.arity)
    (hid : ∀ i, i < w.arity → w.fwd[i]? = some (.arg i)) {st fw : List α}
    (hst : st.length = w.arity) (h : w.Forwards st fw) : fw = st := by
  unfold WhileOp.Forwards at h
  have hl : fw.length = w.arity := by
    have := congrArg List.length h
    simpa [hlen] using this.symm
  apply List.ext_getElem? 
  intro i
  by_cases hi : i < w.arity
  · have h' := congrArg (fun l => l[i]?) h
    simp only [List.getElem?_map, hid i hi, Option.map_some] at h'
    have e1 : fw[i]? = some fw[i] := List.getElem?_eq_getElem (by omega)
    rw [e1, Option.map_some] at h'
    simp only [Fwd.value, Option.some.injEq] at h'
    rw [e1, h']
  · rw [List.getElem?_eq_none (by omega), List.getElem?_eq_none (by omega)]

theorem toInt32_small {n : Nat} (h : n < 2147483648) : toInt32 n = n := by
  unfold toInt32; omega

end Heir.Static
