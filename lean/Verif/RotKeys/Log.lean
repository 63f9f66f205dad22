import Verif.RotKeys.Spec
import Verif.Dag.Caching

/-!
# Recorded shifts and the structural semantics

An evaluator that stops when it meets a shift of the set `P` stops exactly when the recording
evaluator records an element of `P`.  Since the stopping evaluator is an instance of the evaluator
of `Verif.Dag`, its result does not depend on the cache.
-/

namespace Heir.RotKeys

open Heir.Dag (Kind LoopNode Sem Heap Env Cache St Lit)

variable {V O : Type}

/-- Operators that fail when a shift in `P` is recorded. -/
def reject (S : Sem V O) (record : O → List V → List Int) (P : Int → Bool) : Sem V O where
  pure o vs := if (record o vs).any P then none else S.pure o vs
  ofInt := S.ofInt
  truth := S.truth

/-- `g` is `f` without the log, stopped by an element of `P`. -/
def Sim (P : Int → Bool) {β : Type} (s : LSt V) (x : Option (β × LSt V)) (y : Option (β × St V)) :
    Prop :=
  ∀ b s', x = some (b, s') → ∃ new, s'.log = s.log ++ new ∧
    y = if new.any P then none else some (b, s'.st)

variable {P : Int → Bool}

theorem Sim.bind {β γ : Type} {s : LSt V} {x : Option (β × LSt V)} {y : Option (β × St V)}
    {f : β × LSt V → Option (γ × LSt V)} {g : β × St V → Option (γ × St V)}
    (h : Sim P s x y) (hf : ∀ b s', x = some (b, s') → Sim P s' (f (b, s')) (g (b, s'.st))) :
    Sim P s (x.bind f) (y.bind g) := by
  intro c s'' hx
  obtain ⟨⟨b, s'⟩, hb, hc⟩ := Option.bind_eq_some_iff.1 hx
  obtain ⟨new, h1, h2⟩ := h b s' hb
  obtain ⟨new', h3, h4⟩ := hf b s' hb c s'' hc
  refine ⟨new ++ new', by rw [h3, h1, List.append_assoc], ?_⟩
  rw [h2, List.any_append]
  by_cases hn : new.any P = true
  · simp [hn]
  · simp only [hn, Bool.false_eq_true, if_false, Option.bind_some, Bool.false_or, h4]

theorem Sim.lift {β γ : Type} {s : LSt V} (v : Option β) {f : β → Option (γ × LSt V)}
    {g : β → Option (γ × St V)} (h : ∀ b, v = some b → Sim P s (f b) (g b)) :
    Sim P s (v.bind f) (v.bind g) := by
  cases v with
  | none => intro c s' h; simp at h
  | some b => exact h b rfl

theorem Sim.ret {β : Type} {s : LSt V} (b : β) : Sim P s (some (b, s)) (some (b, s.st)) := by
  intro c s' h
  simp only [Option.some.injEq, Prod.mk.injEq] at h
  obtain ⟨rfl, rfl⟩ := h
  exact ⟨[], by simp, by simp⟩

theorem Sim.none {β : Type} {s : LSt V} {y : Option (β × St V)} : Sim P s none y := by
  intro c s' h; simp at h

theorem procFirst_sim {rec : LSt V → Nat → Option (List V × LSt V)}
    {rec' : St V → Nat → Option (List V × St V)} (h : ∀ s n, Sim P s (rec s n) (rec' s.st n))
    (s : LSt V) (c : Nat) : Sim P s (procFirst rec s c) (Dag.procFirst rec' s.st c) :=
  (h s c).bind fun r s' _ => Sim.lift _ fun v _ => Sim.ret v

theorem procSingle_sim {rec : LSt V → Nat → Option (List V × LSt V)}
    {rec' : St V → Nat → Option (List V × St V)} (h : ∀ s n, Sim P s (rec s n) (rec' s.st n))
    (s : LSt V) (c : Nat) : Sim P s (procSingle rec s c) (Dag.procSingle rec' s.st c) :=
  (h s c).bind fun r s' _ => by
    rcases r with _ | ⟨v, _ | ⟨w, r⟩⟩
    · exact Sim.none
    · exact Sim.ret v
    · exact Sim.none

theorem procList_sim {f : LSt V → Nat → Option (V × LSt V)} {g : St V → Nat → Option (V × St V)}
    (h : ∀ s n, Sim P s (f s n) (g s.st n)) :
    ∀ (cs : List Nat) (s : LSt V), Sim P s (procList f s cs) (Dag.procList g s.st cs)
  | [], s => Sim.ret []
  | c :: cs, s => (h s c).bind fun _ s' _ => (procList_sim h cs s').bind fun _ _ _ => Sim.ret _

theorem iterations_sim {f : Int → List V → LSt V → Option (List V × LSt V)}
    {g : Int → List V → St V → Option (List V × St V)}
    (h : ∀ i vals s, Sim P s (f i vals s) (g i vals s.st)) :
    ∀ (is : List Int) (vals : List V) (s : LSt V),
      Sim P s (iterations f is vals s) (Dag.iterations g is vals s.st)
  | [], vals, s => Sim.ret vals
  | i :: is, vals, s => (h i vals s).bind fun vals s' _ => iterations_sim h is vals s'

theorem iteration_sim {S : Sem V O} {record : O → List V → List Int} {D : Heap O}
    {clear : Cache V → Nat → Cache V} {rec : LSt V → Nat → Option (List V × LSt V)}
    {rec' : St V → Nat → Option (List V × St V)} (h : ∀ s n, Sim P s (rec s n) (rec' s.st n))
    (l : LoopNode) (i : Int) (vals : List V) (s : LSt V) :
    Sim P s (iteration S D clear rec l i vals s)
      (Dag.iteration (reject S record P) D clear rec' l i vals s.st) := by
  unfold iteration Dag.iteration
  by_cases h1 : l.iterArgs.length ≠ vals.length
  · rw [if_pos h1, if_pos h1]; exact Sim.none
  rw [if_neg h1, if_neg h1]
  by_cases h2 : Dag.isYield (D l.body) = false
  · rw [if_pos h2, if_pos h2]; exact Sim.none
  rw [if_neg h2, if_neg h2]
  have h3 : Sim P s (rec ⟨⟨clear s.st.cache l.body,
      Dag.setVars (Dag.setVar s.st.env l.iv (S.ofInt i)) l.iterArgs vals⟩, s.log⟩ l.body)
      (rec' ⟨clear s.st.cache l.body,
        Dag.setVars (Dag.setVar s.st.env l.iv (S.ofInt i)) l.iterArgs vals⟩ l.body) :=
    h ⟨⟨clear s.st.cache l.body,
      Dag.setVars (Dag.setVar s.st.env l.iv (S.ofInt i)) l.iterArgs vals⟩, s.log⟩ l.body
  refine h3.bind fun r s' _ => ?_
  by_cases h4 : r.length ≠ vals.length
  · simp only [if_pos h4]; exact Sim.none
  · simp only [if_neg h4]; exact Sim.ret r

theorem visit_sim {S : Sem V O} {record : O → List V → List Int} {D : Heap O}
    {clear : Cache V → Nat → Cache V} {rec : LSt V → Nat → Option (List V × LSt V)}
    {rec' : St V → Nat → Option (List V × St V)} (h : ∀ s n, Sim P s (rec s n) (rec' s.st n))
    (s : LSt V) (n : Nat) :
    Sim P s (visit S record D clear rec s n)
      (Dag.visit (reject S record P) D clear rec' s.st n) := by
  unfold visit Dag.visit
  cases D n with
  | pure o cs =>
    refine (procList_sim (procFirst_sim h) cs s).bind fun vs s' _ => ?_
    intro c s'' hx
    obtain ⟨v, hv, hc⟩ := Option.bind_eq_some_iff.1 hx
    simp only [Option.some.injEq, Prod.mk.injEq] at hc
    obtain ⟨rfl, rfl⟩ := hc
    refine ⟨record o vs, rfl, ?_⟩
    show (if (record o vs).any P then none else S.pure o vs).bind _ = _
    by_cases hp : (record o vs).any P = true
    · simp [hp]
    · simp [hp, hv]
  | var => exact Sim.lift _ fun v _ => Sim.ret [v]
  | ifElse c t e =>
    exact (procFirst_sim h s c).bind fun v s' _ => Sim.lift (S.truth v) fun b _ => h s' _
  | loop l =>
    exact (procList_sim (procSingle_sim h) l.inits s).bind fun vals s' _ =>
      Sim.lift (Dag.trips l.lower l.upper l.step) fun is _ =>
        iterations_sim (fun i vals s => iteration_sim h l i vals s) is vals s'
  | yield cs => exact procList_sim (procSingle_sim h) cs s
  | resultAt c i => exact (h s c).bind fun r s' _ => Sim.lift _ fun v _ => Sim.ret [v]

theorem process_sim (S : Sem V O) (record : O → List V → List Int) (D : Heap O) (P : Int → Bool) :
    ∀ (k : Nat) (s : LSt V) (n : Nat),
      Sim P s (process S record D k s n) (Dag.process (reject S record P) D k s.st n)
  | 0, s, n => Sim.none
  | k + 1, s, n => by
    unfold process Dag.process
    cases s.st.cache n with
    | some r => exact Sim.ret r
    | none =>
      refine (visit_sim (process_sim S record D P k) s n).bind fun r s' _ => ?_
      intro c s'' hx
      simp only [Option.some.injEq, Prod.mk.injEq] at hx
      obtain ⟨rfl, rfl⟩ := hx
      exact ⟨[], by simp, by simp⟩

/-- A shift of `P` is recorded when the stopping semantics has no value. -/
theorem evalRotations_iff {D : Heap ROp} {n : Nat} (hD : Dag.Ordered D) (hC : Dag.Closed D [n])
    {env : Env Lit} {log : List Int} (h : evalRotations D env n = some log) (P : Int → Bool) :
    (∃ k ∈ log, P k = true) ↔ Dag.den (reject rotSem recOf P) D env n = none := by
  unfold evalRotations at h
  obtain ⟨⟨r, s'⟩, hp, rfl⟩ := Option.map_eq_some_iff.1 h
  obtain ⟨new, h1, h2⟩ := process_sim rotSem recOf D P _ _ n r s' hp
  have h3 := Dag.process_ok (S := reject rotSem recOf P) hD hC (n + 1) n (by omega)
    ⟨n, by simp, .refl⟩ ⟨fun _ => none, env⟩ (fun m r _ h => absurd h (by simp))
  rw [h2] at h3
  simp only [List.nil_append] at h1
  rw [← List.any_eq_true]
  show s'.log.any P = true ↔ _
  rw [h1]
  by_cases hn : new.any P = true
  · rw [if_pos hn] at h3
    exact ⟨fun _ => h3, fun _ => hn⟩
  · rw [if_neg hn] at h3
    have := h3.1
    simp only [hn, Bool.false_eq_true, false_iff]
    rw [this]
    simp

end Heir.RotKeys
