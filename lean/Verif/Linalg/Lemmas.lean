import Verif.Linalg.Spec
import Verif.Fold.Lemmas

/-! # Lemmas on the element-wise rewrites -/

namespace Heir.Linalg

variable {V ι : Type}

/-- The tensor of a value of the body. -/
def tr : Val → TVal
  | .arg i => .operand i
  | .outer v => .splat v
  | .res n => .res n

/-- Every entry of the mapping is the tensor of its value. -/
def Ok (bvm : Bvm) : Prop := ∀ v t, bvm.lookup v = some t → t = tr v

theorem ok_cons {bvm : Bvm} (h : Ok bvm) (v : Val) : Ok ((v, tr v) :: bvm) := by
  intro w t hl
  rw [List.lookup_cons] at hl
  split at hl
  · rename_i e
    injection hl with hl
    rw [← hl, eq_of_beq e]
  · exact h w t hl

theorem lookup_cons_isSome {bvm : Bvm} (v w : Val) (t : TVal) (h : (bvm.lookup v).isSome ∨ v = w) :
    (List.lookup v ((w, t) :: bvm)).isSome := by
  rw [List.lookup_cons]
  split
  · rfl
  · rename_i e
    rcases h with h | h
    · exact h
    · subst h; simp at e

theorem mapOperands_ok {n : Nat} : ∀ {vs : List Val} {bvm bvm' : Bvm},
    mapOperands n vs bvm = some bvm' → Ok bvm →
    Ok bvm' ∧ (∀ v, (bvm.lookup v).isSome → (bvm'.lookup v).isSome) ∧
      ∀ v ∈ vs, (bvm'.lookup v).isSome
  | [], bvm, bvm', h, hb => by
    injection h with h
    subst h
    exact ⟨hb, fun _ h => h, by simp⟩
  | v :: vs, bvm, bvm', h, hb => by
    rw [mapOperands] at h
    obtain ⟨b1, h1, h2⟩ := Option.bind_eq_some_iff.1 h
    have key : Ok b1 ∧ (∀ w, (bvm.lookup w).isSome → (b1.lookup w).isSome) ∧
        (b1.lookup v).isSome := by
      cases v with
      | arg i =>
        rw [mapOperand] at h1
        split at h1
        · injection h1 with h1
          subst h1
          exact ⟨ok_cons hb (.arg i), fun w h => lookup_cons_isSome _ _ _ (Or.inl h),
            lookup_cons_isSome _ _ _ (Or.inr rfl)⟩
        · exact absurd h1 (by simp)
      | outer x =>
        injection h1 with h1
        subst h1
        exact ⟨ok_cons hb (.outer x), fun w h => lookup_cons_isSome _ _ _ (Or.inl h),
          lookup_cons_isSome _ _ _ (Or.inr rfl)⟩
      | res k =>
        rw [mapOperand] at h1
        split at h1
        · rename_i hk
          injection h1 with h1
          subst h1
          exact ⟨hb, fun _ h => h, hk⟩
        · exact absurd h1 (by simp)
    obtain ⟨k1, k2, k3⟩ := key
    obtain ⟨i1, i2, i3⟩ := mapOperands_ok h2 k1
    refine ⟨i1, fun w hw => i2 w (k2 w hw), fun w hw => ?_⟩
    rcases List.mem_cons.1 hw with rfl | hw
    · exact i2 _ k3
    · exact i3 w hw

theorem lookup_mapM {bvm : Bvm} (h : Ok bvm) : ∀ {vs : List Val} {ts : List TVal},
    vs.mapM (fun v => bvm.lookup v) = some ts → ts = vs.map tr
  | [], ts, e => by
    simp at e
    simp [e]
  | v :: vs, ts, e => by
    rw [List.mapM_cons] at e
    obtain ⟨t, h1, e⟩ := Option.bind_eq_some_iff.1 e
    obtain ⟨ts', h2, e⟩ := Option.bind_eq_some_iff.1 e
    injection e with e
    subst e
    rw [h v t h1, lookup_mapM h h2, List.map_cons]

theorem mapBody_ok {n : Nat} : ∀ {body : List (Op Val)} {k : Nat} {bvm bvm' : Bvm}
    {ops ops' : List (Op TVal)}, mapBody n body k bvm ops = some (bvm', ops') → Ok bvm →
    Ok bvm' ∧ ops' = ops ++ body.map fun op => ⟨op.name, op.attrs, op.operands.map tr⟩
  | [], k, bvm, bvm', ops, ops', h, hb => by
    injection h with h
    injection h with h1 h2
    subst h1
    subst h2
    exact ⟨hb, by simp⟩
  | op :: body, k, bvm, bvm', ops, ops', h, hb => by
    rw [mapBody] at h
    obtain ⟨b1, h1, h⟩ := Option.bind_eq_some_iff.1 h
    obtain ⟨ts, h2, h⟩ := Option.bind_eq_some_iff.1 h
    obtain ⟨o1, -, -⟩ := mapOperands_ok h1 hb
    have ht := lookup_mapM o1 h2
    subst ht
    obtain ⟨i1, i2⟩ := mapBody_ok h (ok_cons o1 (.res k))
    exact ⟨i1, by rw [i2]; simp⟩

theorem start_ok (n : Nat) : Ok ((List.range n).map fun i => (Val.arg i, TVal.operand i)) := by
  have key : ∀ l : List Nat, Ok (l.map fun i => (Val.arg i, TVal.operand i)) := by
    intro l
    induction l with
    | nil => intro v t h; exact absurd h (by simp)
    | cons i l ih => exact ok_cons ih (.arg i)
  exact key _

theorem yield_tr {bvm : Bvm} (h : Ok bvm) {v : Val} {t : TVal} (hy : mapYield bvm v = some t) :
    t = tr v := by
  unfold mapYield at hy
  split at hy
  · rename_i t' ht
    injection hy with hy
    subst hy
    exact h v _ ht
  · split at hy
    · injection hy with hy
      exact hy.symm
    · exact absurd hy (by simp)

theorem yields_tr {bvm : Bvm} (h : Ok bvm) : ∀ {vs : List Val} {ts : List TVal},
    vs.mapM (mapYield bvm) = some ts → ts = vs.map tr
  | [], ts, e => by
    simp at e
    simp [e]
  | v :: vs, ts, e => by
    rw [List.mapM_cons] at e
    obtain ⟨t, h1, e⟩ := Option.bind_eq_some_iff.1 e
    obtain ⟨ts', h2, e⟩ := Option.bind_eq_some_iff.1 e
    injection e with e
    subst e
    rw [yield_tr h h1, yields_tr h h2, List.map_cons]

/-- What the rewrite produces when it does not fail. -/
theorem generic_eq {nIn nOut : Nat} {body : List (Op Val)} {yielded : List Val}
    {ops : List (Op TVal)} {results : List TVal}
    (h : genericToElementwise nIn nOut body yielded = some (ops, results)) :
    ops = body.map (fun op => ⟨op.name, op.attrs, op.operands.map tr⟩) ∧
      results = yielded.map tr := by
  unfold genericToElementwise at h
  obtain ⟨⟨bvm, ops'⟩, h1, h⟩ := Option.bind_eq_some_iff.1 h
  obtain ⟨rs, h2, h⟩ := Option.map_eq_some_iff.1 h
  injection h with e1 e2
  subst e1
  subst e2
  obtain ⟨o1, o2⟩ := mapBody_ok h1 (start_ok _)
  exact ⟨by simpa using o2, yields_tr o1 h2⟩

/-! ## Simulation -/

theorem eval_tr (tensors : List (ι → V)) (outer : Nat → V) (rs : List (ι → V)) (i : ι) (v : Val) :
    Val.eval (tensors.map (· i)) outer (rs.map (· i)) v =
      ((tr v).eval tensors outer rs).map (· i) := by
  cases v with
  | arg k => simp [Val.eval, tr, TVal.eval]
  | outer v => rfl
  | res n => simp [Val.eval, tr, TVal.eval]

theorem evals_tr (tensors : List (ι → V)) (outer : Nat → V) (rs : List (ι → V)) (i : ι) :
    ∀ vs : List Val, vs.mapM (Val.eval (tensors.map (· i)) outer (rs.map (· i))) =
      ((vs.map tr).mapM (TVal.eval tensors outer rs)).map (·.map (· i))
  | [] => by simp
  | v :: vs => by
    rw [List.map_cons, List.mapM_cons, List.mapM_cons, evals_tr tensors outer rs i vs, eval_tr]
    cases TVal.eval tensors outer rs (tr v) with
    | none => rfl
    | some t =>
      cases (vs.map tr).mapM (TVal.eval tensors outer rs) <;> rfl

theorem body_sim (sem : Nat → Nat → List V → V) (tensors : List (ι → V)) (outer : Nat → V) (i : ι) :
    ∀ (body : List (Op Val)) (rs : List (ι → V)),
      evalBody sem (tensors.map (· i)) outer body (rs.map (· i)) =
      (evalOps sem tensors outer (body.map fun op => ⟨op.name, op.attrs, op.operands.map tr⟩) rs).map
        (·.map (· i))
  | [], rs => rfl
  | op :: body, rs => by
    rw [List.map_cons, evalBody, evalOps, evals_tr]
    cases h : (op.operands.map tr).mapM (TVal.eval tensors outer rs) with
    | none => rfl
    | some xs =>
      simp only [Option.map_some, Option.bind_some]
      rw [← body_sim sem tensors outer i body]
      simp

/-! ## Success -/

theorem mapOperands_some {n : Nat} : ∀ {vs : List Val} {bvm : Bvm},
    (∀ i, Val.arg i ∈ vs → i < n) → (∀ k, Val.res k ∈ vs → (bvm.lookup (.res k)).isSome) →
    ∃ bvm', mapOperands n vs bvm = some bvm'
  | [], bvm, _, _ => ⟨bvm, rfl⟩
  | v :: vs, bvm, ha, hr => by
    have step : ∃ b, mapOperand n bvm v = some b ∧
        ∀ w, (bvm.lookup w).isSome → (b.lookup w).isSome := by
      cases v with
      | arg i =>
        rw [mapOperand, if_pos (ha i List.mem_cons_self)]
        exact ⟨_, rfl, fun w h => lookup_cons_isSome _ _ _ (Or.inl h)⟩
      | outer x => exact ⟨_, rfl, fun w h => lookup_cons_isSome _ _ _ (Or.inl h)⟩
      | res k =>
        rw [mapOperand, if_pos (hr k List.mem_cons_self)]
        exact ⟨_, rfl, fun w h => h⟩
    obtain ⟨b, h1, h2⟩ := step
    obtain ⟨b', h3⟩ := mapOperands_some (bvm := b) (vs := vs)
      (fun i h => ha i (List.mem_cons_of_mem _ h)) fun k h => h2 _ (hr k (List.mem_cons_of_mem _ h))
    exact ⟨b', by rw [mapOperands, h1]; exact h3⟩

theorem mapM_some {β γ : Type} {f : β → Option γ} : ∀ {l : List β}, (∀ x ∈ l, (f x).isSome) →
    ∃ r, l.mapM f = some r
  | [], _ => ⟨[], by simp⟩
  | x :: l, h => by
    obtain ⟨y, hy⟩ := Option.isSome_iff_exists.1 (h x List.mem_cons_self)
    obtain ⟨r, hr⟩ := mapM_some fun z hz => h z (List.mem_cons_of_mem _ hz)
    exact ⟨y :: r, by rw [List.mapM_cons, hy, hr]; rfl⟩

/-- Ops use inputs, outer values and earlier results. -/
def WellFormed (nIn : Nat) : Nat → List (Op Val) → Prop
  | _, [] => True
  | k, op :: body => (∀ i, Val.arg i ∈ op.operands → i < nIn) ∧
      (∀ n, Val.res n ∈ op.operands → n < k) ∧ WellFormed nIn (k + 1) body

theorem mapBody_some {nIn : Nat} : ∀ {body : List (Op Val)} {k : Nat} {bvm : Bvm}
    {ops : List (Op TVal)}, WellFormed nIn k body → Ok bvm →
    (∀ n < k, (bvm.lookup (.res n)).isSome) →
    ∃ bvm' ops', mapBody nIn body k bvm ops = some (bvm', ops') ∧
      (∀ v, (bvm.lookup v).isSome → (bvm'.lookup v).isSome) ∧
      ∀ n < k + body.length, (bvm'.lookup (.res n)).isSome
  | [], k, bvm, ops, _, _, h => ⟨bvm, ops, rfl, fun _ h => h, h⟩
  | op :: body, k, bvm, ops, ⟨w1, w2, w3⟩, hb, h => by
    obtain ⟨b1, h1⟩ := mapOperands_some (bvm := bvm) w1 fun n hn => h n (w2 n hn)
    obtain ⟨o1, o2, o3⟩ := mapOperands_ok h1 hb
    obtain ⟨ts, h2⟩ := mapM_some o3
    obtain ⟨b', ops', e1, e2, e3⟩ := mapBody_some (bvm := (.res k, .res k) :: b1)
      (ops := ops ++ [⟨op.name, op.attrs, ts⟩]) w3 (ok_cons o1 (.res k)) (by
        intro n hn
        refine lookup_cons_isSome _ _ _ ?_
        by_cases e : n = k
        · exact Or.inr (by rw [e])
        · exact Or.inl (o2 _ (h n (by omega))))
    refine ⟨b', ops', ?_, fun v hv => e2 v (lookup_cons_isSome _ _ _ (Or.inl (o2 v hv))), ?_⟩
    · rw [mapBody, h1, Option.bind_some, h2, Option.bind_some, e1]
    · intro n hn
      exact e3 n (by rw [List.length_cons] at hn; omega)

theorem start_some {n i : Nat} (h : i < n) :
    (List.lookup (Val.arg i) ((List.range n).map fun i => (Val.arg i, TVal.operand i))).isSome := by
  have key : ∀ l : List Nat, i ∈ l →
      (List.lookup (Val.arg i) (l.map fun i => (Val.arg i, TVal.operand i))).isSome := by
    intro l
    induction l with
    | nil => intro h; exact absurd h (by simp)
    | cons j l ih =>
      intro h
      refine lookup_cons_isSome _ _ _ ?_
      rcases List.mem_cons.1 h with rfl | h
      · exact Or.inr rfl
      · exact Or.inl (ih h)
  exact key _ (List.mem_range.2 h)

theorem evalOps_some (sem : Nat → Nat → List V → V) {tensors : List (ι → V)} (outer : Nat → V)
    {nIn : Nat} (hn : nIn ≤ tensors.length) : ∀ {body : List (Op Val)} {rs : List (ι → V)},
    WellFormed nIn rs.length body → ∃ rs', evalOps sem tensors outer
      (body.map fun op => ⟨op.name, op.attrs, op.operands.map tr⟩) rs = some rs' ∧
      rs'.length = rs.length + body.length
  | [], rs, _ => ⟨rs, rfl, rfl⟩
  | op :: body, rs, ⟨w1, w2, w3⟩ => by
    obtain ⟨xs, hx⟩ := mapM_some (f := TVal.eval tensors outer rs) (l := op.operands.map tr) (by
      intro t ht
      obtain ⟨v, hv, rfl⟩ := List.mem_map.1 ht
      cases v with
      | arg i => have := w1 i hv; simp [tr, TVal.eval]; omega
      | outer x => rfl
      | res n => have := w2 n hv; simp [tr, TVal.eval]; omega)
    obtain ⟨rs', h1, h2⟩ := evalOps_some sem (rs := rs ++ [fun i => sem op.name op.attrs (xs.map (· i))])
      outer hn (body := body) (by rw [List.length_append]; exact w3)
    refine ⟨rs', ?_, ?_⟩
    · rw [List.map_cons, evalOps, hx]
      exact h1
    · rw [h2, List.length_append, List.length_cons]
      simp only [List.length_cons, List.length_nil]
      omega

end Heir.Linalg
