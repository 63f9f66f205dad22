import Verif.Mgmt.Values

/-! # Secretness through the walks -/

namespace Heir.Mgmt

/-- The secretness analysis alone. -/
def secStep (t : Nat → Bool) (op : Op) : Bool := op.args.any t

def secEntry (p : Prog) (v : Nat) : Bool := if v < p.nargs then p.secArg v else false

def secs (p : Prog) : Nat → Bool := run secStep p.ops (secEntry p)

theorem facts_sec (cfg : Cfg) (p : Prog) (v : Nat) : (facts cfg p v).sec = secs p v := by
  rw [facts, run_proj Fact.sec (factStep cfg) secStep (fun t op => rfl), secs]
  congr 1
  funext u
  simp only [factEntry, secEntry]
  split <;> rfl

theorem depths_sec (p : Prog) (v : Nat) : (depths p v).sec = secs p v := by
  rw [depths, run_proj DFact.sec depthStep secStep (fun t op => rfl), secs]
  congr 1
  funext u
  simp only [depthEntry, secEntry]
  split <;> rfl

theorem any_congr_mem {l : List Nat} {f g : Nat → Bool} (h : ∀ a ∈ l, f a = g a) : l.any f = l.any g := by
  have := congrArg (fun l : List Bool => l.any id) (List.map_congr_left h)
  simpa using this

/-- In a well-formed program the result of an operation is secret if an operand is. -/
theorem secs_res {p : Prog} (hw : p.WF) {op : Op} (h : op ∈ p.ops) : secs p op.res = op.args.any (secs p) := by
  obtain ⟨t', _, h1, h2⟩ := final_of_allSteps secStep (fun _ _ => True) p.ops _ (secEntry p) hw.ssa
    (allSteps_true _ _ _) op h
  rw [secs, ← h2]
  exact any_congr_mem h1

theorem secs_fresh {p : Prog} (hw : p.WF) {v : Nat} (h : p.next ≤ v) : secs p v = false := by
  rw [secs, run_of_not_res, secEntry, if_neg (by have := hw.nargs; omega)]
  intro o ho
  have := (hw.ids o ho).1
  omega

/-- Values are defined once. -/
theorem SSA.inj {N : Nat} {l : List Op} : ∀ {P : Nat → Prop}, SSA N P l → ∀ o ∈ l, ∀ o' ∈ l, o.res = o'.res → o = o' := by
  induction l with
  | nil => intro P _ o ho; simp at ho
  | cons o l ih =>
    intro P hs a ha b hb hab
    obtain ⟨_, _, _, _, _, h6⟩ := hs
    rcases List.mem_cons.1 ha with rfl | ha' <;> rcases List.mem_cons.1 hb with rfl | hb'
    · rfl
    · exact absurd hab.symm (SSA.res_ne h6 _ (Or.inr rfl) b hb')
    · exact absurd hab (SSA.res_ne h6 _ (Or.inr rfl) a ha')
    · exact ih h6 a ha' b hb' hab

/-- What a walk inserting chains leaves. -/
theorem Ins.mem {K S n ops n' ops'} (h : Ins K S n ops n' ops') {base : Nat} (hb : base ≤ n) :
    ∀ o ∈ ops', (∃ op ∈ ops, ∃ m s, base ≤ m ∧ Ext K S op m s ∧ o = { op with args := s.args } ∧
      ∀ x ∈ s.pre, x ∈ ops') ∨ (K o.kind ∧ base ≤ o.res ∧ ∃ u, o.args = [u]) := by
  induction h with
  | nil => simp
  | cons n op ops s n' ops' he _ _ ih =>
    intro o ho
    have hle := he.le
    rw [List.mem_append, List.mem_cons] at ho
    rcases ho with ho | rfl | ho
    · obtain ⟨a, _, c, d⟩ := he.pre_mem o ho
      exact Or.inr ⟨c, by omega, d⟩
    · exact Or.inl ⟨op, by simp, n, s, hb, he, rfl, fun x hx => by simp [hx]⟩
    · rcases ih (by omega) o ho with ⟨op', h1, m, s', h2, h3, h4, h5⟩ | h
      · exact Or.inl ⟨op', by simp [h1], m, s', h2, h3, h4, fun x hx => by simp [h5 x hx]⟩
      · exact Or.inr h

/-- A table constant along unary operations is constant along inserted chains. -/
theorem Ext.const {α : Type} {K S op n s} (h : Ext K S op n s) (ha : ∀ a ∈ op.args, a < n) (f : Nat → α)
    (hf : ∀ o ∈ s.pre, ∀ u, o.args = [u] → f o.res = f u) :
    ∀ j < op.args.length, f (s.args.getD j 0) = f (op.args.getD j 0) := by
  have hch : ∀ (ks : List Kind) (u n : Nat), (∀ o ∈ chain ks u n, ∀ v, o.args = [v] → f o.res = f v) →
      f (chainRes ks u n) = f u := by
    intro ks
    induction ks with
    | nil => intro u n _; rfl
    | cons k ks ih =>
      intro u n h
      rw [chainRes, ih n (n + 1) (fun o ho => h o (by rw [chain]; simp [ho]))]
      exact h ⟨k, [u], n⟩ (by rw [chain]; simp) u rfl
  induction h with
  | start => intro j _; rfl
  | step s s' ks j u h' _ hj _ hu _ hp _ hr ih =>
    have ih' := ih (fun o ho => hf o (by rw [hp]; simp [ho]))
    intro i hi
    rcases hr i hi with h | ⟨h1, h2, _⟩
    · rw [h]; exact ih' i hi
    · rw [h2, hch ks u s.next (fun o ho => hf o (by rw [hp]; simp [ho])), ← h1]
      exact ih' i hi

theorem InsProg.secs {K S p q} (h : InsProg K S p q) (hw : p.WF) :
    ∀ v < p.next, Heir.Mgmt.secs q v = Heir.Mgmt.secs p v := by
  have he : secEntry q = secEntry p := by
    funext v; simp only [secEntry, h.nargs, h.secArg]
  rw [Heir.Mgmt.secs, Heir.Mgmt.secs, he]
  refine (h.ins.run secStep (fun _ _ x y => x = y) (fun _ _ => True) (fun _ _ => True) (Nat.le_refl _) hw.ids
    (fun _ _ _ _ _ _ => rfl) ?_ (fun _ _ _ _ _ _ _ _ _ _ _ _ _ _ => trivial) ?_ _ _ (fun _ _ => rfl)
    (allSteps_true _ _ _)).1
  · intro k _ t op _ _ a _ _ t' u r hq
    simpa [secStep] using hq
  · intro t t' op args' _ _ hl _ _ hj
    exact ⟨any_congr_getD t t' hl hj, trivial⟩

/-- The operands of an operation keep their secretness. -/
theorem Ext.secs {K S op n s} (h : Ext K S op n s) {q : Prog} (hq : q.WF) (ha : ∀ a ∈ op.args, a < n)
    (hs : ∀ x ∈ s.pre, x ∈ q.ops) :
    ∀ j < op.args.length, Heir.Mgmt.secs q (s.args.getD j 0) = Heir.Mgmt.secs q (op.args.getD j 0) := by
  refine h.const ha _ fun o ho u hu => ?_
  rw [secs_res hq (hs o ho), hu]
  simp

/-- Wrapping the yielded values leaves the states below. -/
theorem run_append_fresh {α : Type} {K S op n s} (h : Ext K S op n s) (step : (Nat → α) → Op → α) (l : List Op)
    (t : Nat → α) {v : Nat} (hv : v < n) : run step (l ++ s.pre) t v = run step l t v := by
  rw [run_append, run_of_not_res]
  intro o ho
  have := (h.pre_mem o ho).1
  omega

/-! ## Insertion after operations -/

theorem after_mem (k : Kind) (hit : Op → Bool) {base : Nat} (ops : List Op) : ∀ n σ, base ≤ n →
    ∀ o ∈ (after k hit n σ ops).2.2, (∃ op ∈ ops, o.kind = op.kind ∧ o.res = op.res) ∨
      (o.kind = k ∧ base ≤ o.res ∧ ∃ u, o.args = [u]) := by
  induction ops with
  | nil => intro n σ _ o ho; simp [after] at ho
  | cons op ops ih =>
    intro n σ hb o ho
    rw [after] at ho
    simp only at ho
    split at ho
    · simp only [List.mem_cons] at ho
      rcases ho with rfl | rfl | ho
      · exact Or.inl ⟨op, by simp, rfl, rfl⟩
      · exact Or.inr ⟨rfl, hb, _, rfl⟩
      · rcases ih _ _ (by omega) o ho with ⟨op', h1, h2⟩ | h
        · exact Or.inl ⟨op', by simp [h1], h2⟩
        · exact Or.inr h
    · simp only [List.mem_cons] at ho
      rcases ho with rfl | ho
      · exact Or.inl ⟨op, by simp, rfl, rfl⟩
      · rcases ih _ _ hb o ho with ⟨op', h1, h2⟩ | h
        · exact Or.inl ⟨op', by simp [h1], h2⟩
        · exact Or.inr h

/-- After the walk nothing but the inserted operations uses a value that has been renamed. -/
theorem after_args {k : Kind} (hit : Op → Bool) (hitV : Nat → Bool) {base : Nat}
    (hV : ∀ v, hitV v = true → v < base) (ops : List Op) :
    ∀ (P : Nat → Prop) (n : Nat) (σ : Nat → Nat), base ≤ n → SSA base P ops →
      GoodRen base n P σ → (∀ op ∈ ops, ∀ args, hit { op with args := args } = hitV op.res) →
      (∀ v, P v → hitV (σ v) = false) →
      ∀ o ∈ (after k hit n σ ops).2.2, o.kind ≠ k → ∀ a ∈ o.args, hitV a = false := by
  induction ops with
  | nil => intro P n σ _ _ _ _ _ o ho; simp [after] at ho
  | cons op ops ih =>
    intro P n σ hb hs hσ hh hP o ho hk
    obtain ⟨h1, h2, h3, h4, h5, h6⟩ := hs
    have hres : σ op.res = op.res := by
      rcases hσ.cases op.res with h | ⟨_, h⟩
      · exact h
      · exact absurd h h2
    have harg : ∀ a ∈ op.args.map σ, hitV a = false := by
      intro a ha
      obtain ⟨b, hb', rfl⟩ := List.mem_map.1 ha
      exact hP b (h1 b hb')
    rw [after] at ho
    simp only at ho
    split at ho
    · simp only [List.mem_cons] at ho
      rcases ho with rfl | rfl | ho
      · exact harg
      · exact absurd rfl hk
      · refine ih _ _ _ (by omega) h6 (hσ.upd hb op.res) (fun o ho => hh o (by simp [ho])) ?_ o ho hk
        intro v hv
        by_cases hr : v = op.res
        · subst hr
          rw [upd_eq]
          cases hc : hitV n with
          | false => rfl
          | true => have := hV n hc; omega
        · rw [upd_ne _ _ hr]
          exact hP v (hv.resolve_right hr)
    · rename_i hnh
      simp only [List.mem_cons] at ho
      rcases ho with rfl | ho
      · exact harg
      · refine ih _ _ _ hb h6 (hσ.mono (Nat.le_refl _) fun _ h => Or.inl h) (fun o ho => hh o (by simp [ho])) ?_ o ho hk
        rintro v (hv | rfl)
        · exact hP v hv
        · rw [hres, ← hh op (by simp) (op.args.map σ)]
          simpa using hnh

theorem after_secs {k : Kind} (hit : Op → Bool) {base : Nat} (ops : List Op) :
    ∀ (P : Nat → Prop) (n : Nat) (σ : Nat → Nat) (t t' : Nat → Bool),
      base ≤ n → SSA base P ops → (∀ v, P v → v < base) → GoodRen base n P σ →
      (∀ v < base, t' v = t v ∧ t' (σ v) = t v) →
      ∀ v < base, run secStep (after k hit n σ ops).2.2 t' v = run secStep ops t v ∧
        run secStep (after k hit n σ ops).2.2 t' ((after k hit n σ ops).2.1 v) = run secStep ops t v := by
  induction ops with
  | nil => intro P n σ t t' _ _ _ _ h; exact h
  | cons op ops ih =>
    intro P n σ t t' hb hs hP hσ he v hv
    obtain ⟨h1, h2, h3, h4, h5, h6⟩ := hs
    have hP' : ∀ v, P v ∨ v = op.res → v < base := by
      rintro v (h | rfl)
      · exact hP v h
      · exact h3
    have hval : secStep t' { op with args := op.args.map σ } = secStep t op := by
      simp only [secStep, List.any_map]
      exact any_congr_mem fun a ha => (he a (hP a (h1 a ha))).2
    have hne : ∀ v, v ≠ op.res → v < base → σ v ≠ op.res := by
      intro v hv _ h
      rcases hσ.cases v with h' | ⟨h', _⟩
      · exact hv (by rw [← h', h])
      · omega
    have hres : σ op.res = op.res := by
      rcases hσ.cases op.res with h | ⟨_, h⟩
      · exact h
      · exact absurd h h2
    rw [after]
    simp only
    split
    · refine ih _ (n + 1) _ _ _ (by omega) h6 hP' (hσ.upd hb op.res) ?_ v hv
      intro u hu
      simp only [hval]
      by_cases hur : u = op.res
      · subst hur
        rw [upd_eq, upd_eq, upd_eq, upd_ne _ _ (by omega), upd_eq]
        exact ⟨rfl, by simp [secStep, upd_eq]⟩
      · have hlt := hσ.lt u hu
        have h1 : u ≠ n := by omega
        have h2 : σ u ≠ n := by omega
        simp only [upd_ne _ _ hur, upd_ne _ _ h1, upd_ne _ _ h2, upd_ne _ _ (hne u hur hu)]
        exact he u hu
    · refine ih _ n _ _ _ hb h6 hP' (hσ.mono (Nat.le_refl _) fun _ h => Or.inl h) ?_ v hv
      intro u hu
      simp only [hval]
      by_cases hur : u = op.res
      · subst hur
        rw [hres, upd_eq, upd_eq]
        exact ⟨rfl, rfl⟩
      · rw [upd_ne _ _ hur, upd_ne _ _ (hne u hur hu), upd_ne _ _ hur]
        exact he u hu

theorem afterProg_secs {k : Kind} (hit : Op → Bool) {p : Prog} (hw : p.WF) :
    ∀ v < p.next, secs (afterProg k hit p) v = secs p v := by
  intro v hv
  have hlt : ∀ v, v < p.nargs → v < p.next := fun v hv => Nat.lt_of_lt_of_le hv hw.nargs
  exact (after_secs hit p.ops (· < p.nargs) p.next id (secEntry p) (secEntry p) (Nat.le_refl _) hw.ssa hlt
    (GoodRen.id (Nat.le_refl _) _) (fun _ _ => ⟨rfl, rfl⟩) v hv).1

end Heir.Mgmt
