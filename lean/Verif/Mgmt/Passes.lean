import Verif.Mgmt.Lemmas

/-! # The walks insert chains; values and SSA form -/

namespace Heir.Mgmt

variable {α : Type}

/-! ## More on insertion before an operation -/

theorem chainRes_cases (ks : List Kind) (u n : Nat) : chainRes ks u n = u ∨ n ≤ chainRes ks u n := by
  induction ks generalizing u n with
  | nil => exact Or.inl rfl
  | cons k ks ih =>
    rw [chainRes]
    rcases ih n (n + 1) with h | h <;> right <;> omega

theorem Ext.orig {K S op n s} (h : Ext K S op n s) :
    ∀ j < op.args.length, s.args.getD j 0 = op.args.getD j 0 ∨ n ≤ s.args.getD j 0 := by
  induction h with
  | start => exact fun j _ => Or.inl rfl
  | step s s' ks j u h' _ _ _ _ _ _ _ hr ih =>
    intro i hi
    have := h'.le
    rcases hr i hi with h | ⟨h1, h2, _⟩
    · rw [h]; exact ih i hi
    · rw [h2]
      rcases chainRes_cases ks u s.next with h | h
      · rw [h, ← h1]; exact ih i hi
      · right; omega

theorem Ext.inj {K S op n s} (h : Ext K S op n s) (ha : ∀ a ∈ op.args, a < n) :
    ∀ i < op.args.length, ∀ j < op.args.length, s.args.getD i 0 = s.args.getD j 0 →
      op.args.getD i 0 = op.args.getD j 0 := by
  induction h with
  | start => exact fun i _ j _ h => h
  | step s s' ks j u h' _ _ _ _ _ _ _ hr ih =>
    intro i hi j hj he
    have hlt := h'.args_lt ha
    have hi' := hlt i hi
    have hj' := hlt j hj
    rcases hr i hi with h | ⟨h1, h2, _⟩ <;> rcases hr j hj with g | ⟨g1, g2, _⟩
    · exact ih i hi j hj (by rw [← h, ← g, he])
    · rw [h, g2] at he
      rcases chainRes_cases ks u s.next with e | e
      · rw [e] at he; exact ih i hi j hj (by rw [he, g1])
      · omega
    · rw [h2, g] at he
      rcases chainRes_cases ks u s.next with e | e
      · rw [e] at he; exact ih i hi j hj (by rw [h1, he])
      · omega
    · exact ih i hi j hj (by rw [h1, g1])

theorem replaceUses_getD {args : List Nat} {v m j : Nat} (h : j < args.length) :
    (replaceUses args v m).getD j 0 = if args.getD j 0 = v then m else args.getD j 0 := by
  rw [replaceUses, List.getD_eq_getElem _ _ (by simpa using h), List.getD_eq_getElem _ _ h]
  simp

theorem replaceUses_length (args : List Nat) (v m : Nat) : (replaceUses args v m).length = args.length := by
  simp [replaceUses]

/-- A fold of steps that stay reachable stays reachable. -/
theorem foldl_ext {β : Type} {K S op n} (f : St → β → St) (l : List β)
    (hf : ∀ s, Ext K S op n s → ∀ b ∈ l, Ext K S op n (f s b)) :
    ∀ s, Ext K S op n s → Ext K S op n (l.foldl f s) := by
  induction l with
  | nil => exact fun s h => h
  | cons b l ih =>
    intro s h
    rw [List.foldl_cons]
    exact ih (fun s h b hb => hf s h b (by simp [hb])) _ (hf s h b (by simp))

theorem useInit_ext (sec isInit : Nat → Bool) (n i : Nat) (op : Op) :
    Ext (· = .init) (fun _ => True) op n (useInit sec isInit ⟨n, i, [], op.args⟩ op) := by
  rw [useInit]
  split
  · apply foldl_ext
    · intro s hs j hj
      rw [List.mem_range] at hj
      rw [initStep]
      simp only
      split
      · exact hs
      · refine Ext.step s _ [.init] j (s.args.getD j 0) hs (by simp) hj trivial (Or.inl rfl) rfl rfl
          (by simp [St.emit]) ?_
        intro i hi
        have hi' : i < s.args.length := by rw [hs.len]; exact hi
        by_cases h : i = j
        · subst h
          right
          refine ⟨rfl, ?_, trivial⟩
          simp [chainRes, List.getD_eq_getElem?_getD, hi']
        · left
          simp [List.getD_eq_getElem?_getD, List.getElem?_set, Ne.symm h]
    · exact Ext.start i
  · exact Ext.start i

theorem modReduceOperands_ext (t : Nat → DFact) (f : Bool) (n i : Nat) (op : Op) (ha : ∀ a ∈ op.args, a < n) :
    Ext (· = .modReduce) (fun a => (t a).sec = true) op n
      (modReduceOperands t f ⟨n, i, [], op.args⟩ op.args) := by
  rw [modReduceOperands]
  split
  · exact Ext.start i
  split
  · exact Ext.start i
  · apply foldl_ext
    · intro s hs v hv
      rw [List.mem_filter] at hv
      obtain ⟨j, hj, rfl⟩ := List.mem_iff_getElem.1 hv.1
      have hget : op.args.getD j 0 = op.args[j] := List.getD_eq_getElem _ _ hj
      have hvn := ha _ hv.1
      rw [modReduceStep]
      refine Ext.step s _ [.modReduce] j (op.args.getD j 0) hs (by simp) hj (by rw [hget]; exact hv.2)
        (Or.inr rfl) rfl (by rw [hget]; rfl) (by simp [replaceUses_length]) ?_
      intro i hi
      have hi' : i < s.args.length := by rw [hs.len]; exact hi
      simp only
      rw [replaceUses_getD hi', ← hget]
      split
      · rename_i h
        right
        refine ⟨h, rfl, ?_⟩
        rcases hs.orig i hi with h' | h'
        · rw [← h', h, hget]; exact hv.2
        · rw [h, hget] at h'; omega
      · exact Or.inl rfl
    · exact Ext.start i

/-- The kinds of operations `MatchCrossLevel` inserts. -/
def CrossKind (k : Kind) : Prop :=
  k = .modReduce ∨ k = .levelReduceMin ∨ (∃ d, k = .levelReduce d) ∨ ∃ i, k = .adjustScale i

theorem crossChain_kinds {ckks : Bool} {id l r : Nat} : ∀ k ∈ crossChain ckks id l r, CrossKind k := by
  intro k hk
  simp only [crossChain, List.mem_append, List.mem_singleton] at hk
  rcases hk with (hk | hk) | hk
  · split at hk <;> simp at hk; subst hk; exact Or.inr (Or.inr (Or.inl ⟨_, rfl⟩))
  · split at hk <;> simp at hk; subst hk; exact Or.inr (Or.inr (Or.inr ⟨_, rfl⟩))
  · subst hk; exact Or.inl rfl

theorem crossStep_ext {ckks : Bool} {base n : Nat} {t : Nat → Fact} {R : Level} {op : Op} {s s' : St} {i : Nat}
    (hb : base ≤ n) (hs : Ext CrossKind (fun a => (t a).sec = true) op n s) (hi : i ∈ secretPos t op.args)
    (h : crossStep ckks base t R s i = some s') :
    Ext CrossKind (fun a => (t a).sec = true) op n s' := by
  simp only [secretPos, List.mem_filter, List.mem_range] at hi
  obtain ⟨hi, hsec⟩ := hi
  have hrep : ∀ (v m : Nat), v = s.args.getD i 0 → v < base → ∀ j < op.args.length,
      (replaceUses s.args v m).getD j 0 = s.args.getD j 0 ∨
        (s.args.getD j 0 = v ∧ (replaceUses s.args v m).getD j 0 = m ∧ (t (op.args.getD j 0)).sec = true) := by
    intro v m hv hvb j hj
    rw [replaceUses_getD (by rw [hs.len]; exact hj)]
    split
    · rename_i h
      right
      refine ⟨h, rfl, ?_⟩
      have e1 : op.args.getD i 0 = v := by
        rcases hs.orig i hi with h' | h' <;> omega
      have e2 : op.args.getD j 0 = v := by
        rcases hs.orig j hj with h' | h' <;> omega
      rw [e2, ← e1]; exact hsec
    · exact Or.inl rfl
  unfold crossStep at h
  simp only at h
  by_cases hv : base ≤ s.args.getD i 0
  · rw [if_pos hv] at h; exact absurd h (by simp)
  rw [if_neg hv] at h
  generalize (t (s.args.getD i 0)).lvl = l at h
  split at h
  · split at h
    · injection h with h
      subst h
      exact Ext.step s _ _ i (s.args.getD i 0) hs crossChain_kinds hi hsec (Or.inl rfl) rfl rfl
        (replaceUses_length _ _ _) (hrep _ _ rfl (by omega))
    · injection h with h; subst h; exact hs
  · injection h with h
    subst h
    exact Ext.step s _ [.levelReduceMin] i (s.args.getD i 0) hs
      (by intro k hk; rw [List.mem_singleton] at hk; subst hk; exact Or.inr (Or.inl rfl)) hi hsec (Or.inl rfl) rfl rfl
      (replaceUses_length _ _ _) (hrep _ _ rfl (by omega))
  · injection h with h; subst h; exact hs

theorem foldlM_ext {β : Type} {K S op n} (f : St → β → Option St) (l : List β)
    (hf : ∀ s, Ext K S op n s → ∀ b ∈ l, ∀ s', f s b = some s' → Ext K S op n s') :
    ∀ s s', Ext K S op n s → l.foldlM f s = some s' → Ext K S op n s' := by
  induction l with
  | nil => intro s s' h he; simp at he; subst he; exact h
  | cons b l ih =>
    intro s s' h he
    rw [List.foldlM_cons] at he
    cases hb : f s b with
    | none => rw [hb] at he; simp at he
    | some s1 =>
      rw [hb] at he
      exact ih (fun s h b hb => hf s h b (by simp [hb])) s1 s' (hf s h b (by simp) s1 hb) he

theorem crossOp_ext {ckks : Bool} {cfg : Cfg} {base n i : Nat} {t t' : Nat → Fact} {op : Op} {s' : St}
    (hb : base ≤ n) (h : crossOp ckks cfg base t ⟨n, i, [], op.args⟩ op = some (t', s')) :
    Ext CrossKind (fun a => (t a).sec = true) op n s' ∧
      (op.kind = .relinearize → s'.pre = [] ∧ s'.args = op.args) ∧ ∀ v, (t' v).sec = (t v).sec := by
  rw [crossOp] at h
  split at h
  · rename_i hc
    rw [Option.map_eq_some_iff] at h
    obtain ⟨s1, h1, h2⟩ := h
    have he := foldlM_ext _ _ (fun s hs b hbm s' h => crossStep_ext hb hs hbm h) _ _ (Ext.start i) h1
    have hk : op.kind ≠ .relinearize := by
      intro hk; rw [hk] at hc; simp [Kind.matched] at hc
    split at h2
    · injection h2 with h2 h3
      subst h2 h3
      exact ⟨he, fun h => absurd h hk, fun _ => rfl⟩
    · injection h2 with h2 h3
      subst h2 h3
      refine ⟨he, fun h => absurd h hk, fun v => ?_⟩
      by_cases hv : v = op.res
      · subst hv; rw [upd_eq]
      · rw [upd_ne _ _ hv]
  · injection h with h
    injection h with h2 h3
    subst h2 h3
    exact ⟨Ext.start i, fun _ => ⟨rfl, rfl⟩, fun _ => rfl⟩

theorem depthOne_ext {n : Nat} {S : Nat → Prop} {op : Op} {s : St} {x : Nat × Depth}
    (ha : ∀ a ∈ op.args, a < n) (hx : x.1 < op.args.length) (hS : S (op.args.getD x.1 0))
    (hs : Ext (fun k => ∃ i, k = .adjustScale i) S op n s) :
    Ext (fun k => ∃ i, k = .adjustScale i) S op n (depthOne s x) := by
  rw [depthOne]
  simp only
  split
  · refine Ext.step s _ [.adjustScale s.id] x.1 (s.args.getD x.1 0) hs (by simp) hx hS (Or.inl rfl) rfl rfl
      (replaceUses_length _ _ _) ?_
    intro j hj
    simp only
    rw [replaceUses_getD (by rw [hs.len]; exact hj)]
    split
    · rename_i h
      right
      exact ⟨h, rfl, by rw [hs.inj ha j hj x.1 hx h]; exact hS⟩
    · exact Or.inl rfl
  · exact hs

theorem depthOp_ext {n i : Nat} {t t' : Nat → DFact} {op : Op} {s' : St} (ha : ∀ a ∈ op.args, a < n)
    (h : depthOp t ⟨n, i, [], op.args⟩ op = some (t', s')) :
    Ext (fun k => ∃ i, k = .adjustScale i) (fun a => (t a).sec = true) op n s' ∧
      (op.kind = .relinearize → s'.pre = [] ∧ s'.args = op.args) ∧
      t' = run depthStep (s'.pre ++ [{ op with args := s'.args }]) t := by
  rw [depthOp] at h
  simp only [Option.some.injEq, Prod.mk.injEq] at h
  obtain ⟨h1, h2⟩ := h
  subst h2
  refine ⟨?_, ?_, h1.symm⟩
  · split
    · apply foldl_ext
      · intro s hs x hx
        have := List.of_mem_zip hx
        simp only [List.mem_filter, List.mem_range] at this
        exact depthOne_ext ha this.1.1 this.1.2 hs
      · exact Ext.start i
    · exact Ext.start i
  · intro hk
    rw [hk]
    simp [Kind.matched]

/-! ## The walks -/

theorem beforeT_ins {K S} (f : St → Op → St) {base : Nat} (ops : List Op)
    (hf : ∀ op ∈ ops, ∀ n i, base ≤ n → Ext K S op n (f ⟨n, i, [], op.args⟩ op) ∧
      (op.kind = .relinearize → (f ⟨n, i, [], op.args⟩ op).pre = [] ∧
        (f ⟨n, i, [], op.args⟩ op).args = op.args)) :
    ∀ n i, base ≤ n → Ins K S n ops (beforeT f n i ops).1 (beforeT f n i ops).2.2 := by
  induction ops with
  | nil => exact fun n i _ => Ins.nil n
  | cons op ops ih =>
    intro n i hn
    rw [beforeT]
    obtain ⟨h1, h2⟩ := hf op (by simp) n i hn
    exact Ins.cons n op ops _ _ _ h1 h2
      (ih (fun op h => hf op (by simp [h])) _ _ (Nat.le_trans hn h1.le))

theorem before_ins {σ : Type} {K S} (f : σ → St → Op → Option (σ × St)) {base : Nat} (J : σ → Prop)
    (ops : List Op)
    (hf : ∀ op ∈ ops, ∀ t n i t' s, base ≤ n → J t → f t ⟨n, i, [], op.args⟩ op = some (t', s) →
      Ext K S op n s ∧ (op.kind = .relinearize → s.pre = [] ∧ s.args = op.args) ∧ J t') :
    ∀ t n i t' n' i' ops', base ≤ n → J t → before f t n i ops = some (t', n', i', ops') →
      Ins K S n ops n' ops' := by
  induction ops with
  | nil =>
    intro t n i t' n' i' ops' _ _ h
    simp only [before, Option.some.injEq, Prod.mk.injEq] at h
    obtain ⟨_, rfl, _, rfl⟩ := h
    exact Ins.nil n
  | cons op ops ih =>
    intro t n i t' n' i' ops' hn hJ h
    rw [before, Option.bind_eq_some_iff] at h
    obtain ⟨⟨t1, s⟩, h1, h2⟩ := h
    rw [Option.map_eq_some_iff] at h2
    obtain ⟨⟨t2, n2, i2, o2⟩, h3, h4⟩ := h2
    simp only [Prod.mk.injEq] at h4
    obtain ⟨_, rfl, _, rfl⟩ := h4
    obtain ⟨e1, e2, e3⟩ := hf op (by simp) t n i t1 s hn hJ h1
    exact Ins.cons n op ops _ _ _ e1 e2
      (ih (fun op h => hf op (by simp [h])) _ _ _ _ _ _ _ (Nat.le_trans hn e1.le) e3 h3)

/-! ## Values -/

theorem evalOp_congr {D : Type} (I : Kind → List D → D) (t t' : Nat → D) (op : Op) (args' : List Nat)
    (hl : args'.length = op.args.length) (hm : op.kind.isMgmt = true → op.args.length = 1)
    (h : ∀ j < op.args.length, t (op.args.getD j 0) = t' (args'.getD j 0)) :
    evalOp I t' { op with args := args' } = evalOp I t op := by
  rw [evalOp, evalOp]
  have hmap : args'.map t' = op.args.map t := by
    apply List.ext_getElem
    · simp [hl]
    · intro j h1 h2
      simp only [List.length_map] at h1 h2
      have := h j h2
      rw [List.getD_eq_getElem _ _ h2, List.getD_eq_getElem _ _ h1] at this
      simp [this]
  simp only
  split
  · rename_i hk
    have h1 := hm hk
    have := h 0 (by omega)
    have e1 : op.args.headD 0 = op.args.getD 0 0 := by
      cases hh : op.args <;> simp
    have e2 : args'.headD 0 = args'.getD 0 0 := by
      cases hh : args' <;> simp
    rw [e1, e2, this]
  · rw [hmap]

theorem evalOp_mgmt {D : Type} (I : Kind → List D → D) (t : Nat → D) {k : Kind} (h : k.isMgmt = true) (u r : Nat) :
    evalOp I t ⟨k, [u], r⟩ = t u := by
  simp [evalOp, h]

/-- The operations of an SSA program have the right number of operands. -/
theorem SSA.arity {N : Nat} {l : List Op} : ∀ {P : Nat → Prop}, SSA N P l → ∀ o ∈ l,
    (o.kind.isMgmt = true → o.args.length = 1) ∧
      (o.kind = .add ∨ o.kind = .sub ∨ o.kind = .mul → o.args.length = 2) := by
  induction l with
  | nil => intro P _ o ho; simp at ho
  | cons o l ih =>
    intro P hs o' ho'
    rcases List.mem_cons.1 ho' with rfl | h
    · exact ⟨hs.2.2.2.1, hs.2.2.2.2.1⟩
    · exact ih hs.2.2.2.2.2 _ h

theorem Prog.WF.ids {p : Prog} (h : p.WF) : ∀ o ∈ p.ops, o.res < p.next ∧ ∀ a ∈ o.args, a < p.next :=
  fun o ho => ⟨h.ssa.res_lt o ho, h.ssa.args_lt (fun _ hv => Nat.lt_of_lt_of_le hv h.nargs) o ho⟩

theorem Prog.WF.yields_lt {p : Prog} (h : p.WF) : ∀ y ∈ p.yields, y < p.next := by
  intro y hy
  rcases h.yields y hy with h' | ⟨o, ho, rfl⟩
  · exact Nat.lt_of_lt_of_le h' h.nargs
  · exact h.ssa.res_lt o ho

theorem Ins.eval {D : Type} (I : Kind → List D → D) {K S n ops n' ops'} (h : Ins K S n ops n' ops')
    (hK : ∀ k, K k → k.isMgmt = true) {base : Nat} (hb : base ≤ n)
    (hid : ∀ o ∈ ops, o.res < base ∧ ∀ a ∈ o.args, a < base)
    (har : ∀ o ∈ ops, o.kind.isMgmt = true → o.args.length = 1) (env : Nat → D) :
    ∀ v < base, Heir.Mgmt.eval I ops' env v = Heir.Mgmt.eval I ops env v := by
  rw [eval_eq_run, eval_eq_run]
  refine (h.run (evalOp I) (fun _ _ x y => x = y) (fun _ _ => True) (fun _ _ => True) hb hid
    (fun _ _ _ _ _ _ => rfl) ?_ (fun _ _ _ _ _ _ _ _ _ _ _ _ _ _ => trivial) ?_ env env (fun _ _ => rfl)
    (allSteps_true _ _ _)).1
  · intro k hk t op _ _ a _ _ t' u r hq
    rw [evalOp_mgmt I t' (hK k hk)]; exact hq
  · intro t t' op args' hop _ hl _ _ hj
    exact ⟨evalOp_congr I t t' op args' hl (har op hop) hj, trivial⟩

/-- A program changed by a walk inserting chains. -/
structure InsProg (K : Kind → Prop) (S : Nat → Prop) (p q : Prog) : Prop where
  nargs : q.nargs = p.nargs
  secArg : q.secArg = p.secArg
  yields : q.yields = p.yields
  ins : Ins K S p.next p.ops q.next q.ops

theorem InsProg.wf {K S p q} (h : InsProg K S p q) (hK : ∀ k, K k → k.isMgmt = true) (hw : p.WF) : q.WF := by
  have hle := h.ins.le
  refine ⟨by rw [h.nargs]; exact Nat.le_trans hw.nargs hle, ?_, ?_⟩
  · refine h.ins.ssa hK (Nat.le_refl _) (Nat.le_refl _) (· < p.nargs) _ hw.ssa
      (fun v hv => Nat.lt_of_lt_of_le hv hw.nargs) ?_ ?_
    · intro _ _; rw [h.nargs]
    · intro v hv; rw [h.nargs] at hv; exact Nat.lt_of_lt_of_le hv hw.nargs
  · intro y hy
    rw [h.yields] at hy
    rcases hw.yields y hy with h' | ⟨o, ho, rfl⟩
    · rw [h.nargs]; exact Or.inl h'
    · obtain ⟨o', h1, h2, _⟩ := h.ins.res o ho
      exact Or.inr ⟨o', h1, h2⟩

theorem InsProg.result {D : Type} {K S p q} (h : InsProg K S p q) (hK : ∀ k, K k → k.isMgmt = true) (hw : p.WF)
    (I : Kind → List D → D) (env : Nat → D) : q.result I env = p.result I env := by
  rw [Prog.result, Prog.result, h.yields]
  apply List.map_congr_left
  intro y hy
  exact h.ins.eval I hK (Nat.le_refl _) hw.ids (fun o ho => (hw.ssa.arity o ho).1) env y (hw.yields_lt y hy)

theorem insertInit_ins (cfg : Cfg) (p : Prog) :
    InsProg (· = .init) (fun _ => True) p (insertInit cfg p) := by
  refine ⟨rfl, rfl, rfl, ?_⟩
  refine beforeT_ins (base := p.next) _ p.ops ?_ p.next 0 (Nat.le_refl _)
  intro op _ n i _
  refine ⟨useInit_ext _ _ n i op, ?_⟩
  intro hk
  rw [useInit, hk]
  simp [Kind.takesInit]

theorem crossLevel_ins {ckks : Bool} {cfg : Cfg} {p q : Prog} {i : Nat} (h : crossLevel ckks cfg p = some (q, i)) :
    InsProg CrossKind (fun a => (facts cfg p a).sec = true) p q := by
  rw [crossLevel, Option.map_eq_some_iff] at h
  obtain ⟨⟨t', n', i', ops'⟩, h1, h2⟩ := h
  simp only [Prod.mk.injEq] at h2
  obtain ⟨rfl, rfl⟩ := h2
  refine ⟨rfl, rfl, rfl, ?_⟩
  refine before_ins (base := p.next) _ (fun t => ∀ v, (t v).sec = (facts cfg p v).sec) p.ops ?_ _ _ _ _ _ _ _
    (Nat.le_refl _) (fun _ => rfl) h1
  intro op _ t n i t' s hn hJ h
  obtain ⟨a, b, c⟩ := crossOp_ext hn h
  have hS : (fun a => (t a).sec = true) = fun a => (facts cfg p a).sec = true := by
    funext a; rw [hJ a]
  rw [hS] at a
  exact ⟨a, b, fun v => by rw [c v, hJ v]⟩

theorem modReduceMul_ext (t : Nat → DFact) (f : Bool) (n i : Nat) (op : Op) (ha : ∀ a ∈ op.args, a < n) :
    Ext (· = .modReduce) (fun a => (t a).sec = true) op n (modReduceMul t f ⟨n, i, [], op.args⟩ op) ∧
      (op.kind = .relinearize → (modReduceMul t f ⟨n, i, [], op.args⟩ op).pre = [] ∧
        (modReduceMul t f ⟨n, i, [], op.args⟩ op).args = op.args) := by
  refine ⟨?_, ?_⟩
  · rw [modReduceMul]
    split
    · exact modReduceOperands_ext t f n i op ha
    · exact Ext.start i
  · intro hk
    rw [modReduceMul, hk]
    simp

end Heir.Mgmt
