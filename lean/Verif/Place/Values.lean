import Verif.Mgmt.Linear
import Verif.Mgmt.Levels
import Verif.Place.Run

/-! # Values, secretness, dimensions and levels of the program with the operations placed -/

namespace Heir.Place
open Heir.Mgmt

theorem erased_mgmt {k : Kind} (h : erased k = true) : k.isMgmt = true := by cases k <;> simp_all [erased, Kind.isMgmt]

/-! ## Removing -/

/-- A sweep finds at the renamed values what it finds in the program with the relinearizations, if they hand on what
they get. -/
theorem erase_run {α : Type} (st : (Nat → α) → Op → α)
    (hren : ∀ (t t' : Nat → α) (σ : Nat → Nat) (op : Op), (op.kind.isMgmt = true → op.args.length = 1) →
      (∀ a ∈ op.args, t' (σ a) = t a) → st t' { op with args := op.args.map σ } = st t op)
    (hrel : ∀ (k : Kind), erased k = true → ∀ (t : Nat → α) (a r : Nat), st t ⟨k, [a], r⟩ = t a) {N : Nat} (ops : List Op) :
    ∀ (P P' : Nat → Prop) (σ : Nat → Nat) (t t' : Nat → α), SSA N P ops → (∀ v, P v → P' (σ v)) →
      (∀ v, P' v → P v) → (∀ v, ¬ P v → σ v = v) → (∀ v, P v → t' (σ v) = t v) →
      ∀ v, (P v ∨ ∃ o ∈ ops, o.res = v) → run st (erase σ ops).2 t' ((erase σ ops).1 v) = run st ops t v := by
  induction ops with
  | nil =>
    rintro P P' σ t t' _ _ _ _ h v (hv | ⟨o, ho, _⟩)
    · exact h v hv
    · simp at ho
  | cons op ops ih =>
    intro P P' σ t t' hs hσ hP hid ht v hv
    obtain ⟨h1, h2, h3, h4, h5, h6⟩ := hs
    have hv' : (P v ∨ v = op.res) ∨ ∃ o ∈ ops, o.res = v := by
      rcases hv with h | ⟨o, ho, h⟩
      · exact Or.inl (Or.inl h)
      · rcases List.mem_cons.1 ho with rfl | ho
        · exact Or.inl (Or.inr h.symm)
        · exact Or.inr ⟨o, ho, h⟩
    rw [erase, run]
    split
    · rename_i hk
      have hl := h4 (erased_mgmt hk)
      obtain ⟨k, args, r⟩ := op
      simp only at hk hl h1 h2 h6 hv'
      match args, hl with
      | [a], _ =>
        refine ih _ P' _ _ t' h6 ?_ (fun u hu => Or.inl (hP u hu)) ?_ ?_ v hv'
        · intro u hu
          by_cases hur : u = r
          · subst hur; rw [upd_eq]; exact hσ a (h1 a (by simp))
          · rw [upd_ne _ _ hur]; exact hσ u (hu.resolve_right hur)
        · intro u hu
          rw [not_or] at hu
          rw [upd_ne _ _ hu.2]
          exact hid u hu.1
        · intro u hu
          by_cases hur : u = r
          · subst hur
            rw [upd_eq, upd_eq, hrel k hk]
            exact ht a (h1 a (by simp))
          · rw [upd_ne _ _ hur, upd_ne _ _ hur]
            exact ht u (hu.resolve_right hur)
    · simp only
      rw [run]
      refine ih _ (fun u => P' u ∨ u = op.res) σ _ _ h6 ?_ ?_ ?_ ?_ v hv'
      · rintro u (hu | rfl)
        · exact Or.inl (hσ u hu)
        · exact Or.inr (hid _ h2)
      · rintro u (hu | rfl)
        · exact Or.inl (hP u hu)
        · exact Or.inr rfl
      · intro u hu
        exact hid u fun h => hu (Or.inl h)
      · intro u hu
        by_cases hur : u = op.res
        · subst hur
          rw [hid _ h2]
          simp only [upd_eq]
          exact hren t t' σ op h4 fun a ha => ht a (h1 a ha)
        · have hu' := hu.resolve_right hur
          have hne : σ u ≠ op.res := fun h => h2 (h ▸ hP _ (hσ u hu'))
          simp only [upd_ne _ _ hur, upd_ne _ _ hne]
          exact ht u hu'

theorem erase_ssa {N : Nat} (ops : List Op) :
    ∀ (P P' : Nat → Prop) (σ : Nat → Nat), SSA N P ops → (∀ v, P v → P' (σ v)) →
      (∀ v, P' v → P v) → (∀ v, ¬ P v → σ v = v) →
      SSA N P' (erase σ ops).2 ∧ ∀ v, (P v ∨ ∃ o ∈ ops, o.res = v) →
        P' ((erase σ ops).1 v) ∨ ∃ o ∈ (erase σ ops).2, o.res = (erase σ ops).1 v := by
  induction ops with
  | nil =>
    intro P P' σ _ hσ _ _
    refine ⟨trivial, ?_⟩
    rintro v (hv | ⟨o, ho, _⟩)
    · exact Or.inl (hσ v hv)
    · simp at ho
  | cons op ops ih =>
    intro P P' σ hs hσ hP hid
    obtain ⟨h1, h2, h3, h4, h5, h6⟩ := hs
    have hv' : ∀ v, (P v ∨ ∃ o ∈ op :: ops, o.res = v) → (P v ∨ v = op.res) ∨ ∃ o ∈ ops, o.res = v := by
      rintro v (h | ⟨o, ho, h⟩)
      · exact Or.inl (Or.inl h)
      · rcases List.mem_cons.1 ho with rfl | ho
        · exact Or.inl (Or.inr h.symm)
        · exact Or.inr ⟨o, ho, h⟩
    rw [erase]
    split
    · rename_i hk
      have hl := h4 (erased_mgmt hk)
      obtain ⟨k, args, r⟩ := op
      simp only at hk hl h1 h2 h6 hv'
      match args, hl with
      | [a], _ =>
        obtain ⟨i1, i2⟩ := ih _ P' (upd σ r (σ a)) h6
          (by intro u hu
              by_cases hur : u = r
              · subst hur; rw [upd_eq]; exact hσ a (h1 a (by simp))
              · rw [upd_ne _ _ hur]; exact hσ u (hu.resolve_right hur))
          (fun u hu => Or.inl (hP u hu))
          (by intro u hu
              rw [not_or] at hu
              rw [upd_ne _ _ hu.2]
              exact hid u hu.1)
        exact ⟨i1, fun v hv => i2 v (hv' v hv)⟩
    · obtain ⟨i1, i2⟩ := ih _ (fun u => P' u ∨ u = op.res) σ h6
        (by rintro u (hu | rfl)
            · exact Or.inl (hσ u hu)
            · exact Or.inr (hid _ h2))
        (by rintro u (hu | rfl)
            · exact Or.inl (hP u hu)
            · exact Or.inr rfl)
        (by intro u hu
            exact hid u fun h => hu (Or.inl h))
      refine ⟨⟨?_, fun h => h2 (hP _ h), h3, by simpa using h4, by simpa using h5, i1⟩, ?_⟩
      · intro a ha
        obtain ⟨b, hb, rfl⟩ := List.mem_map.1 ha
        exact hσ b (h1 b hb)
      · intro v hv
        rcases i2 v (hv' v hv) with (h | h) | ⟨o, ho, h⟩
        · exact Or.inl h
        · exact Or.inr ⟨_, List.mem_cons_self, h.symm⟩
        · exact Or.inr ⟨o, List.mem_cons_of_mem _ ho, h⟩

/-- What is left. -/
theorem erase_mem (ops : List Op) : ∀ σ, ∀ o ∈ (erase σ ops).2, erased o.kind = false ∧
    ∃ op ∈ ops, op.kind = o.kind ∧ op.res = o.res := by
  induction ops with
  | nil => intro σ o ho; simp [erase] at ho
  | cons op ops ih =>
    intro σ o ho
    rw [erase] at ho
    split at ho
    · obtain ⟨h1, op', h2, h3⟩ := ih _ o ho
      exact ⟨h1, op', by simp [h2], h3⟩
    · rename_i hk
      rcases List.mem_cons.1 ho with rfl | ho
      · exact ⟨by simpa using hk, op, by simp, rfl, rfl⟩
      · obtain ⟨h1, op', h2, h3⟩ := ih _ o ho
        exact ⟨h1, op', by simp [h2], h3⟩

theorem erase_ren (ops : List Op) : ∀ σ v, (∀ o ∈ ops, erased o.kind = true → o.res ≠ v) → (erase σ ops).1 v = σ v := by
  induction ops with
  | nil => intro σ v _; rfl
  | cons op ops ih =>
    intro σ v h
    rw [erase]
    split
    · rename_i hk
      rw [ih _ _ fun o ho => h o (by simp [ho]), upd_ne _ _ (h op (by simp) hk).symm]
    · exact ih _ _ fun o ho => h o (by simp [ho])

theorem eraseProg_wf {p : Prog} (hw : p.WF) : (eraseProg p).WF := by
  obtain ⟨h1, h2⟩ := erase_ssa p.ops (· < p.nargs) (· < p.nargs) id hw.ssa (fun _ h => h) (fun _ h => h) (fun _ _ => rfl)
  refine ⟨hw.nargs, h1, ?_⟩
  intro y hy
  obtain ⟨x, hx, rfl⟩ := List.mem_map.1 hy
  exact h2 x (hw.yields x hx)

theorem eraseProg_result {D : Type} {p : Prog} (hw : p.WF) (I : Kind → List D → D) (env : Nat → D) :
    (eraseProg p).result I env = p.result I env := by
  simp only [Prog.result, eraseProg, eval_eq_run, List.map_map]
  apply List.map_congr_left
  intro y hy
  refine erase_run (evalOp I) ?_ (fun k hk t a r => evalOp_mgmt I t (erased_mgmt hk) a r) p.ops (· < p.nargs) (· < p.nargs) id env env
    hw.ssa (fun _ h => h) (fun _ h => h) (fun _ _ => rfl) (fun _ _ => rfl) y (hw.yields y hy)
  intro t t' σ op hm h
  apply evalOp_congr I t t' op _ (by simp) hm
  intro j hj
  have hj' : j < (op.args.map σ).length := by simpa using hj
  rw [List.getD_eq_getElem _ _ hj, List.getD_eq_getElem _ _ hj', List.getElem_map]
  exact (h _ (List.getElem_mem hj)).symm

theorem eraseProg_secs {p : Prog} (hw : p.WF) {v : Nat} (hv : v < p.nargs ∨ ∃ o ∈ (eraseProg p).ops, o.res = v) :
    secs (eraseProg p) v = secs p v := by
  have hren : (erase id p.ops).1 v = v := by
    refine erase_ren p.ops id v fun o ho hk hr => ?_
    rcases hv with hv | ⟨o', ho', hr'⟩
    · exact SSA.res_ne hw.ssa v hv o ho hr
    · obtain ⟨h1, op, h2, h3, h4⟩ := erase_mem p.ops id o' ho'
      have := SSA.inj hw.ssa o ho op h2 (by rw [hr, h4, hr'])
      subst this
      rw [← h3, hk] at h1; exact absurd h1 (by simp)
  have hv' : v < p.nargs ∨ ∃ o ∈ p.ops, o.res = v := by
    rcases hv with hv | ⟨o', ho', hr'⟩
    · exact Or.inl hv
    · obtain ⟨-, op, h2, -, h4⟩ := erase_mem p.ops id o' ho'
      exact Or.inr ⟨op, h2, by rw [h4, hr']⟩
  have := erase_run secStep (fun t t' σ op _ h => by
      simp only [secStep, List.any_map]
      exact any_congr_mem h)
    (fun k _ t a r => by simp [secStep]) p.ops (· < p.nargs) (· < p.nargs) id (secEntry p) (secEntry p)
    hw.ssa (fun _ h => h) (fun _ h => h) (fun _ _ => rfl) (fun _ _ => rfl) v hv'
  rw [hren] at this
  exact this

/-! ## Placing -/

theorem kinds_mgmt (ms : List Mg) : ∀ id, ∀ k ∈ (kinds id ms).2, k.isMgmt = true ∧ k ≠ .relinearize ∧ k ≠ .init ∧
    k ≠ .levelReduceMin := by
  induction ms with
  | nil => intro id k hk; simp [kinds] at hk
  | cons m ms ih =>
    intro id k hk
    cases m <;> simp only [kinds, List.mem_cons] at hk <;> rcases hk with rfl | hk <;>
      first | exact ih _ k hk | simp [Kind.isMgmt]

theorem relinOf_mem {c : Ctx} {op : Op} : ∀ k ∈ relinOf c op, k = .relinearize := by
  unfold relinOf
  split <;> simp

section
variable {o : Opts} {c : Ctx} {p : Prog} {s : Var → ℚ}

theorem edgeKinds_mgmt (op : Op) (i a : Nat) (ks : List Kind) (h : EdgeKinds o c s op i a ks) :
    ∀ k ∈ ks, k.isMgmt = true := by
  obtain ⟨ms, id, _, rfl⟩ := h
  exact fun k hk => (kinds_mgmt ms id k hk).1

theorem nodeKinds_mgmt (op : Op) (ks : List Kind) (h : NodeKinds o c s op ks) : ∀ k ∈ ks, k.isMgmt = true := by
  obtain ⟨ms, id, _, rfl⟩ := h
  intro k hk
  rcases List.mem_append.1 hk with hk | hk
  · rw [relinOf_mem k hk]; rfl
  · exact (kinds_mgmt ms id k hk).1

theorem edgeKinds_free {op : Op} {i a : Nat} {ks : List Kind} (h : EdgeKinds o c s op i a ks)
    (hf : (c.sec op.res && c.sec a) = false) : ks = [] := by
  obtain ⟨ms, id, hm, rfl⟩ := h
  rw [edgeOf, hf, if_neg (by simp)] at hm
  cases hm
  rfl

theorem nodeKinds_free {op : Op} {ks : List Kind} (h : NodeKinds o c s op ks)
    (hf : c.sec op.res = false) : ks = [] := by
  obtain ⟨ms, id, hm, rfl⟩ := h
  rw [nodeOf, hf, if_neg (by simp)] at hm
  cases hm
  simp [relinOf, hf, kinds]

/-- The parts of the placed program. -/
theorem placeProg_some {q : Prog} (h : placeProg o c s p = some q) :
    ∃ n σ ops, placeOps o c s p.next 0 id p.ops = some (n, σ, ops) ∧
      q = { p with ops := ops, yields := p.yields.map σ, next := n } := by
  rw [placeProg, Option.map_eq_some_iff] at h
  obtain ⟨⟨n, σ, ops⟩, h1, h2⟩ := h
  exact ⟨n, σ, ops, h1, h2.symm⟩

theorem placeProg_wf (hw : p.WF) {q : Prog} (h : placeProg o c s p = some q) : q.WF := by
  obtain ⟨n, σ, ops, h1, rfl⟩ := placeProg_some h
  have hem := placeOps_emitted p.ops h1
  have hle := emitted_le hem
  have hlt : ∀ v, v < p.nargs → v < p.next := fun v hv => Nat.lt_of_lt_of_le hv hw.nargs
  obtain ⟨s1, s2⟩ := emitted_ssa (base := p.next) hem edgeKinds_mgmt nodeKinds_mgmt (· < p.nargs) (· < p.nargs)
    (Nat.le_refl _) hw.ssa hlt (GoodRen.id (Nat.le_refl _) _) (fun _ _ => Iff.rfl) (fun _ h => h) hlt
  refine ⟨Nat.le_trans hw.nargs hle, s1, ?_⟩
  intro y hy
  obtain ⟨x, hx, rfl⟩ := List.mem_map.1 hy
  exact s2 x (hw.yields x hx)

/-- An execution with a function is its run. -/
theorem execR_run {α : Type} {st : (Nat → α) → Op → α} {Post : (Nat → α) → Op → Prop} {t t' : Nat → α} {ops : List Op}
    (h : ExecR (fun t op x => x = st t op ∧ Post t op) t ops t') : AllSteps st Post ops t ∧ t' = run st ops t := by
  induction h with
  | nil t => exact ⟨trivial, rfl⟩
  | cons t t' op ops x h1 _ ih =>
    obtain ⟨rfl, h2⟩ := h1
    exact ⟨⟨h2, ih.1⟩, ih.2⟩

theorem getD_of_getElem? {l : List Nat} {j a : Nat} (h : l[j]? = some a) : l.getD j 0 = a := by
  obtain ⟨hlt, hj'⟩ := List.getElem?_eq_some_iff.1 h
  rw [List.getD_eq_getElem _ _ hlt]
  exact hj'

theorem placeProg_result {D : Type} (hw : p.WF) {q : Prog} (h : placeProg o c s p = some q) (I : Kind → List D → D)
    (env : Nat → D) : q.result I env = p.result I env := by
  obtain ⟨n, σ, ops, h1, rfl⟩ := placeProg_some h
  have hem := placeOps_emitted p.ops h1
  have hpath : ∀ (ks : List Kind), (∀ k ∈ ks, k.isMgmt = true) → ∀ x : D,
      Path (fun t op x => x = evalOp I t op ∧ True) ks x x := by
    intro ks
    induction ks with
    | nil => intro _ x; rfl
    | cons k ks ih =>
      intro hk x
      exact ⟨x, fun t u r ht => ⟨by rw [evalOp_mgmt I t (hk k (by simp))]; exact ht.symm, trivial⟩,
        ih (fun k h => hk k (by simp [h])) x⟩
  obtain ⟨t', e1, e2⟩ := emitted_sim (S := fun t op x => x = evalOp I t op ∧ True)
    (V := fun v x => x = run (evalOp I) p.ops env v)
    (W := fun op j x => x = run (evalOp I) p.ops env (op.args.getD j 0)) (base := p.next) hem
    (by intro op hop j a ks x hj hks hx
        refine ⟨x, hpath ks (edgeKinds_mgmt _ _ _ _ hks) x, ?_⟩
        rw [getD_of_getElem? hj]
        exact hx)
    (by intro op hop ks t args hks hlen hW
        obtain ⟨t'', _, f1, f2⟩ := final_of_allSteps (evalOp I) (fun _ _ => True) p.ops _ env hw.ssa
          (allSteps_true _ _ _) op hop
        refine ⟨_, _, ⟨rfl, trivial⟩, hpath ks (nodeKinds_mgmt _ _ hks) _, ?_⟩
        rw [← f2]
        refine evalOp_congr I t'' t op args hlen (SSA.arity hw.ssa op hop).1 ?_
        intro j hj
        have hj' : j < args.length := by omega
        rw [f1 _ (getD_mem hj), ← hW j (args.getD j 0) (by rw [List.getD_eq_getElem _ _ hj']; exact List.getElem?_eq_getElem hj')])
    (· < p.nargs) env (Nat.le_refl _) hw.ssa (fun v hv => Nat.lt_of_lt_of_le hv hw.nargs)
    (GoodRen.id (Nat.le_refl _) _) (by
      intro v hv
      rw [run_of_not_res]
      · rfl
      · exact fun o ho h => SSA.res_ne hw.ssa v hv o ho h)
  simp only [Prog.result, eval_eq_run, List.map_map]
  apply List.map_congr_left
  intro y hy
  have := e2 y (hw.yields y hy)
  rw [(execR_run e1).2] at this
  exact this

/-! ## Dimensions -/

theorem sdStep_chain {k : Kind} (hk : k ≠ .relinearize) (hm : k ≠ .mul) {t : Nat → Bool × Option Nat} {u r : Nat}
    (h : t u = (true, some 2)) : sdStep t ⟨k, [u], r⟩ = (true, some 2) := by
  simp [sdStep, h, hk, hm, deriveDim]

theorem sd_path (ks : List Kind) (h : ∀ k ∈ ks, k ≠ .relinearize ∧ k ≠ .mul) :
    Path (fun t op x => x = sdStep t op ∧ LinPost t op) ks (true, some 2) (true, some 2) := by
  induction ks with
  | nil => rfl
  | cons k ks ih =>
    refine ⟨(true, some 2), fun t u r ht => ⟨(sdStep_chain (h k (by simp)).1 (h k (by simp)).2 ht).symm, ?_⟩,
      ih fun k hk => h k (by simp [hk])⟩
    intro _ a ha _
    simp only [List.mem_singleton] at ha
    rw [ha, ht]

theorem kinds_path (id : Nat) (ms : List Mg) :
    Path (fun t op x => x = sdStep t op ∧ LinPost t op) (kinds id ms).2 (true, some 2) (true, some 2) := by
  apply sd_path
  intro k hk
  obtain ⟨h1, h2, _⟩ := kinds_mgmt ms id k hk
  refine ⟨h2, ?_⟩
  rintro rfl
  simp [Kind.isMgmt] at h1

theorem secs_arg {p : Prog} (hw : p.WF) {v : Nat} (hv : v < p.nargs) : secs p v = p.secArg v := by
  rw [secs, run_of_not_res]
  · simp [secEntry, hv]
  · exact fun o ho h => SSA.res_ne hw.ssa v hv o ho h

theorem sec_args_any {c : Ctx} {op : Op} {args : List Nat} {g : Nat → Bool} (hlen : args.length = op.args.length)
    (h : ∀ j a, args[j]? = some a → g a = c.sec (op.args.getD j 0)) : args.map g = op.args.map c.sec := by
  apply List.ext_getElem
  · simp [hlen]
  · intro j h1 h2
    simp only [List.length_map] at h1 h2
    have := h j _ (List.getElem?_eq_getElem h1)
    rw [List.getD_eq_getElem _ _ h2] at this
    simpa using this

/-- Products of two ciphertexts are relinearized before anything else sees them. -/
theorem placeProg_linear (ht : Told c p) (hsec : ∀ v < p.nargs, c.sec v = p.secArg v)
    (ha2 : ∀ op ∈ p.ops, op.kind = .mul → op.args.length = 2) (cfg : Cfg) {q : Prog}
    (h : placeProg o c s p = some q) :
    Linear cfg q ∧ ∃ σ : Nat → Nat, q.yields = p.yields.map σ ∧ ∀ v, IsVal p v → secs q (σ v) = c.sec v := by
  have hw := ht.wf
  have hwq := placeProg_wf hw h
  obtain ⟨n, σ, ops, h1, rfl⟩ := placeProg_some h
  have hem := placeOps_emitted p.ops h1
  obtain ⟨t', e1, e2⟩ := emitted_sim (S := fun t op x => x = sdStep t op ∧ LinPost t op)
    (V := fun v x => x.1 = c.sec v ∧ (c.sec v = true → x.2 = some 2))
    (W := fun op j x => x.1 = c.sec (op.args.getD j 0) ∧ (c.sec (op.args.getD j 0) = true → x.2 = some 2))
    (base := p.next) hem
    (by intro op hop j a ks x hj hks hx
        rw [getD_of_getElem? hj]
        cases hb : (c.sec op.res && c.sec a)
        · rw [edgeKinds_free hks hb]
          exact ⟨x, rfl, hx⟩
        · rw [Bool.and_eq_true] at hb
          obtain ⟨ms, id, _, rfl⟩ := hks
          have : x = (true, some 2) := Prod.ext (hx.1.trans hb.2) (hx.2 hb.2)
          rw [this]
          exact ⟨_, kinds_path id ms, hb.2.symm, fun _ => rfl⟩)
    (by intro op hop ks t args hks hlen hW
        have hmap := sec_args_any (c := c) (g := fun a => (t a).1) hlen fun j a hj => (hW j a hj).1
        have hany : (args.any fun a => (t a).1) = c.sec op.res := by
          rw [ht.sec op hop]
          have := congrArg (fun l : List Bool => l.any id) hmap
          simpa [List.any_map, Function.comp_def] using this
        have hdim : ∀ a ∈ args, (t a).1 = true → (t a).2 = some 2 := by
          intro a ha hs
          obtain ⟨j, hj⟩ := List.getElem?_of_mem ha
          obtain ⟨w1, w2⟩ := hW j a hj
          exact w2 (w1 ▸ hs)
        have hpost : LinPost t { op with args := args } := fun _ => hdim
        cases hs : c.sec op.res
        · rw [nodeKinds_free hks hs]
          refine ⟨_, _, ⟨rfl, hpost⟩, rfl, ?_, by simp⟩
          show (args.any fun a => (t a).1) = false
          rw [hany, hs]
        · have hkr : op.kind ≠ .relinearize := by
            intro hk
            have := (ht.kind op hop).1
            simp [hk, erased] at this
          have hstep : ∀ d, (deriveDim (op.kind = .mul) ((args.filter fun a => (t a).1).map fun a => (t a).2) = d) →
              sdStep t { op with args := args } = (true, d) := by
            intro d hd
            simp only [sdStep, hkr, if_false, hany, hs, if_true, hd]
          have hall : ∀ x ∈ (args.filter fun a => (t a).1).map (fun a => (t a).2), x = some 2 := by
            intro x hx
            obtain ⟨a, ha, rfl⟩ := List.mem_map.1 hx
            obtain ⟨ha1, ha2⟩ := List.mem_filter.1 ha
            exact hdim a ha1 ha2
          obtain ⟨ms, id, _, rfl⟩ := hks
          have hfin : ∀ x, Path (fun t op x => x = sdStep t op ∧ LinPost t op) (relinOf c op) x (true, some 2) →
              x = sdStep t { op with args := args } → ∃ x y, (x = sdStep t { op with args := args } ∧
                LinPost t { op with args := args }) ∧
                Path (fun t op x => x = sdStep t op ∧ LinPost t op) (relinOf c op ++ (kinds id ms).2) x y ∧
                y.1 = true ∧ (true = true → y.2 = some 2) := by
            intro x hx hxe
            exact ⟨x, _, ⟨hxe, hpost⟩, path_append hx (kinds_path id ms), rfl, fun _ => rfl⟩
          by_cases hm : op.kind = .mul
          · have hl2 := ha2 op hop hm
            have hla : args.length = 2 := by omega
            obtain ⟨a, b, rfl⟩ := List.length_eq_two.1 hla
            obtain ⟨a', b', hab⟩ := List.length_eq_two.1 hl2
            rw [hab] at hmap
            simp only [List.map_cons, List.map_nil, List.cons.injEq, and_true] at hmap
            cases hA : (t a).1 <;> cases hB : (t b).1
            · rw [hs] at hany
              simp [hA, hB] at hany
            · refine hfin (true, some 2) ?_ (hstep _ ?_).symm
              · have : relinOf c op = [] := by
                  simp [relinOf, hab, ← hmap.1, hA]
                rw [this]
                rfl
              · simp [hA, hB, hdim b (by simp) hB, hm, deriveDim]
            · refine hfin (true, some 2) ?_ (hstep _ ?_).symm
              · have : relinOf c op = [] := by
                  simp [relinOf, hab, ← hmap.2, hB]
                rw [this]
                rfl
              · simp [hA, hB, hdim a (by simp) hA, hm, deriveDim]
            · refine hfin (true, some 3) ?_ (hstep _ ?_).symm
              · have : relinOf c op = [.relinearize] := by
                  simp [relinOf, hab, ← hmap.2, ← hmap.1, hB, hA, hm, hs]
                rw [this]
                refine ⟨(true, some 2), fun t u r ht => ⟨?_, fun hk => absurd rfl hk⟩, rfl⟩
                simp [sdStep, ht]
              · simp [hA, hB, hdim a (by simp) hA, hdim b (by simp) hB, hm, deriveDim]
          · refine hfin (true, some 2) ?_ (hstep _ ?_).symm
            · have : relinOf c op = [] := by simp [relinOf, hm]
              rw [this]
              rfl
            · simp only [hm, decide_false]
              exact deriveDim_two _ hall)
    (· < p.nargs) (sdEntry p) (Nat.le_refl _) hw.ssa (fun v hv => Nat.lt_of_lt_of_le hv hw.nargs)
    (GoodRen.id (Nat.le_refl _) _) (by
      intro v hv
      simp only [sdEntry, factEntry, id, hv, if_true, hsec v hv]
      exact ⟨trivial, fun h => by simp [h]⟩)
  obtain ⟨r1, r2⟩ := execR_run e1
  have hsd : ∀ v, IsVal p v → (sds { p with ops := ops, yields := p.yields.map σ, next := n } (σ v)).1 = c.sec v ∧
      (c.sec v = true → (sds { p with ops := ops, yields := p.yields.map σ, next := n } (σ v)).2 = some 2) := by
    intro v hv
    have := e2 v hv
    rw [r2] at this
    exact this
  refine ⟨(linear_iff cfg hwq).2 ⟨r1, ?_⟩, σ, rfl, fun v hv => ?_⟩
  · intro y hy hs
    obtain ⟨x, hx, rfl⟩ := List.mem_map.1 hy
    have := hsd x (hw.yields x hx)
    exact this.2 (this.1 ▸ hs)
  · rw [← facts_sec cfg, facts_sd1, (hsd v hv).1]

end
end Heir.Place
