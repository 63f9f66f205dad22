import Verif.Mgmt.Secret

/-! # Relinearization -/

namespace Heir.Mgmt

/-- Secretness and dimension. -/
def sdStep (t : Nat → Bool × Option Nat) (op : Op) : Bool × Option Nat :=
  (op.args.any fun a => (t a).1,
    if op.kind = .relinearize then some 2
    else if op.args.any fun a => (t a).1 then
      deriveDim (op.kind = .mul) ((op.args.filter fun a => (t a).1).map fun a => (t a).2)
    else none)

def sdEntry (p : Prog) (v : Nat) : Bool × Option Nat := ((factEntry p v).sec, (factEntry p v).dim)

def sds (p : Prog) : Nat → Bool × Option Nat := run sdStep p.ops (sdEntry p)

theorem facts_sd (cfg : Cfg) (p : Prog) (v : Nat) : ((facts cfg p v).sec, (facts cfg p v).dim) = sds p v := by
  rw [facts, sds]
  exact run_proj (fun f : Fact => (f.sec, f.dim)) (factStep cfg) sdStep (fun t op => rfl) p.ops (factEntry p) v

theorem facts_sd1 (cfg : Cfg) (p : Prog) (v : Nat) : (facts cfg p v).sec = (sds p v).1 := by
  rw [← facts_sd cfg]

theorem facts_sd2 (cfg : Cfg) (p : Prog) (v : Nat) : (facts cfg p v).dim = (sds p v).2 := by
  rw [← facts_sd cfg]

/-- What linearity says at one operation. -/
def LinPost (t : Nat → Bool × Option Nat) (op : Op) : Prop :=
  op.kind ≠ .relinearize → ∀ a ∈ op.args, (t a).1 = true → (t a).2 = some 2

theorem linear_iff (cfg : Cfg) {p : Prog} (hw : p.WF) :
    Linear cfg p ↔ AllSteps sdStep LinPost p.ops (sdEntry p) ∧
      ∀ y ∈ p.yields, (sds p y).1 = true → (sds p y).2 = some 2 := by
  simp only [Linear, facts_sd1 cfg, facts_sd2 cfg]
  refine and_congr ⟨?_, ?_⟩ Iff.rfl
  · intro h
    refine allSteps_of_final sdStep LinPost (LinPost (sds p)) p.ops _ _ hw.ssa ?_ h
    intro op _ h t' ha _ hk a hm
    rw [ha a hm]
    exact h hk a hm
  · intro h op hop hk a ha
    obtain ⟨t', h1, h2, _⟩ := final_of_allSteps sdStep LinPost p.ops _ _ hw.ssa h op hop
    have := h1 hk a ha
    rwa [h2 a ha] at this

theorem deriveDim_two (l : List (Option Nat)) (h : ∀ x ∈ l, x = some 2) : deriveDim false l = some 2 := by
  induction l with
  | nil => rfl
  | cons x l ih =>
    have : deriveDim false (some 2 :: l) = deriveDim false l := by simp [deriveDim]
    rw [h x (by simp), this]
    exact ih fun x hx => h x (by simp [hx])

/-- The relinearization walk. -/
theorem relin_linear {T : Nat → Bool} {Pd : Nat → Prop} {base : Nat} (hT : ∀ v, T v = true → v < base)
    {hit : Op → Bool} (hhit : ∀ op, hit op = (decide (op.kind = .mul) && T op.res && op.args.all T))
    (ops : List Op) :
    ∀ (P : Nat → Prop) (n : Nat) (σ : Nat → Nat) (t' : Nat → Bool × Option Nat),
      base ≤ n → SSA base P ops → (∀ v, P v → v < base) → GoodRen base n P σ →
      (∀ op ∈ ops, T op.res = op.args.any T) →
      (∀ op ∈ ops, op.kind = .mul → (∀ a ∈ op.args, T a = true) → Pd op.res) →
      (∀ op ∈ ops, op.kind = .mul → (∀ a ∈ op.args, T a = true) → ∀ a ∈ op.args, ¬ Pd a) →
      (∀ v, P v → σ v = v ∨ Pd v) →
      (∀ v, P v → (t' (σ v)).1 = T v ∧ (T v = true → (t' (σ v)).2 = some 2)) →
      AllSteps sdStep LinPost (after .relinearize hit n σ ops).2.2 t' ∧
        ∀ v, (P v ∨ ∃ o ∈ ops, o.res = v) → T v = true →
          (run sdStep (after .relinearize hit n σ ops).2.2 t' ((after .relinearize hit n σ ops).2.1 v)).2 = some 2 := by
  induction ops with
  | nil =>
    intro P n σ t' _ _ _ _ _ _ _ _ h
    refine ⟨trivial, ?_⟩
    rintro v (hv | ⟨o, ho, _⟩) hTv
    · exact (h v hv).2 hTv
    · simp at ho
  | cons op ops ih =>
    intro P n σ t' hb hs hP hσ hTo hPd hApart hσP ht
    obtain ⟨h1, h2, h3, h4, h5, h6⟩ := hs
    have hP' : ∀ v, P v ∨ v = op.res → v < base := by
      rintro v (h | rfl)
      · exact hP v h
      · exact h3
    have hres : σ op.res = op.res := by
      rcases hσ.cases op.res with h | ⟨_, h⟩
      · exact h
      · exact absurd h h2
    have hne : ∀ v, P v → σ v ≠ op.res := by
      intro v hv h
      rcases hσ.cases v with h' | ⟨h', _⟩
      · rw [h'] at h; subst h; exact h2 hv
      · omega
    have hmem : ∀ v, (P v ∨ ∃ o ∈ op :: ops, o.res = v) → ((P v ∨ v = op.res) ∨ ∃ o ∈ ops, o.res = v) := by
      rintro v (hv | ⟨o, ho, h⟩)
      · exact Or.inl (Or.inl hv)
      · rcases List.mem_cons.1 ho with rfl | ho
        · exact Or.inl (Or.inr h.symm)
        · exact Or.inr ⟨o, ho, h⟩
    -- the operation with its operands renamed
    have hpost : LinPost t' { op with args := op.args.map σ } := by
      intro _ a ha
      obtain ⟨b, hb', rfl⟩ := List.mem_map.1 ha
      obtain ⟨q1, q2⟩ := ht b (h1 b hb')
      rw [q1]; exact q2
    have hsec : (sdStep t' { op with args := op.args.map σ }).1 = T op.res := by
      rw [hTo op (by simp)]
      simp only [sdStep, List.any_map]
      exact any_congr_mem fun a ha => (ht a (h1 a ha)).1
    rw [after]
    simp only
    split
    · rename_i hh
      rw [hhit] at hh
      simp only [Bool.and_eq_true, decide_eq_true_eq, List.all_eq_true] at hh
      obtain ⟨⟨hk, hTr⟩, hall⟩ := hh
      have hall' : ∀ a ∈ op.args, T a = true := by
        intro a ha
        have := hall (σ a) (List.mem_map.2 ⟨a, ha, rfl⟩)
        rcases hσ.cases a with h | ⟨h, _⟩
        · rwa [h] at this
        · have := hT _ this; omega
      obtain ⟨i1, i2⟩ := ih (fun v => P v ∨ v = op.res) (n + 1) (upd σ op.res n)
        (upd (upd t' op.res (sdStep t' { op with args := op.args.map σ })) n
          (sdStep (upd t' op.res (sdStep t' { op with args := op.args.map σ })) ⟨.relinearize, [op.res], n⟩))
        (by omega) h6 hP' (hσ.upd hb op.res) (fun o ho => hTo o (by simp [ho]))
        (fun o ho => hPd o (by simp [ho])) (fun o ho => hApart o (by simp [ho]))
        (by
          intro v hv
          by_cases hr : v = op.res
          · subst hr; exact Or.inr (hPd op (by simp) hk hall')
          · rw [upd_ne _ _ hr]; exact hσP v (hv.resolve_right hr))
        (by
          intro v hv
          by_cases hr : v = op.res
          · subst hr
            rw [upd_eq, upd_eq]
            refine ⟨?_, fun _ => by simp [sdStep]⟩
            have : (sdStep (upd t' op.res (sdStep t' { op with args := op.args.map σ }))
                ⟨.relinearize, [op.res], n⟩).1 = (sdStep t' { op with args := op.args.map σ }).1 := by
              simp only [sdStep, List.any_cons, List.any_nil, Bool.or_false, upd_eq]
            rw [this, hsec]
          · have hv' := hv.resolve_right hr
            have hlt := hσ.lt v (hP v hv')
            have hn : σ v ≠ n := by omega
            rw [upd_ne _ _ hr, upd_ne _ _ hn, upd_ne _ _ (hne v hv')]
            exact ht v hv')
      refine ⟨⟨hpost, fun h => absurd rfl h, i1⟩, ?_⟩
      intro v hv
      exact i2 v (hmem v hv)
    · rename_i hh
      have hdim : T op.res = true → (sdStep t' { op with args := op.args.map σ }).2 = some 2 := by
        intro hTr
        by_cases hkr : op.kind = .relinearize
        · simp [sdStep, hkr]
        have hsec' : ((op.args.map σ).any fun a => (t' a).1) = true := by
          rw [← hTr, ← hsec]; rfl
        have hall2 : ∀ x ∈ ((op.args.map σ).filter fun a => (t' a).1).map fun a => (t' a).2, x = some 2 := by
          intro x hx
          obtain ⟨a, ha, rfl⟩ := List.mem_map.1 hx
          rw [List.mem_filter] at ha
          exact hpost hkr a ha.1 ha.2
        simp only [sdStep, if_neg hkr, hsec', if_true]
        by_cases hk : op.kind = .mul
        · have hl := h5 (Or.inr (Or.inr hk))
          obtain ⟨a, b, hab⟩ : ∃ a b, op.args = [a, b] := by
            match hargs : op.args, hl with
            | [a, b], _ => exact ⟨a, b, rfl⟩
          have hPa := h1 a (by simp [hab])
          have hPb := h1 b (by simp [hab])
          -- exactly one operand is secret
          have hone : ¬ (T a = true ∧ T b = true) := by
            rintro ⟨hTa, hTb⟩
            have hall' : ∀ c ∈ op.args, T c = true := by
              rw [hab]; intro c hc; simp at hc; rcases hc with rfl | rfl <;> assumption
            have hno := hApart op (by simp) hk hall'
            have ea := (hσP a hPa).resolve_right (hno a (by simp [hab]))
            have eb := (hσP b hPb).resolve_right (hno b (by simp [hab]))
            apply hh
            rw [hhit]
            simp [hk, hTr, hab, ea, eb, hTa, hTb]
          obtain ⟨qa1, qa2⟩ := ht a hPa
          obtain ⟨qb1, qb2⟩ := ht b hPb
          have hor : T a = true ∨ T b = true := by
            rw [hTo op (by simp), hab] at hTr
            simpa using hTr
          rw [hab, hk]
          rcases hor with h | h
          · have hb0 : T b = false := by
              cases hc : T b with
              | false => rfl
              | true => exact absurd ⟨h, hc⟩ hone
            simp [qa1, qb1, h, hb0, qa2 h, deriveDim]
          · have ha0 : T a = false := by
              cases hc : T a with
              | false => rfl
              | true => exact absurd ⟨hc, h⟩ hone
            simp [qa1, qb1, h, ha0, qb2 h, deriveDim]
        · rw [decide_eq_false hk]
          exact deriveDim_two _ hall2
      obtain ⟨i1, i2⟩ := ih (fun v => P v ∨ v = op.res) n σ
        (upd t' op.res (sdStep t' { op with args := op.args.map σ }))
        hb h6 hP' (hσ.mono (Nat.le_refl _) fun _ h => Or.inl h) (fun o ho => hTo o (by simp [ho]))
        (fun o ho => hPd o (by simp [ho])) (fun o ho => hApart o (by simp [ho]))
        (by
          rintro v (hv | rfl)
          · exact hσP v hv
          · exact Or.inl hres)
        (by
          rintro v (hv | rfl)
          · rw [upd_ne _ _ (hne v hv)]; exact ht v hv
          · rw [hres, upd_eq]; exact ⟨hsec, hdim⟩)
      refine ⟨⟨hpost, i1⟩, ?_⟩
      intro v hv
      exact i2 v (hmem v hv)

theorem relinearize_linear (cfg : Cfg) {p : Prog} (hw : p.WF) (h : ProductsApart cfg p) :
    Linear cfg (relinearize cfg p) := by
  have hw' : (relinearize cfg p).WF := afterProg_wf rfl _ hw
  have hlt : ∀ v, v < p.nargs → v < p.next := fun v hv => Nat.lt_of_lt_of_le hv hw.nargs
  simp only [ProductsApart, facts_sec] at h
  obtain ⟨h1, h2⟩ := relin_linear (T := secs p)
    (Pd := fun v => ∃ op ∈ p.ops, op.res = v ∧ op.kind = .mul ∧ ∀ a ∈ op.args, secs p a = true)
    (base := p.next)
    (fun v hv => by
      rcases Nat.lt_or_ge v p.next with h | h
      · exact h
      · rw [secs_fresh hw h] at hv; exact absurd hv (by simp))
    (hit := fun op => op.kind = .mul && (facts cfg p op.res).sec && op.args.all fun a => (facts cfg p a).sec)
    (fun op => by simp only [facts_sec])
    p.ops (· < p.nargs) p.next id (sdEntry p) (Nat.le_refl _) hw.ssa hlt (GoodRen.id (Nat.le_refl _) _)
    (fun op hop => secs_res hw hop) (fun op hop hk ha => ⟨op, hop, rfl, hk, ha⟩)
    (by rintro op hop hk ha a hmem ⟨op', h1, rfl, h2, h3⟩
        exact h op hop hk ha op' h1 h2 h3 hmem)
    (fun v _ => Or.inl rfl)
    (by intro v hv
        have : secs p v = p.secArg v := by
          rw [secs, run_of_not_res _ _ _ _ (hw.ssa.res_ne v hv), secEntry, if_pos hv]
        rw [this]
        simp only [id, sdEntry, factEntry, if_pos hv]
        refine ⟨trivial, fun h => by rw [if_pos h]⟩)
  rw [linear_iff cfg hw']
  refine ⟨h1, ?_⟩
  intro y hy hs
  obtain ⟨x, hx, rfl⟩ := List.mem_map.1 hy
  refine h2 x (hw.yields x hx) ?_
  have hsec := (after_secs (k := .relinearize)
    (fun op => op.kind = .mul && (facts cfg p op.res).sec && op.args.all fun a => (facts cfg p a).sec)
    p.ops (· < p.nargs) p.next id (secEntry p) (secEntry p) (Nat.le_refl _) hw.ssa hlt
    (GoodRen.id (Nat.le_refl _) _) (fun _ _ => ⟨rfl, rfl⟩) x (hw.yields_lt x hx)).2
  rw [secs, ← hsec]
  rw [← facts_sd1 cfg, facts_sec] at hs
  exact hs

/-- Linearity survives the insertion of chains of unary operations that are not relinearizations. -/
theorem InsProg.linear {K S p q} (cfg : Cfg) (h : InsProg K S p q) (hK : ∀ k, K k → k.isMgmt = true) (hw : p.WF)
    (hl : Linear cfg p) : Linear cfg q := by
  have hw' := h.wf hK hw
  rw [linear_iff cfg hw] at hl
  rw [linear_iff cfg hw']
  have he : sdEntry q = sdEntry p := by
    funext v; simp only [sdEntry, factEntry, h.nargs, h.secArg]
  obtain ⟨r1, r2⟩ := h.ins.run sdStep (fun _ op x y => y.1 = x.1 ∧ (op.kind ≠ .relinearize → y.1 = true → y.2 = some 2))
    LinPost LinPost (Nat.le_refl _) hw.ids (fun t op _ hp a ha => ⟨rfl, fun hk => hp hk a ha⟩)
    (by
      intro k hk t op _ _ a _ _ t' u r ⟨q1, q2⟩
      have e1 : (sdStep t' ⟨k, [u], r⟩).1 = (t' u).1 := by simp [sdStep]
      refine ⟨by rw [e1, q1], fun hr hs => ?_⟩
      rw [e1] at hs
      by_cases hkr : k = .relinearize
      · simp [sdStep, hkr]
      · have hkm : k ≠ .mul := by rintro rfl; have := hK _ hk; simp [Kind.isMgmt] at this
        simp [sdStep, hkr, hs, hkm, q2 hr hs, deriveDim])
    (by
      intro k hk t op _ hr _ a _ _ t' u r ⟨q1, q2⟩ _ b hb
      simp only [List.mem_singleton] at hb
      subst hb
      exact q2 hr)
    (by
      intro t t' op args' _ hp hlen hrel _ hj
      have hpost : LinPost t' { op with args := args' } := by
        intro hk a ha
        obtain ⟨j, hjl, rfl⟩ := List.mem_iff_getElem.1 ha
        simp only at hjl
        have := (hj j (by omega)).2 hk
        rwa [List.getD_eq_getElem _ _ hjl] at this
      refine ⟨?_, hpost⟩
      have hany : (args'.any fun a => (t' a).1) = op.args.any fun a => (t a).1 :=
        any_congr_getD (fun a => (t a).1) (fun a => (t' a).1) hlen fun j hjl => ((hj j hjl).1).symm
      simp only [sdStep, hany]
      congr 1
      by_cases hk : op.kind = .relinearize
      · rw [if_pos hk, if_pos hk]
      rw [if_neg hk, if_neg hk]
      congr 1
      have e : ∀ (l : List Nat) (t : Nat → Bool × Option Nat), (∀ a ∈ l, (t a).1 = true → (t a).2 = some 2) →
          (l.filter fun a => (t a).1).map (fun a => (t a).2) =
            ((l.map fun a => (t a).1).filter id).map fun _ => some 2 := by
        intro l t
        induction l with
        | nil => intro _; rfl
        | cons a l ih =>
          intro h
          have ih' := ih fun a ha => h a (by simp [ha])
          cases hc : (t a).1 with
          | false => simp [hc, ih']
          | true => simp [hc, ih', h a (by simp) hc]
      rw [e _ _ (hpost hk), e _ _ (hp hk), map_congr_getD (fun a => (t a).1) (fun a => (t' a).1) hlen
        fun j hjl => ((hj j hjl).1).symm])
    (sdEntry p) (sdEntry q) (fun _ _ => by rw [he]) hl.1
  refine ⟨r2, ?_⟩
  rw [h.yields]
  intro y hy
  rw [sds, r1 y (hw.yields_lt y hy)]
  exact hl.2 y hy

end Heir.Mgmt
