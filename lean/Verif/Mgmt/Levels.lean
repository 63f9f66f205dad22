import Verif.Mgmt.Secret

/-! # Levels -/

namespace Heir.Mgmt

/-! ## The order of levels -/

def Level.le : Level → Level → Bool
  | .uninit, _ => true
  | .int a, .int b => a ≤ b
  | .int _, .uninit => false
  | .int _, _ => true
  | .maxLevel, .maxLevel => true
  | .maxLevel, .invalid => true
  | .invalid, .invalid => true
  | _, _ => false

theorem Level.join_eq (a b : Level) : a.join b = if a.le b then b else a := by
  cases a <;> cases b <;> simp [Level.join, Level.le]
  rename_i a b
  by_cases h : a ≤ b
  · rw [if_pos h, Nat.max_eq_right h]
  · rw [if_neg h, Nat.max_eq_left (by omega)]

theorem Level.le_refl' (a : Level) : a.le a = true := by cases a <;> simp [Level.le]

theorem Level.le_trans' {a b c : Level} (h1 : a.le b = true) (h2 : b.le c = true) : a.le c = true := by
  cases a <;> cases b <;> cases c <;> simp [Level.le] at h1 h2 ⊢
  omega

theorem Level.le_antisymm' {a b : Level} (h1 : a.le b = true) (h2 : b.le a = true) : a = b := by
  cases a <;> cases b <;> simp [Level.le] at h1 h2 ⊢
  omega

theorem Level.le_total' (a b : Level) (h : ¬ a.le b = true) : b.le a = true := by
  cases a <;> cases b <;> simp [Level.le] at h ⊢
  omega

theorem Level.foldl_spec (ls : List Level) : ∀ a : Level,
    a.le (ls.foldl Level.join a) = true ∧ (∀ x ∈ ls, x.le (ls.foldl Level.join a) = true) ∧
      (ls.foldl Level.join a = a ∨ ls.foldl Level.join a ∈ ls) := by
  induction ls with
  | nil => intro a; exact ⟨a.le_refl', by simp, Or.inl rfl⟩
  | cons x ls ih =>
    intro a
    rw [List.foldl_cons]
    obtain ⟨h1, h2, h3⟩ := ih (a.join x)
    rw [Level.join_eq] at h1 h2 h3 ⊢
    by_cases hax : a.le x = true
    · rw [if_pos hax] at h1 h2 h3 ⊢
      refine ⟨Level.le_trans' hax h1, ?_, Or.inr ?_⟩
      · intro y hy
        rcases List.mem_cons.1 hy with rfl | hy
        · exact h1
        · exact h2 y hy
      · rcases h3 with h | h
        · rw [h]; simp
        · simp [h]
    · rw [if_neg hax] at h1 h2 h3 ⊢
      refine ⟨h1, ?_, ?_⟩
      · intro y hy
        rcases List.mem_cons.1 hy with rfl | hy
        · exact Level.le_trans' (Level.le_total' _ _ hax) h1
        · exact h2 y hy
      · exact h3.imp_right fun h => by simp [h]

theorem Level.foldl_eq {ls : List Level} {R : Level} (h1 : R ∈ ls) (h2 : ∀ x ∈ ls, x.le R = true) :
    ls.foldl Level.join .uninit = R := by
  obtain ⟨_, a2, a3⟩ := Level.foldl_spec ls .uninit
  refine Level.le_antisymm' ?_ (a2 R h1)
  rcases a3 with h | h
  · rw [h]; rfl
  · exact h2 _ h

/-- The operand has to be brought to the level of the result. -/
def mism : Level → Level → Bool
  | .int r, .int l => l < r
  | .maxLevel, .int _ => true
  | _, _ => false

theorem mism_le {R l : Level} (h : mism R l = true) : l.le R = true ∧ R ≠ .invalid ∧ l ≠ R := by
  cases R <;> cases l <;> simp [mism, Level.le] at h ⊢
  omega

theorem eq_of_not_mism {R l : Level} (h : mism R l = false) (hle : l.le R = true) (hR : R ≠ .invalid)
    (hl : l ≠ .uninit) : l = R := by
  cases R <;> cases l <;> simp [mism, Level.le] at h hle hR hl ⊢
  omega

theorem clamp_clamp (b : Nat) (l : Level) : clamp b (clamp b l) = clamp b l := by
  cases l with
  | int n =>
    by_cases h : n > b
    · simp [clamp, h]
    · simp [clamp, h]
  | _ => rfl

/-- A level that is not changed by the budget. -/
def Fits (b : Nat) (l : Level) : Prop := clamp b l = l

theorem clamp_eq {b : Nat} {l : Level} (h : clamp b l ≠ .invalid) : clamp b l = l := by
  cases l <;> simp only [clamp] at h ⊢
  split at h
  · exact absurd rfl h
  · rename_i hc; rw [if_neg hc]

/-! ## Secretness and level -/

def slStep (cfg : Cfg) (t : Nat → Bool × Level) (op : Op) : Bool × Level :=
  (op.args.any fun a => (t a).1,
    if op.kind = .init ∨ (op.args.any fun a => (t a).1) then
      clamp cfg.budget (deriveLevel cfg.consumed op.kind (op.args.map fun a => (t a).2))
    else .uninit)

def slEntry (p : Prog) (v : Nat) : Bool × Level := ((factEntry p v).sec, (factEntry p v).lvl)

def sls (cfg : Cfg) (p : Prog) : Nat → Bool × Level := run (slStep cfg) p.ops (slEntry p)

theorem facts_sl (cfg : Cfg) (p : Prog) (v : Nat) : ((facts cfg p v).sec, (facts cfg p v).lvl) = sls cfg p v := by
  rw [facts, sls]
  exact run_proj (fun f : Fact => (f.sec, f.lvl)) (factStep cfg) (slStep cfg) (fun t op => rfl) p.ops (factEntry p) v

theorem facts_sl1 (cfg : Cfg) (p : Prog) (v : Nat) : (facts cfg p v).sec = (sls cfg p v).1 := by
  rw [← facts_sl cfg]

theorem facts_sl2 (cfg : Cfg) (p : Prog) (v : Nat) : (facts cfg p v).lvl = (sls cfg p v).2 := by
  rw [← facts_sl cfg]

/-- What level matching says at one operation. -/
def LevPost (cfg : Cfg) (t : Nat → Bool × Level) (op : Op) : Prop :=
  op.kind.matched = true → (slStep cfg t op).1 = true → (slStep cfg t op).2 ≠ .invalid →
    ∀ a ∈ op.args, (t a).1 = true → (t a).2 = (slStep cfg t op).2

theorem matched_iff (k : Kind) : k.needsSameLevel ↔ k.matched = true := by
  cases k <;> simp [Kind.needsSameLevel, Kind.matched]

theorem slStep_congr (cfg : Cfg) {t t' : Nat → Bool × Level} {op : Op} (h : ∀ a ∈ op.args, t' a = t a) :
    slStep cfg t' op = slStep cfg t op := by
  have h1 : (op.args.any fun a => (t' a).1) = op.args.any fun a => (t a).1 :=
    any_congr_mem fun a ha => by rw [h a ha]
  have h2 : (op.args.map fun a => (t' a).2) = op.args.map fun a => (t a).2 :=
    List.map_congr_left fun a ha => by rw [h a ha]
  simp only [slStep, h1, h2]

theorem levels_iff (cfg : Cfg) {p : Prog} (hw : p.WF) :
    LevelsMatch cfg p ↔ AllSteps (slStep cfg) (LevPost cfg) p.ops (slEntry p) := by
  simp only [LevelsMatch, facts_sl1, facts_sl2, matched_iff]
  constructor
  · intro h
    refine allSteps_of_final (slStep cfg) (LevPost cfg) (fun _ => True) p.ops _ _ hw.ssa ?_ (fun _ _ => trivial)
    intro op hop _ t' ha hr hk hs hi a hm
    rw [hr] at hs hi ⊢
    rw [ha a hm]
    exact h op hop hk hs hi a hm
  · intro h op hop hk hs hi a ha hsa
    obtain ⟨t', h1, h2, h3⟩ := final_of_allSteps (slStep cfg) (LevPost cfg) p.ops _ _ hw.ssa h op hop
    have h3' : slStep cfg t' op = sls cfg p op.res := h3
    have h2a : t' a = sls cfg p a := h2 a ha
    have := h1 hk (by rw [h3']; exact hs) (by rw [h3']; exact hi) a ha (by rw [h2a]; exact hsa)
    rwa [h2a, h3'] at this

/-- The fixpoint equation. -/
theorem sls_res (cfg : Cfg) {p : Prog} (hw : p.WF) {op : Op} (h : op ∈ p.ops) :
    sls cfg p op.res = slStep cfg (sls cfg p) op := by
  obtain ⟨t', _, h1, h2⟩ := final_of_allSteps (slStep cfg) (fun _ _ => True) p.ops _ (slEntry p) hw.ssa
    (allSteps_true _ _ _) op h
  rw [sls, ← h2]
  exact slStep_congr cfg h1

/-- An invariant of the analysis. -/
theorem run_inv {α : Type} {N : Nat} (step : (Nat → α) → Op → α) (I : α → Prop) (l : List Op)
    (hstep : ∀ op ∈ l, ∀ t : Nat → α, (∀ a ∈ op.args, I (t a)) → I (step t op)) :
    ∀ (P : Nat → Prop) (t : Nat → α), SSA N P l → (∀ v, P v → I (t v)) →
      ∀ v, (P v ∨ ∃ o ∈ l, o.res = v) → I (run step l t v) := by
  induction l with
  | nil =>
    rintro P t _ h v (hv | ⟨o, ho, _⟩)
    · exact h v hv
    · simp at ho
  | cons o l ih =>
    intro P t hs h v hv
    obtain ⟨h1, h2, h3, h4, h5, h6⟩ := hs
    rw [run]
    refine ih (fun o ho => hstep o (by simp [ho])) _ _ h6 ?_ v ?_
    · intro u hu
      by_cases hr : u = o.res
      · subst hr
        rw [upd_eq]
        exact hstep o (by simp) t fun a ha => h a (h1 a ha)
      · rw [upd_ne _ _ hr]
        exact h u (hu.resolve_right hr)
    · rcases hv with h | ⟨o', ho', h⟩
      · exact Or.inl (Or.inl h)
      · rcases List.mem_cons.1 ho' with rfl | ho'
        · exact Or.inl (Or.inr h.symm)
        · exact Or.inr ⟨o', ho', h⟩

/-- Secret values have a level, other values have none or 0; no level is beyond the budget. -/
def LevInv (cfg : Cfg) (x : Bool × Level) : Prop :=
  (x.1 = true → x.2 ≠ .uninit) ∧ (x.1 = false → x.2 = .uninit ∨ x.2 = .int 0) ∧ Fits cfg.budget x.2

theorem deriveLevel_init (c : Nat) {l : Level} : deriveLevel c .init [l] = l := by
  cases l <;> rfl

theorem slStep_inv (cfg : Cfg) (t : Nat → Bool × Level) (op : Op) (hm : op.kind.isMgmt = true → op.args.length = 1)
    (h : ∀ a ∈ op.args, LevInv cfg (t a)) : LevInv cfg (slStep cfg t op) := by
  cases hs : op.args.any fun a => (t a).1 with
  | false =>
    have hs1 : (slStep cfg t op).1 = false := hs
    refine ⟨fun h => by rw [hs1] at h; exact absurd h (by simp), fun _ => ?_, ?_⟩
    · simp only [slStep, hs]
      by_cases hk : op.kind = .init
      · have hl := hm (by rw [hk]; rfl)
        obtain ⟨a, ha⟩ := List.length_eq_one_iff.1 hl
        have hsa : (t a).1 = false := by simpa [ha] using hs
        rw [if_pos (Or.inl hk), hk, ha]
        simp only [List.map_cons, List.map_nil, deriveLevel_init]
        rcases (h a (by simp [ha])).2.1 hsa with h | h <;> rw [h] <;> simp [clamp]
      · rw [if_neg (by simp [hk])]; exact Or.inl rfl
    · simp only [slStep, Fits]
      split
      · exact clamp_clamp _ _
      · rfl
  | true =>
    have hs1 : (slStep cfg t op).1 = true := hs
    refine ⟨fun _ => ?_, fun h => by rw [hs1] at h; exact absurd h (by simp), ?_⟩
    · simp only [slStep, hs, or_true, if_true]
      have hcl : ∀ l : Level, l ≠ .uninit → clamp cfg.budget l ≠ .uninit := by
        intro l hl
        cases l with
        | int n => simp only [clamp]; split <;> simp
        | _ => exact hl
      apply hcl
      obtain ⟨a, ha, hsa⟩ := List.any_eq_true.1 hs
      have hla := (h a ha).1 hsa
      have hone : op.kind.isMgmt = true → op.args = [a] := by
        intro hk
        obtain ⟨b, hb⟩ := List.length_eq_one_iff.1 (hm hk)
        rw [hb] at ha ⊢
        simp at ha
        rw [ha]
      have hgen : (op.args.map fun a => (t a).2).foldl Level.join .uninit ≠ .uninit := by
        intro hc
        have := (Level.foldl_spec (op.args.map fun a => (t a).2) .uninit).2.1 (t a).2 (List.mem_map.2 ⟨a, ha, rfl⟩)
        rw [hc] at this
        cases hl : (t a).2 <;> rw [hl] at this hla <;> simp [Level.le] at this hla
      unfold deriveLevel
      split
      · rename_i hk
        rw [hone (by rw [hk]; rfl)]
        cases hl : (t a).2 <;> simp [hl, Level.reset] at hla ⊢
      · rename_i hk
        rw [hone (by rw [hk]; rfl)]
        cases hl : (t a).2 <;> simp [hl, Level.reduceAll] at hla ⊢
      · rename_i hk
        rw [hone (by rw [hk]; rfl)]
        cases hl : (t a).2 <;> simp [hl, Level.reduce, Level.join] at hla ⊢
      · rename_i d hk
        rw [hone (by rw [hk]; rfl)]
        cases hl : (t a).2 <;> simp [hl, Level.reduce, Level.join] at hla ⊢
      · exact hgen
    · simp only [slStep, Fits]
      split
      · exact clamp_clamp _ _
      · rfl

theorem sls_inv (cfg : Cfg) {p : Prog} (hw : p.WF) {v : Nat} (hv : v < p.nargs ∨ ∃ o ∈ p.ops, o.res = v) :
    LevInv cfg (sls cfg p v) := by
  refine run_inv (slStep cfg) (LevInv cfg) p.ops ?_ (· < p.nargs) (slEntry p) hw.ssa ?_ v hv
  · intro op hop t h
    exact slStep_inv cfg t op (hw.ssa.arity op hop).1 h
  · intro v hv
    simp only [slEntry, factEntry, if_pos hv]
    refine ⟨by simp, by simp, by simp [Fits, clamp]⟩

end Heir.Mgmt
