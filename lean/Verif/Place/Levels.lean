import Verif.Place.Values

/-! # The level analysis on a program that runs on ciphertexts -/

namespace Heir.Place
open Heir.Mgmt

/-- What the analysis says of a value and the ciphertext it is. -/
def Lev (o : Opts) (x : Option Ct) (f : Bool × Level) : Prop :=
  match x with
  | some c => f = (true, .int (o.waterline - c.level).toNat) ∧ c.Valid o
  | none => f.1 = false ∧ (f.2 = .uninit ∨ f.2 = .int 0)

theorem lev_some {o : Opts} {c : Ct} {f : Bool × Level} : Lev o (some c) f ↔ f = (true, .int (o.waterline - c.level).toNat) ∧ c.Valid o :=
  Iff.rfl

theorem clamp_int {b n : Nat} (h : n ≤ b) : clamp b (.int n) = .int n := by
  rw [clamp, if_neg (by omega)]

theorem Level.int_zero_le (n : Nat) : (Level.int 0).le (.int n) = true := by simp [Level.le]

theorem Level.uninit_le (l : Level) : Level.uninit.le l = true := by cases l <;> simp [Level.le]

/-- Operations that join the levels of their operands. -/
def joins : Kind → Bool
  | .bootstrap | .levelReduceMin | .modReduce | .levelReduce _ => false
  | _ => true

theorem deriveLevel_joins {n : Nat} {k : Kind} (h : joins k = true) (ls : List Level) :
    deriveLevel n k ls = ls.foldl Level.join .uninit := by cases k <;> first | rfl | simp [joins] at h

/-- Joining operands at one level. -/
theorem lev_join {o : Opts} {cfg : Cfg} (hb : o.waterline ≤ cfg.budget) {t : Nat → Option Ct} {f : Nat → Bool × Level}
    {op : Op} (hR : ∀ a ∈ op.args, Lev o (t a) (f a)) (hj : joins op.kind = true) {l : Int}
    (hne : op.args.filterMap t ≠ []) (hl : ∀ c ∈ op.args.filterMap t, c.level = l) :
    slStep cfg f op = (true, .int (o.waterline - l).toNat) ∧
      ∀ a ∈ op.args, (f a).1 = true → (f a).2 = .int (o.waterline - l).toNat := by
  have hmem : ∀ a ∈ op.args, ∀ c, t a = some c → c ∈ op.args.filterMap t :=
    fun a ha c hc => List.mem_filterMap.2 ⟨a, ha, hc⟩
  have hall : ∀ a ∈ op.args, (f a).1 = true → (f a).2 = .int (o.waterline - l).toNat := by
    intro a ha hs
    have := hR a ha
    cases hx : t a with
    | none => rw [hx] at this; rw [this.1] at hs; exact absurd hs (by simp)
    | some c =>
      rw [hx, lev_some] at this
      rw [this.1, hl c (hmem a ha c hx)]
  obtain ⟨c, hc⟩ := List.exists_mem_of_ne_nil _ hne
  obtain ⟨a, ha, hac⟩ := List.mem_filterMap.1 hc
  have hfa := hR a ha
  rw [hac, lev_some] at hfa
  have hsa : (f a).1 = true := by rw [hfa.1]
  have hany : (op.args.any fun a => (f a).1) = true := List.any_eq_true.2 ⟨a, ha, hsa⟩
  have hval := hfa.2
  have hcl := hl c hc
  refine ⟨?_, hall⟩
  simp only [slStep, hany, or_true, if_true]
  rw [deriveLevel_joins hj, Level.foldl_eq (R := .int (o.waterline - l).toNat) (List.mem_map.2 ⟨a, ha, hall a ha hsa⟩) ?_,
    clamp_int (by have := hval.1; omega)]
  intro x hx
  obtain ⟨b, hbm, rfl⟩ := List.mem_map.1 hx
  cases hbs : (f b).1
  · have := hR b hbm
    cases hx : t b with
    | none =>
      rw [hx] at this
      rcases this.2 with h | h <;> rw [h]
      · exact Level.uninit_le _
      · exact Level.int_zero_le _
    | some c' =>
      rw [hx, lev_some] at this
      rw [this.1] at hbs
      exact absurd hbs (by simp)
  · rw [hall b hbm hbs]
    exact Level.le_refl' _

theorem lev_free {o : Opts} {cfg : Cfg} {t : Nat → Option Ct} {f : Nat → Bool × Level} {op : Op}
    (hm : op.kind.isMgmt = true → op.args.length = 1)
    (hR : ∀ a ∈ op.args, Lev o (t a) (f a)) (h : op.args.filterMap t = []) :
    Lev o none (slStep cfg f op) ∧ LevPost cfg f op := by
  rw [List.filterMap_eq_nil_iff] at h
  have hn : ∀ a ∈ op.args, (f a).1 = false ∧ ((f a).2 = .uninit ∨ (f a).2 = .int 0) := by
    intro a ha
    have := hR a ha
    rw [h a ha] at this
    exact this
  have hany : (op.args.any fun a => (f a).1) = false := by
    rw [List.any_eq_false]
    intro a ha
    rw [(hn a ha).1]
    simp
  refine ⟨⟨hany, ?_⟩, fun _ hs => ?_⟩
  · simp only [slStep, hany]
    by_cases hk : op.kind = .init
    · obtain ⟨a, ha⟩ := List.length_eq_one_iff.1 (hm (by rw [hk]; rfl))
      rw [if_pos (Or.inl hk), hk, ha]
      rcases (hn a (by simp [ha])).2 with h' | h'
      · left; simp [h', deriveLevel, Level.join, clamp]
      · right; simp [h', deriveLevel, Level.join, clamp]
    · rw [if_neg (by simp [hk])]
      exact Or.inl rfl
  · have h1 : (slStep cfg f op).1 = false := hany
    rw [h1] at hs
    exact absurd hs (by simp)

theorem lev_step {o : Opts} {cfg : Cfg} (hb : o.waterline ≤ cfg.budget) {t : Nat → Option Ct} {f : Nat → Bool × Level}
    {op : Op} {x : Option Ct} (hc : op.kind = .bootstrap → cfg.consumed = 0) (hk : op.kind ≠ .levelReduceMin)
    (hm : op.kind.isMgmt = true → op.args.length = 1)
    (hR : ∀ a ∈ op.args, Lev o (t a) (f a)) (hs : Step o t op x) (hv : ∀ c, x = some c → c.Valid o) :
    Lev o x (slStep cfg f op) ∧ LevPost cfg f op := by
  have hone : ∀ (c : Ct), op.kind.isMgmt = true → t (op.args.headD 0) = some c → ∃ a, op.args = [a] ∧
      f a = (true, .int (o.waterline - c.level).toNat) ∧ c.Valid o ∧ op.args.filterMap t = [c] := by
    intro c hmg hc
    obtain ⟨a, ha⟩ := List.length_eq_one_iff.1 (hm hmg)
    rw [ha] at hc
    have := hR a (by simp [ha])
    have hc' : t a = some c := hc
    rw [hc', lev_some] at this
    exact ⟨a, ha, this.1, this.2, by simp [ha, hc']⟩
  have hpost : op.kind.isMgmt = true → LevPost cfg f op := by
    intro hmg hkm
    rw [← matched_iff] at hkm
    rcases hkm with h | h | h | h <;> rw [h] at hmg <;> simp [Kind.isMgmt] at hmg
  have hgen : joins op.kind = true → ∀ l s, op.args.filterMap t ≠ [] → (∀ c ∈ op.args.filterMap t, c.level = l) →
      x = some ⟨l, s⟩ → Lev o x (slStep cfg f op) ∧ LevPost cfg f op := by
    intro hj l s hne hl hx
    obtain ⟨h1, h2⟩ := lev_join hb hR hj hne hl
    refine ⟨?_, ?_⟩
    · rw [hx, h1]
      exact lev_some.2 ⟨rfl, hv _ hx⟩
    · intro _ _ _ a ha hsa
      rw [h1]
      exact h2 a ha hsa
  have hsame : joins op.kind = true → ((op.args.filterMap t = [] ∧ x = none) ∨
      ∃ c, op.args.filterMap t ≠ [] ∧ (∀ c' ∈ op.args.filterMap t, c' = c) ∧ x = some c) →
      Lev o x (slStep cfg f op) ∧ LevPost cfg f op := by
    rintro hj (⟨h, rfl⟩ | ⟨c, h1, h2, h3⟩)
    · exact lev_free hm hR h
    · exact hgen hj c.level c.scale h1 (fun c' hc' => by rw [h2 c' hc']) h3
  unfold Step at hs
  cases hkind : op.kind with
  | levelReduce k =>
    rw [hkind] at hs
    obtain ⟨c, h1, rfl⟩ := hs
    obtain ⟨a, ha, hfa, hcv, _⟩ := hone c (by rw [hkind]; rfl) h1
    refine ⟨lev_some.2 ⟨?_, hv _ rfl⟩, hpost (by rw [hkind]; rfl)⟩
    have hv' := (hv _ rfl).1
    have hcv2 := hcv.2.1
    simp only at hv'
    simp only [slStep, ha, List.any_cons, hfa, List.any_nil, Bool.or_false, or_true, if_true, List.map_cons, List.map_nil,
      hkind, deriveLevel, List.headD_cons, Level.reduce, Level.join]
    rw [clamp_int (by omega)]
    congr 2
    omega
  | modReduce =>
    rw [hkind] at hs
    obtain ⟨c, h1, rfl⟩ := hs
    obtain ⟨a, ha, hfa, hcv, _⟩ := hone c (by rw [hkind]; rfl) h1
    refine ⟨lev_some.2 ⟨?_, hv _ rfl⟩, hpost (by rw [hkind]; rfl)⟩
    have hv' := (hv _ rfl).1
    have hcv2 := hcv.2.1
    simp only at hv'
    simp only [slStep, ha, List.any_cons, hfa, List.any_nil, Bool.or_false, or_true, if_true, List.map_cons, List.map_nil,
      hkind, deriveLevel, List.headD_cons, Level.reduce, Level.join]
    rw [clamp_int (by omega)]
    congr 2
    omega
  | bootstrap =>
    rw [hkind] at hs
    obtain ⟨c, h1, _, _, rfl⟩ := hs
    obtain ⟨a, ha, hfa, hcv, _⟩ := hone c (by rw [hkind]; rfl) h1
    refine ⟨lev_some.2 ⟨?_, hv _ rfl⟩, hpost (by rw [hkind]; rfl)⟩
    simp only [slStep, ha, List.any_cons, hfa, List.any_nil, Bool.or_false, or_true, if_true, List.map_cons, List.map_nil,
      hkind, deriveLevel, List.headD_cons, Level.reset, hc hkind]
    rw [clamp_int (by omega)]
    congr 2
    omega
  | adjustScale id =>
    rw [hkind] at hs
    obtain ⟨c, s, h1, _, rfl⟩ := hs
    obtain ⟨a, ha, _, _, hfm⟩ := hone c (by rw [hkind]; rfl) h1
    exact hgen (by rw [hkind]; rfl) c.level s (by rw [hfm]; simp) (by rw [hfm]; simp) rfl
  | relinearize =>
    rw [hkind] at hs
    obtain ⟨c, h1, rfl⟩ := hs
    obtain ⟨a, ha, _, _, hfm⟩ := hone c (by rw [hkind]; rfl) h1
    exact hgen (by rw [hkind]; rfl) c.level c.scale (by rw [hfm]; simp) (by rw [hfm]; simp) rfl
  | levelReduceMin => exact absurd hkind hk
  | mul =>
    rw [hkind] at hs
    rcases hs with ⟨h, rfl⟩ | ⟨l, h1, h2, h3⟩
    · exact lev_free hm hR h
    · exact hgen (by rw [hkind]; rfl) l _ h1 h2 h3
  | add => rw [hkind] at hs; exact hsame (by rw [hkind]; rfl) hs
  | sub => rw [hkind] at hs; exact hsame (by rw [hkind]; rfl) hs
  | insert => rw [hkind] at hs; exact hsame (by rw [hkind]; rfl) hs
  | extract => rw [hkind] at hs; exact hsame (by rw [hkind]; rfl) hs
  | other _ => rw [hkind] at hs; exact hsame (by rw [hkind]; rfl) hs
  | init => rw [hkind] at hs; exact hsame (by rw [hkind]; rfl) hs

/-- The level analysis follows the ciphertexts. -/
theorem exec_levels {o : Opts} {cfg : Cfg} (hb : o.waterline ≤ cfg.budget) {t t' : Nat → Option Ct} {ops : List Op}
    (h : Exec o t ops t') : ∀ (f : Nat → Bool × Level),
      (∀ op ∈ ops, (op.kind = .bootstrap → cfg.consumed = 0) ∧ op.kind ≠ .levelReduceMin ∧
        (op.kind.isMgmt = true → op.args.length = 1)) →
      (∀ v, Lev o (t v) (f v)) →
      AllSteps (slStep cfg) (LevPost cfg) ops f ∧ ∀ v, Lev o (t' v) (run (slStep cfg) ops f v) := by
  induction h with
  | nil t => intro f _ hR; exact ⟨trivial, hR⟩
  | cons t t' op ops x hs hv _ ih =>
    intro f hops hR
    obtain ⟨h1, h2, h3⟩ := hops op (by simp)
    obtain ⟨s1, s2⟩ := lev_step hb h1 h2 h3 (fun a _ => hR a) hs hv
    obtain ⟨i1, i2⟩ := ih (upd f op.res (slStep cfg f op)) (fun op h => hops op (by simp [h])) (by
      intro v
      by_cases hr : v = op.res
      · subst hr; rw [upd_eq, upd_eq]; exact s1
      · rw [upd_ne _ _ hr, upd_ne _ _ hr]; exact hR v)
    exact ⟨⟨s2, i1⟩, i2⟩

end Heir.Place
