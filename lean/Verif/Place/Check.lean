import Verif.Place.Levels
import Verif.Place.Count

/-! # The pass as a whole, and checking solutions in integers -/

namespace Heir.Place
open Heir.Mgmt

theorem context_told {p : Prog} (hw : p.WF) (const : Nat → Bool) (argAttr resAttr : Nat → Option Attr)
    (hk : ∀ op ∈ p.ops, erased op.kind = false ∧ op.kind ≠ .levelReduceMin) :
    Told (context p const argAttr resAttr) p := by
  refine ⟨hw, ?_, hk⟩
  intro op hop
  show (facts ⟨0, 0⟩ p op.res).sec = op.args.any fun v => (facts ⟨0, 0⟩ p v).sec
  simp only [facts_sec]
  exact secs_res hw hop

theorem eraseProg_kinds {p : Prog} (hk : ∀ op ∈ p.ops, op.kind ≠ .levelReduceMin) :
    ∀ op ∈ (eraseProg p).ops, erased op.kind = false ∧ op.kind ≠ .levelReduceMin := by
  intro op hop
  obtain ⟨h1, op', h2, h3, _⟩ := erase_mem p.ops id op hop
  exact ⟨h1, by rw [← h3]; exact hk op' h2⟩

/-- The secret values of a program are its ciphertexts. -/
theorem exec_secs {o : Opts} {t t' : Nat → Option Ct} {ops : List Op} (h : Exec o t ops t') : ∀ (f : Nat → Bool),
    (∀ op ∈ ops, op.kind.isMgmt = true → op.args.length = 1) → (∀ v, f v = (t v).isSome) →
      ∀ v, run secStep ops f v = (t' v).isSome := by
  induction h with
  | nil t => intro f _ hR; exact hR
  | cons t t' op ops x hs hv _ ih =>
    intro f hops hR
    refine ih (upd f op.res (secStep f op)) (fun op h => hops op (by simp [h])) ?_
    intro v
    by_cases hr : v = op.res
    · subst hr
      rw [upd_eq, upd_eq]
      have hone : op.kind.isMgmt = true → (∃ c, t (op.args.headD 0) = some c) → secStep f op = true := by
        rintro hm ⟨c, hc⟩
        obtain ⟨a, ha⟩ := List.length_eq_one_iff.1 (hops op (by simp) hm)
        rw [ha] at hc
        have hc' : t a = some c := hc
        simp [secStep, ha, hR, hc']
      have hnil : op.args.filterMap t = [] → secStep f op = false := by
        intro h
        rw [List.filterMap_eq_nil_iff] at h
        rw [secStep, List.any_eq_false]
        intro a ha
        simp [hR, h a ha]
      have hne : op.args.filterMap t ≠ [] → secStep f op = true := by
        intro h
        obtain ⟨c, hc⟩ := List.exists_mem_of_ne_nil _ h
        obtain ⟨a, ha, hac⟩ := List.mem_filterMap.1 hc
        rw [secStep, List.any_eq_true]
        exact ⟨a, ha, by simp [hR, hac]⟩
      unfold Step at hs
      cases hk : op.kind <;> rw [hk] at hs <;> simp only at hs
      case levelReduce => obtain ⟨c, h1, rfl⟩ := hs; exact hone (by rw [hk]; rfl) ⟨c, h1⟩
      case modReduce => obtain ⟨c, h1, rfl⟩ := hs; exact hone (by rw [hk]; rfl) ⟨c, h1⟩
      case adjustScale => obtain ⟨c, _, h1, _, rfl⟩ := hs; exact hone (by rw [hk]; rfl) ⟨c, h1⟩
      case relinearize => obtain ⟨c, h1, rfl⟩ := hs; exact hone (by rw [hk]; rfl) ⟨c, h1⟩
      case bootstrap => obtain ⟨c, h1, _, _, rfl⟩ := hs; exact hone (by rw [hk]; rfl) ⟨c, h1⟩
      case levelReduceMin => obtain ⟨c, h1, rfl⟩ := hs; exact hone (by rw [hk]; rfl) ⟨c, h1⟩
      case mul =>
        rcases hs with ⟨h, rfl⟩ | ⟨c, h1, _, rfl⟩
        · exact hnil h
        · exact hne h1
      all_goals
        rcases hs with ⟨h, rfl⟩ | ⟨c, h1, _, rfl⟩
        · exact hnil h
        · exact hne h1
    · rw [upd_ne _ _ hr, upd_ne _ _ hr]; exact hR v

section
variable {o : Opts} {const : Nat → Bool} {argAttr resAttr : Nat → Option Attr} {s : Var → ℚ} {p : Prog}

theorem start_table (hw : p.WF) (h : Feasible o (context p const argAttr resAttr) p s) {v : Nat} (hv : v < p.nargs) :
    start o argAttr p v = table (context p const argAttr resAttr) s v := by
  have hsec : (context p const argAttr resAttr).sec v = p.secArg v := by
    show (facts ⟨0, 0⟩ p v).sec = _
    rw [facts_sec, secs_arg hw hv]
  unfold start table
  rw [hsec]
  cases hs : p.secArg v
  · simp
  · rw [if_pos ⟨hv, rfl⟩, if_pos rfl, h.ct_arg (by simp [secretArgs, hv, hsec, hs])]
    congr 2
    · simp only [initLevel, context]
      cases argAttr v <;> rfl
    · simp only [initScale, context]
      cases ha : argAttr v with
      | none => simp
      | some a =>
        obtain ⟨l, sc⟩ := a
        cases sc <;> simp

/-- A solution is decoded into a program that runs and yields what is asked for. -/
theorem placed_exec (hw : p.WF) (hk : ∀ op ∈ p.ops, erased op.kind = false ∧ op.kind ≠ .levelReduceMin)
    (hsw : 0 < o.sw) (hfb : 0 < o.factorBits) (hlb : 0 ≤ o.lower) (hc : PlainsConst const p)
    (h : Feasible o (context p const argAttr resAttr) p s) :
    ∃ q, placeProg o (context p const argAttr resAttr) s p = some q ∧ q.WF ∧
      ∃ t', Exec o (start o argAttr p) q.ops t' ∧ Pinned o resAttr q.yields t' ∧ ∀ v, secs q v = (t' v).isSome := by
  have ht := context_told hw const argAttr resAttr hk
  obtain ⟨q, hq⟩ := h.placed ht hsw hfb hlb
  have hwq := placeProg_wf hw hq
  obtain ⟨n, σ, ops, h1, rfl⟩ := placeProg_some hq
  obtain ⟨t', e1, e2⟩ := h.exec ht hc hsw hfb hlb h1 (t := start o argAttr p) (fun v hv => start_table hw h hv)
  refine ⟨_, hq, hwq, t', e1, ?_, ?_⟩
  · intro i y x a hy hx ha
    simp only [List.getElem?_map, Option.map_eq_some_iff] at hy
    obtain ⟨y', hy', rfl⟩ := hy
    have hyv : IsVal p y' := hw.yields y' (List.mem_of_getElem? hy')
    rw [e2 y' hyv, table] at hx
    split at hx
    · rename_i hs
      cases hx
      have hmem : (i, y') ∈ secretYields (context p const argAttr resAttr) p := by
        simp only [secretYields, List.mem_filter, List.mem_map, Prod.exists, Prod.mk.injEq]
        exact ⟨⟨y', i, List.mem_zipIdx_iff_getElem?.2 hy', rfl, rfl⟩, hs⟩
      have hcons := h.yieldCons hmem
      have hra : (context p const argAttr resAttr).resAttr i = some a := ha
      constructor
      · exact isConst_rounded (hcons (isConst (.level y') a.level) (by simp [Place.yieldCons, hra]))
      · intro hck sc hsc
        exact isConst_rounded (hcons (isConst (.scale y') sc) (by simp [Place.yieldCons, hra, hsc, hck]))
    · exact absurd hx (by simp)
  · refine exec_secs e1 _ (fun op hop => (SSA.arity hwq.ssa op hop).1) ?_
    intro v
    simp only [secEntry, start]
    by_cases hv : v < p.nargs
    · cases hs : p.secArg v <;> simp [hv]
    · simp [hv]

end

/-! ## Solutions in integers -/

def Con.holdsZ (c : Con) (z : Var → Int) : Bool :=
  if c.isEq then (c.terms.map fun x => x.1 * z x.2).sum == c.bound
  else decide ((c.terms.map fun x => x.1 * z x.2).sum ≤ c.bound)

def inZ (x lo hi : Int) : Bool := decide (lo ≤ x) && decide (x ≤ hi)

def checkZ (o : Opts) (c : Ctx) (p : Prog) (z : Var → Int) : Bool :=
  (constraints o c p).all (fun k => k.holdsZ z) &&
  (secretArgs c p).all (fun v => inZ (z (.level v)) 0 o.waterline && inZ (z (.scale v)) o.sw o.scaleMax) &&
  (tracked c p).all fun op =>
    inZ (z (.level op.res)) 0 o.waterline && inZ (z (.scale op.res)) o.sw o.scaleMax &&
    inZ (z (.inLevel op.res)) 0 o.waterline && inZ (z (.inScale op.res)) o.sw o.scaleMax &&
    inZ (z (.rescale op.res)) 0 o.waterline && inZ (z (.boot op.res)) 0 1 &&
    (edges c op).all fun x => inZ (z (.edgeRescale op.res x.1)) 0 o.waterline &&
      inZ (z (edgeVar o op x.1)) o.sw o.scaleMax

theorem holdsZ_holds {c : Con} {z : Var → Int} (h : c.holdsZ z = true) : c.Holds fun v => (z v : ℚ) := by
  have hl : c.lhs (fun v => (z v : ℚ)) = (((c.terms.map fun x => x.1 * z x.2).sum : Int) : ℚ) := by
    unfold Con.lhs
    generalize c.terms = l
    induction l with
    | nil => simp
    | cons x l ih =>
      simp only [List.map_cons, List.sum_cons, ih]
      push_cast
      ring
  unfold Con.Holds
  rw [hl]
  unfold Con.holdsZ at h
  split at h
  · rename_i he
    rw [if_pos he]
    rw [beq_iff_eq] at h
    rw [h]
  · rename_i he
    rw [if_neg he]
    exact_mod_cast of_decide_eq_true h

theorem inZ_in {x lo hi : Int} (h : inZ x lo hi = true) : IntIn (x : ℚ) lo hi := by
  simp only [inZ, Bool.and_eq_true, decide_eq_true_eq] at h
  exact ⟨x, rfl, h⟩

theorem inZ_le {x lo hi : Int} (h : inZ x lo hi = true) : (lo : ℚ) ≤ x ∧ (x : ℚ) ≤ hi := by
  simp only [inZ, Bool.and_eq_true, decide_eq_true_eq] at h
  exact ⟨by exact_mod_cast h.1, by exact_mod_cast h.2⟩

/-- Integers that pass are a solution. -/
theorem checkZ_feasible {o : Opts} {c : Ctx} {p : Prog} {z : Var → Int} (h : checkZ o c p z = true) :
    Feasible o c p fun v => (z v : ℚ) := by
  simp only [checkZ, Bool.and_eq_true, List.all_eq_true] at h
  obtain ⟨⟨h1, h2⟩, h3⟩ := h
  refine ⟨⟨?_, ?_, ?_, ?_, ?_, ?_, ?_, ?_, ?_⟩, fun k hk => holdsZ_holds (h1 k hk)⟩
  · intro v hv
    have := h2 v hv
    have h' := inZ_le this.1
    exact ⟨by simpa using h'.1, h'.2, inZ_in this.2⟩
  · intro op hop
    have h' := inZ_le (h3 op hop).1.1.1.1.1.1
    exact ⟨by simpa using h'.1, h'.2⟩
  · exact fun op hop => inZ_in (h3 op hop).1.1.1.1.1.2
  · exact fun op hop => inZ_in (h3 op hop).1.1.1.1.2
  · exact fun op hop => inZ_in (h3 op hop).1.1.1.2
  · exact fun op hop => inZ_in (h3 op hop).1.1.2
  · exact fun op hop => inZ_in (h3 op hop).1.2
  · exact fun op hop x hx hs => inZ_in ((h3 op hop).2 x (List.mem_filter.2 ⟨hx, hs⟩)).1
  · exact fun op hop x hx hs => inZ_in ((h3 op hop).2 x (List.mem_filter.2 ⟨hx, hs⟩)).2

end Heir.Place
