import Verif.Codegen.Spec
import Mathlib.Data.List.Nodup
import Mathlib.Tactic.Ring
import Mathlib.Tactic.Linarith

/-!
# What the operations for expressions compute
-/

namespace Heir.Codegen

variable {α : Type} {f : List Int → List α → List α}

/-! ## Environments -/

theorem runs_append (a b : List Op) (σ : Env α) : runs f (a ++ b) σ = (runs f a σ).bind (runs f b) := by
  induction a generalizing σ with
  | nil => simp [runs]
  | cons o a ih =>
    simp only [List.cons_append, runs]
    cases run f o σ with
    | none => rfl
    | some σ' => simp [ih]

theorem set_same (σ : Env α) (r : Nat) (v : MV α) : set σ r v r = some v := by simp [set]

theorem set_ne (σ : Env α) {r i : Nat} (v : MV α) (h : i ≠ r) : set σ r v i = σ i := by simp [set, h]

theorem gets_congr {σ τ : Env α} {rs : List Nat} (h : ∀ r ∈ rs, τ r = σ r) : gets τ rs = gets σ rs := by
  induction rs with
  | nil => rfl
  | cons r rs ih =>
    simp only [gets, h r (by simp), ih (fun x hx => h x (by simp [hx]))]

theorem gets_len {σ : Env α} {rs : List Nat} {vs : List (MV α)} (h : gets σ rs = some vs) :
    vs.length = rs.length := by
  induction rs generalizing vs with
  | nil => simp [gets] at h; simp [← h]
  | cons r rs ih =>
    simp only [gets] at h
    cases hr : σ r with
    | none => simp [hr] at h
    | some v =>
      cases hs : gets σ rs with
      | none => simp [hr, hs] at h
      | some ws => simp [hr, hs] at h; subst h; simp [ih hs]

theorem sets_ok (σ : Env α) {rs : List Nat} {vs : List (MV α)} (hl : rs.length = vs.length)
    (hn : rs.Nodup) :
    ∃ τ, sets σ rs vs = some τ ∧ gets τ rs = some vs ∧ ∀ i, i ∉ rs → τ i = σ i := by
  induction rs generalizing vs σ with
  | nil =>
    cases vs with
    | nil => exact ⟨σ, rfl, rfl, fun _ _ => rfl⟩
    | cons => simp at hl
  | cons r rs ih =>
    cases vs with
    | nil => simp at hl
    | cons v vs =>
      obtain ⟨hr, hn⟩ := List.nodup_cons.mp hn
      obtain ⟨τ, h1, h2, h3⟩ := ih (set σ r v) (by simpa using hl) hn
      refine ⟨τ, h1, ?_, ?_⟩
      · have : τ r = some v := by rw [h3 r hr, set_same]
        simp [gets, this, h2]
      · intro i hi
        simp only [List.mem_cons, not_or] at hi
        rw [h3 i hi.2, set_ne _ _ hi.1]

theorem fresh_nodup (n k : Nat) : (fresh n k).Nodup := by
  unfold fresh
  exact List.Nodup.map (fun a b h => by simpa using h) List.nodup_range

theorem fresh_len (n k : Nat) : (fresh n k).length = k := by simp [fresh]

theorem mem_fresh {n k i : Nat} : i ∈ fresh n k ↔ n ≤ i ∧ i < n + k := by
  simp only [fresh, List.mem_map, List.mem_range]
  constructor
  · rintro ⟨a, ha, rfl⟩; omega
  · intro h; exact ⟨i - n, by omega, by omega⟩

/-! ## Numbers -/

def Fits (n : Int) : Prop := -2 ^ 31 ≤ n ∧ n < 2 ^ 31

theorem wrap_fits {n : Int} (h : Fits n) : wrap n = n := by
  unfold wrap Fits at *
  rw [BitVec.toInt_ofInt]
  apply Int.bmod_eq_of_le <;> norm_num at * <;> omega

theorem fit_iff {n m : Int} : fit n = some m ↔ Fits n ∧ n = m := by
  unfold fit
  by_cases h : Fits n
  · rw [if_pos (show -2 ^ 31 ≤ n ∧ n < 2 ^ 31 from h)]; simp [h]
  · rw [if_neg (show ¬(-2 ^ 31 ≤ n ∧ n < 2 ^ 31) from h)]; simp [h]

/-- A value of isl as a value of MLIR. -/
def V.mv : V → MV α
  | .int n => .int n
  | .bool b => .bool b

def V.Ok : V → Prop
  | .int n => Fits n
  | .bool _ => True

theorem fits_fdiv {a b : Int} (ha : Fits a) (hb : 0 < b) : Fits (a.fdiv b) := by
  rw [Int.fdiv_eq_ediv_of_nonneg _ hb.le]
  unfold Fits at *
  have h1 := Int.ediv_mul_le a hb.ne'
  have h2 := Int.lt_ediv_add_one_mul_self a hb
  constructor
  · by_contra h
    have : a / b + 1 ≤ -2 ^ 31 := by omega
    nlinarith
  · by_contra h
    have : 2 ^ 31 ≤ a / b := by omega
    nlinarith

theorem fits_ediv {a b : Int} (ha : Fits a) (hb : 0 < b) : Fits (a / b) := by
  rw [← Int.fdiv_eq_ediv_of_nonneg _ hb.le]
  exact fits_fdiv ha hb

theorem bin_ok {k : Bin} {a b c : Int} (ha : Fits a) (hb : Fits b) (h : binSem k a b = some c) :
    abinSem k.mlir a b = some c ∧ Fits c := by
  cases k <;> simp only [binSem, Bin.mlir, abinSem] at h ⊢
  case add => obtain ⟨h1, rfl⟩ := fit_iff.mp h; exact ⟨by rw [wrap_fits h1], h1⟩
  case sub => obtain ⟨h1, rfl⟩ := fit_iff.mp h; exact ⟨by rw [wrap_fits h1], h1⟩
  case mul => obtain ⟨h1, rfl⟩ := fit_iff.mp h; exact ⟨by rw [wrap_fits h1], h1⟩
  case div =>
    split_ifs at h with hc
    simp only [Option.some.injEq] at h
    subst h
    rw [if_neg (by omega)]
    refine ⟨?_, fits_ediv ha hc.1⟩
    obtain ⟨d, rfl⟩ := hc.2
    rw [Int.mul_tdiv_cancel_left _ hc.1.ne', Int.mul_ediv_cancel_left _ hc.1.ne']
  case pdivq =>
    split_ifs at h with hc
    simp only [Option.some.injEq] at h
    subst h
    rw [if_neg (by omega), Int.fdiv_eq_ediv_of_nonneg _ hc.2.le]
    exact ⟨rfl, fits_ediv ha hc.2⟩
  case fdivq =>
    split_ifs at h with hc
    simp only [Option.some.injEq] at h
    subst h
    rw [if_neg (by omega)]
    exact ⟨rfl, fits_fdiv ha hc⟩
  case max =>
    simp only [Option.some.injEq] at h
    subst h
    refine ⟨rfl, ?_⟩
    split_ifs <;> assumption
  case min =>
    simp only [Option.some.injEq] at h
    subst h
    refine ⟨rfl, ?_⟩
    split_ifs <;> assumption
  all_goals simp at h

theorem bin2_ok {k : Bin} {a b c : V} (ha : a.Ok) (hb : b.Ok) (h : bin2 k a b = some c) :
    abin2 (α := α) k.mlir a.mv b.mv = some c.mv ∧ c.Ok := by
  cases a <;> cases b <;> simp only [bin2, V.mv, abin2] at h ⊢
  · obtain ⟨d, h1, rfl⟩ := Option.map_eq_some_iff.mp h
    obtain ⟨h2, h3⟩ := bin_ok ha hb h1
    simp [h2, V.Ok, h3]
  · simp at h
  · simp at h
  · obtain ⟨d, h1, rfl⟩ := Option.map_eq_some_iff.mp h
    refine ⟨?_, trivial⟩
    cases k <;> simp only [logSem, Bin.mlir, alogSem] at h1 ⊢ <;> simp_all

/-! ## Operators -/

/-- The values of `as` are `vs`. -/
def Holds (σ : Env α) : List Arg → List V → Prop
  | [], [] => True
  | a :: as, v :: vs => (σ a.1 = some v.mv ∧ a.2 = v.isBool) ∧ v.Ok ∧ Holds σ as vs
  | _, _ => False

theorem Holds.congr {σ τ : Env α} {as : List Arg} {vs : List V} (h : Holds σ as vs)
    (hc : ∀ a ∈ as, τ a.1 = σ a.1) : Holds τ as vs := by
  induction as generalizing vs with
  | nil => cases vs <;> simp_all [Holds]
  | cons a as ih =>
    cases vs with
    | nil => simp [Holds] at h
    | cons v vs =>
      simp only [Holds] at h ⊢
      exact ⟨⟨by rw [hc a (by simp), h.1.1], h.1.2⟩, h.2.1, ih h.2.2 (fun x hx => hc x (by simp [hx]))⟩

theorem Holds.tys {σ : Env α} {as : List Arg} {vs : List V} (h : Holds σ as vs) :
    as.map Prod.snd = vs.map V.isBool := by
  induction as generalizing vs with
  | nil => cases vs <;> simp_all [Holds]
  | cons a as ih =>
    cases vs with
    | nil => simp [Holds] at h
    | cons v vs =>
      simp only [Holds] at h
      simp [h.1.2, ih h.2.2]

theorem foldBin_ok {k : Bin} {as : List Arg} {acc n : Nat} (hn : acc < n) (ha : ∀ a ∈ as, a.1 < n) :
    (foldBin k.mlir acc as n).2.1 < (foldBin k.mlir acc as n).2.2 ∧ n ≤ (foldBin k.mlir acc as n).2.2 ∧
    ∀ (σ : Env α) (x : V) (vs : List V) (v : V), σ acc = some x.mv → x.Ok → Holds σ as vs →
      foldV (bin2 k) x vs = some v →
      ∃ τ, runs f (foldBin k.mlir acc as n).1 σ = some τ ∧ (∀ i < n, τ i = σ i) ∧
        τ (foldBin k.mlir acc as n).2.1 = some v.mv ∧ v.Ok := by
  induction as generalizing acc n with
  | nil =>
    refine ⟨hn, le_refl _, ?_⟩
    intro σ x vs v hx ho hh hv
    cases vs with
    | cons => simp [Holds] at hh
    | nil =>
      simp only [foldV, Option.some.injEq] at hv
      subst hv
      exact ⟨σ, rfl, fun _ _ => rfl, hx, ho⟩
  | cons a as ih =>
    obtain ⟨h1, h2, h3⟩ := ih (acc := n) (n := n + 1) (by omega)
      (fun b hb => by have := ha b (by simp [hb]); omega)
    simp only [foldBin]
    refine ⟨h1, (Nat.le_succ n).trans h2, ?_⟩
    intro σ x vs v hx ho hh hv
    cases vs with
    | nil => simp [Holds] at hh
    | cons y vs =>
      simp only [Holds] at hh
      simp only [foldV] at hv
      obtain ⟨c, hc, hv⟩ := Option.bind_eq_some_iff.mp hv
      obtain ⟨hb, hco⟩ := bin2_ok (α := α) ho hh.2.1 hc
      have hrun : run f (.bin n k.mlir acc a.1) σ = some (set σ n c.mv) := by
        simp [run, hx, hh.1.1, hb]
      obtain ⟨τ, t1, t2, t3, t4⟩ := h3 (set σ n c.mv) c vs v (set_same _ _ _) hco
        (hh.2.2.congr fun b hb => set_ne _ _ (by have := ha b (by simp [hb]); omega)) hv
      refine ⟨τ, by simp [runs, hrun, t1], ?_, t3, t4⟩
      intro i hi
      rw [t2 i (by omega), set_ne _ _ (by omega)]

theorem extend_ok {a : Arg} {n : Nat} (ha : a.1 < n) :
    (extend a n).2.1 < (extend a n).2.2 ∧ n ≤ (extend a n).2.2 ∧
    ∀ (σ : Env α) (v : V), σ a.1 = some v.mv → a.2 = v.isBool →
      ∃ τ, runs f (extend a n).1 σ = some τ ∧ (∀ i < n, τ i = σ i) ∧
        τ (extend a n).2.1 = some (.int v.num) := by
  unfold extend
  split_ifs with h
  · refine ⟨by simp, by simp, ?_⟩
    intro σ v hv ht
    cases v with
    | int => simp [V.isBool] at ht; simp [ht] at h
    | bool b =>
      refine ⟨set σ n (.int (if b then 1 else 0)), ?_, fun i hi => set_ne _ _ (by omega), ?_⟩
      · simp only [V.mv] at hv
        simp [runs, run, hv]
      · rw [set_same]; rfl
  · refine ⟨ha, le_refl _, ?_⟩
    intro σ v hv ht
    cases v with
    | bool => simp [V.isBool] at ht; simp [ht] at h
    | int m => exact ⟨σ, rfl, fun _ _ => rfl, hv⟩

/-- What is known of operations for an expression. -/
def Emits (f : List Int → List α → List α) (n : Nat) (P : Env α → V → Prop)
    (p : List Op × Arg × Nat) : Prop :=
  n ≤ p.2.2 ∧ p.2.1.1 < p.2.2 ∧
  ∀ σ v, P σ v → ∃ τ, runs f p.1 σ = some τ ∧ (∀ i < n, τ i = σ i) ∧
    τ p.2.1.1 = some v.mv ∧ p.2.1.2 = v.isBool ∧ v.Ok

theorem acmp_same {k : Cmp} {a b : V} (h : a.isBool = b.isBool) (hk : k = .eq ∨ a.isBool = false) :
    acmp (α := α) k a.mv b.mv = some (.bool (cmpSem k a.num b.num)) := by
  cases a <;> cases b <;> simp [V.isBool] at h hk ⊢
  · rfl
  · rename_i a b
    subst hk
    cases a <;> cases b <;> simp [V.mv, acmp, cmpSem, V.num]

theorem foldV_ty {k : Bin} {a b : V} {vs : List V} {v : V} (h : foldV (bin2 k) a (b :: vs) = some v) :
    v.isBool = a.isBool := by
  suffices ∀ (vs : List V) (a v : V), foldV (bin2 k) a vs = some v → v.isBool = a.isBool from this _ _ _ h
  intro vs
  induction vs with
  | nil => intro a v h; simp [foldV] at h; rw [h]
  | cons b vs ih =>
    intro a v h
    simp only [foldV] at h
    obtain ⟨c, hc, hv⟩ := Option.bind_eq_some_iff.mp h
    rw [ih c v hv]
    cases a <;> cases b <;> simp only [bin2] at hc
    · obtain ⟨d, h1, rfl⟩ := Option.map_eq_some_iff.mp hc; rfl
    · simp at hc
    · simp at hc
    · obtain ⟨d, h1, rfl⟩ := Option.map_eq_some_iff.mp hc; rfl

theorem emitOp_ok {k : Kind} {as : List Arg} {n : Nat} {t : Bool} (ha : ∀ a ∈ as, a.1 < n)
    (ht : kindTy k (as.map Prod.snd) = some t) :
    ∃ p, emitOp k as n = some p ∧ p.2.1.2 = t ∧
      Emits f n (fun σ v => ∃ vs, Holds σ as vs ∧ opSem k vs = some v) p := by
  cases k with
  | bin k =>
    match as, ha, ht with
    | [], _, ht => simp [kindTy] at ht
    | [_], _, ht => simp [kindTy] at ht
    | a :: b :: as, ha, ht =>
      obtain ⟨h1, h2, h3⟩ := foldBin_ok (f := f) (k := k) (as := b :: as) (acc := a.1) (n := n)
        (ha a (by simp)) (fun c hc => ha c (by simp only [List.mem_cons] at hc ⊢; tauto))
      refine ⟨_, rfl, ?_, h2, h1, ?_⟩
      · simp only [List.map_cons, kindTy] at ht
        cases k <;> simp only at ht <;> split_ifs at ht with hc <;>
          simp only [Option.some.injEq] at ht <;> subst ht <;> simp_all
      · rintro σ v ⟨vs, hh, hv⟩
        match vs, hh, hv with
        | [], hh, _ => simp [Holds] at hh
        | [_], hh, _ => simp [Holds] at hh
        | x :: y :: vs, hh, hv =>
          simp only [opSem] at hv
          rw [Holds] at hh
          obtain ⟨τ, t1, t2, t3, t4⟩ := h3 σ x (y :: vs) v hh.1.1 hh.2.1 hh.2.2 hv
          exact ⟨τ, t1, t2, t3, by rw [foldV_ty hv]; exact hh.1.2, t4⟩
  | minus =>
    match as, ha, ht with
    | [], _, ht => simp [kindTy] at ht
    | a :: _ :: _, _, ht => simp [kindTy] at ht
    | [a], ha, ht =>
      have ht' : t = false := by
        simp only [List.map_cons, List.map_nil] at ht
        cases h : a.2 <;> simp [h, kindTy] at ht; exact ht
      refine ⟨_, rfl, ht'.symm, by simp, by simp, ?_⟩
      rintro σ v ⟨vs, hh, hv⟩
      match vs, hh, hv with
      | [], hh, _ => simp [Holds] at hh
      | _ :: _ :: _, hh, _ => simp [Holds] at hh
      | [.bool _], _, hv => simp [opSem] at hv
      | [.int x], hh, hv =>
        simp only [opSem] at hv
        obtain ⟨y, hy, rfl⟩ := Option.map_eq_some_iff.mp hv
        obtain ⟨h1, rfl⟩ := fit_iff.mp hy
        simp only [Holds, V.mv] at hh
        have han := ha a (by simp)
        refine ⟨set (set σ n (.int 0)) (n + 1) (.int (-x)), ?_, ?_, ?_, rfl, h1⟩
        · have : set σ n (.int (wrap 0)) a.1 = some (.int x) := by
            rw [set_ne _ _ (by omega)]; exact hh.1.1
          have w0 : wrap 0 = 0 := wrap_fits (by unfold Fits; omega)
          rw [w0] at this
          simp [runs, run, set_same, w0, this, abin2, abinSem, wrap_fits h1]
        · intro i hi
          rw [set_ne _ _ (by omega), set_ne _ _ (by omega)]
        · rw [set_same]; rfl
  | cmp k =>
    match as, ha, ht with
    | [], _, ht => simp [kindTy] at ht
    | [_], _, ht => simp [kindTy] at ht
    | _ :: _ :: _ :: _, _, ht => simp [kindTy] at ht
    | [a, b], ha, ht =>
      have han := ha a (by simp)
      have hbn := ha b (by simp)
      simp only [List.map_cons, List.map_nil, kindTy] at ht
      split_ifs at ht with hk
      simp only [Option.some.injEq] at ht
      subst ht
      by_cases hab : a.2 = b.2
      · refine ⟨_, by simp [emitOp, hab]; rfl, rfl, by simp, by simp, ?_⟩
        rintro σ v ⟨vs, hh, hv⟩
        match vs, hh, hv with
        | [], hh, _ => simp [Holds] at hh
        | [_], hh, _ => simp [Holds] at hh
        | _ :: _ :: _ :: _, hh, _ => simp [Holds] at hh
        | [x, y], hh, hv =>
          simp only [opSem, Option.some.injEq] at hv
          subst hv
          simp only [Holds] at hh
          obtain ⟨⟨hx, hxt⟩, _, ⟨hy, hyt⟩, _, _⟩ := hh
          have := acmp_same (α := α) (k := k) (a := x) (b := y) (by rw [← hxt, ← hyt, hab])
            (by rw [← hxt]; rcases hk with h | h | h
                · exact .inl h
                · exact .inr h
                · exact .inr (by rw [hab, h]))
          refine ⟨set σ n (.bool (cmpSem k x.num y.num)), ?_, fun i hi => set_ne _ _ (by omega), ?_,
            rfl, trivial⟩
          · simp [runs, run, hx, hy, this]
          · rw [set_same]; rfl
      · obtain ⟨e1, e2, e3⟩ := extend_ok (f := f) (a := a) (n := n) han
        obtain ⟨g1, g2, g3⟩ := extend_ok (f := f) (a := b) (n := (extend a n).2.2) (by omega)
        refine ⟨_, by simp [emitOp, hab]; rfl, rfl, ?_, by simp, ?_⟩
        · exact e2.trans (g2.trans (Nat.le_succ _))
        rintro σ v ⟨vs, hh, hv⟩
        match vs, hh, hv with
        | [], hh, _ => simp [Holds] at hh
        | [_], hh, _ => simp [Holds] at hh
        | _ :: _ :: _ :: _, hh, _ => simp [Holds] at hh
        | [x, y], hh, hv =>
          simp only [opSem, Option.some.injEq] at hv
          subst hv
          simp only [Holds] at hh
          obtain ⟨⟨hx, hxt⟩, _, ⟨hy, hyt⟩, _, _⟩ := hh
          obtain ⟨τ, t1, t2, t3⟩ := e3 σ x hx hxt
          obtain ⟨ρ, r1, r2, r3⟩ := g3 τ y (by rw [t2 _ hbn]; exact hy) hyt
          refine ⟨set ρ (extend b (extend a n).2.2).2.2 (.bool (cmpSem k x.num y.num)), ?_, ?_, ?_, rfl,
            trivial⟩
          · have hx' : ρ (extend a n).2.1 = some (.int x.num) := by rw [r2 _ e1, t3]
            simp [runs_append, runs, run, t1, r1, hx', r3, acmp]
          · intro i hi
            rw [set_ne _ _ (by omega), r2 _ (by omega), t2 _ hi]
          · simp only [set_same]; rfl
  | select =>
    match as, ha, ht with
    | [], _, ht => simp [kindTy] at ht
    | [_], _, ht => simp [kindTy] at ht
    | [_, _], _, ht => simp [kindTy] at ht
    | _ :: _ :: _ :: _ :: _, _, ht => simp [kindTy] at ht
    | [c, a, b], ha, ht =>
      simp only [List.map_cons, List.map_nil] at ht
      have hc : c.2 = true := by cases h : c.2 <;> simp [h, kindTy] at ht ⊢
      simp only [hc, kindTy] at ht
      split_ifs at ht with hab
      simp only [Option.some.injEq] at ht
      refine ⟨_, by simp [emitOp, hc]; rfl, ht, by simp, by simp, ?_⟩
      rintro σ v ⟨vs, hh, hv⟩
      match vs, hh, hv with
      | [], hh, _ => simp [Holds] at hh
      | [_], hh, _ => simp [Holds] at hh
      | [_, _], hh, _ => simp [Holds] at hh
      | _ :: _ :: _ :: _ :: _, hh, _ => simp [Holds] at hh
      | [.int _, x, y], _, hv => simp [opSem] at hv
      | [.bool z, x, y], hh, hv =>
        simp only [opSem, Option.some.injEq] at hv
        simp only [Holds] at hh
        obtain ⟨⟨hz, _⟩, _, ⟨hx, hxt⟩, hxo, ⟨hy, hyt⟩, hyo, _⟩ := hh
        refine ⟨set σ n v.mv, ?_, fun i hi => set_ne _ _ (by omega), set_same _ _ _, ?_, ?_⟩
        · simp only [V.mv] at hz
          subst hv
          simp only [runs, run, hz, hx, hy]
          cases z <;> rfl
        · subst hv; cases z
          · simp only [Bool.false_eq_true, if_false]; rw [hab, hyt]
          · exact hxt
        · subst hv; cases z <;> assumption
  | zdivr =>
    match as, ha, ht with
    | [], _, ht => simp [kindTy] at ht
    | [_], _, ht => simp [kindTy] at ht
    | _ :: _ :: _ :: _, _, ht => simp [kindTy] at ht
    | [a, b], ha, ht =>
      have ht' : t = false := by
        simp only [List.map_cons, List.map_nil] at ht
        cases h : a.2 <;> cases h' : b.2 <;> simp [h, h', kindTy] at ht; exact ht
      refine ⟨_, rfl, ht'.symm, by simp, by simp, ?_⟩
      rintro σ v ⟨vs, hh, hv⟩
      match vs, hh, hv with
      | [], hh, _ => simp [Holds] at hh
      | [_], hh, _ => simp [Holds] at hh
      | _ :: _ :: _ :: _, hh, _ => simp [Holds] at hh
      | [.bool _, _], _, hv => simp [opSem] at hv
      | [.int _, .bool _], _, hv => simp [opSem] at hv
      | [.int x, .int y], hh, hv =>
        simp only [opSem] at hv
        split_ifs at hv with hy0
        simp only [Option.some.injEq] at hv
        subst hv
        simp only [Holds, V.mv] at hh
        obtain ⟨⟨hx, hxt⟩, hxo, ⟨hy, hyt⟩, hyo, _⟩ := hh
        refine ⟨set σ n (.int (x.tmod y)), ?_, fun i hi => set_ne _ _ (by omega), ?_, rfl, ?_⟩
        · simp only [runs, run, hx, hy, Option.bind_some, abin2, abinSem]
          rw [if_neg (by omega)]
          rfl
        · rw [set_same]; rfl
        · have h1 := Int.tmod_lt_of_pos x hy0
          have h2 := Int.tmod_lt_of_pos (-x) hy0
          rw [Int.neg_tmod] at h2
          simp only [V.Ok, Fits] at hyo ⊢
          omega
  | pdivr =>
    match as, ha, ht with
    | [], _, ht => simp [kindTy] at ht
    | [_], _, ht => simp [kindTy] at ht
    | _ :: _ :: _ :: _, _, ht => simp [kindTy] at ht
    | [a, b], ha, ht =>
      have ht' : t = false := by
        simp only [List.map_cons, List.map_nil] at ht
        cases h : a.2 <;> cases h' : b.2 <;> simp [h, h', kindTy] at ht; exact ht
      refine ⟨_, rfl, ht'.symm, by simp, by simp, ?_⟩
      have han := ha a (by simp)
      have hbn := ha b (by simp)
      rintro σ v ⟨vs, hh, hv⟩
      match vs, hh, hv with
      | [], hh, _ => simp [Holds] at hh
      | [_], hh, _ => simp [Holds] at hh
      | _ :: _ :: _ :: _, hh, _ => simp [Holds] at hh
      | [.bool _, _], _, hv => simp [opSem] at hv
      | [.int _, .bool _], _, hv => simp [opSem] at hv
      | [.int x, .int y], hh, hv =>
        simp only [opSem] at hv
        split_ifs at hv with hy0
        simp only [Option.some.injEq] at hv
        subst hv
        simp only [Holds, V.mv] at hh
        obtain ⟨⟨hx, hxt⟩, hxo, ⟨hy, hyt⟩, hyo, _⟩ := hh
        have hmod := Int.emod_nonneg x hy0.2.ne'
        have hlt := Int.emod_lt_of_pos x hy0.2
        have heq := Int.mul_ediv_add_emod x y
        have hq := Int.ediv_nonneg hy0.1 hy0.2.le
        have hp : 0 ≤ y * (x / y) := Int.mul_nonneg hy0.2.le hq
        simp only [V.Ok, Fits] at hxo hyo
        have f1 : Fits (y * (x / y)) := by unfold Fits; omega
        have f2 : x - y * (x / y) = x % y := by omega
        have f3 : Fits (x % y) := by unfold Fits; omega
        refine ⟨set (set (set σ n (.int (x / y))) (n + 1) (.int (y * (x / y)))) (n + 2) (.int (x % y)),
          ?_, ?_, ?_, rfl, f3⟩
        · have e1 : run f (.bin n .floordivsi a.1 b.1) σ = some (set σ n (.int (x / y))) := by
            simp only [run, hx, hy, Option.bind_some, abin2, abinSem]
            rw [if_neg (by omega), Int.fdiv_eq_ediv_of_nonneg _ hy0.2.le]
            rfl
          have e2 : run f (.bin (n + 1) .muli b.1 n) (set σ n (.int (x / y))) =
              some (set (set σ n (.int (x / y))) (n + 1) (.int (y * (x / y)))) := by
            simp only [run, set_same, set_ne σ (MV.int (x / y)) (show b.1 ≠ n by omega), hy,
              Option.bind_some, abin2, abinSem, Option.map_some, wrap_fits f1]
          have e3 : run f (.bin (n + 2) .subi a.1 (n + 1))
              (set (set σ n (.int (x / y))) (n + 1) (.int (y * (x / y)))) =
              some (set (set (set σ n (.int (x / y))) (n + 1) (.int (y * (x / y)))) (n + 2)
                (.int (x % y))) := by
            simp only [run, set_same, set_ne _ (MV.int (y * (x / y))) (show a.1 ≠ n + 1 by omega),
              set_ne σ (MV.int (x / y)) (show a.1 ≠ n by omega), hx,
              Option.bind_some, abin2, abinSem, Option.map_some, f2, wrap_fits f3]
          simp [runs, e1, e2, e3]
        · intro i hi
          rw [set_ne _ _ (by omega), set_ne _ _ (by omega), set_ne _ _ (by omega)]
        · rw [set_same]; rfl
  | other => simp [kindTy] at ht

/-! ## Expressions -/

/-- The variables in scope have their values. -/
def Scope (iv : Nat → Option Nat) (sc : List Nat) (n : Nat) (env : Nat → Option Int) (σ : Env α) : Prop :=
  ∀ x ∈ sc, ∃ r a, iv x = some r ∧ r < n ∧ env x = some a ∧ Fits a ∧ σ r = some (.int a)

def Bound (iv : Nat → Option Nat) (sc : List Nat) (n : Nat) : Prop :=
  ∀ x ∈ sc, ∃ r, iv x = some r ∧ r < n

theorem Bound.mono {iv : Nat → Option Nat} {sc : List Nat} {n m : Nat} (h : Bound iv sc n) (hm : n ≤ m) :
    Bound iv sc m := by
  intro x hx
  obtain ⟨r, h1, h2⟩ := h x hx
  exact ⟨r, h1, by omega⟩

theorem Scope.congr {iv : Nat → Option Nat} {sc : List Nat} {n m : Nat} {env : Nat → Option Int}
    {σ τ : Env α} (h : Scope iv sc n env σ) (hm : n ≤ m) (hc : ∀ i < n, τ i = σ i) :
    Scope iv sc m env τ := by
  intro x hx
  obtain ⟨r, a, h1, h2, h3, h4, h5⟩ := h x hx
  exact ⟨r, a, h1, by omega, h3, h4, by rw [hc r h2, h5]⟩

mutual

theorem genE_ok {iv : Nat → Option Nat} {sc : List Nat} : ∀ (e : Expr) (n : Nat) (t : Bool),
    Bound iv sc n → tyOf sc e = some t →
    ∃ p, genE iv e n = some p ∧ p.2.1.2 = t ∧
      Emits f n (fun σ v => ∃ env, Scope iv sc n env σ ∧ eval env e = some v) p
  | .id x, n, t, hb, ht => by
    simp only [tyOf] at ht
    split_ifs at ht with hx
    simp only [Option.some.injEq] at ht
    subst ht
    obtain ⟨r, hr, hrn⟩ := hb x hx
    refine ⟨([], (r, false), n), by simp [genE, hr], rfl, le_refl _, hrn, ?_⟩
    rintro σ v ⟨env, hs, hv⟩
    obtain ⟨r', a, h1, h2, h3, h4, h5⟩ := hs x hx
    rw [hr] at h1
    obtain rfl := Option.some.inj h1
    simp only [eval, h3, Option.map_some, Option.some.injEq] at hv
    subst hv
    exact ⟨σ, rfl, fun _ _ => rfl, h5, rfl, h4⟩
  | .int c, n, t, _, ht => by
    simp only [tyOf, Option.some.injEq] at ht
    subst ht
    refine ⟨_, rfl, rfl, by simp, by simp, ?_⟩
    rintro σ v ⟨env, hs, hv⟩
    simp only [eval] at hv
    obtain ⟨y, hy, rfl⟩ := Option.map_eq_some_iff.mp hv
    obtain ⟨h1, rfl⟩ := fit_iff.mp hy
    refine ⟨set σ n (.int c), by simp [runs, run, wrap_fits h1], fun i hi => set_ne _ _ (by omega), ?_,
      rfl, h1⟩
    rw [set_same]; rfl
  | .op k args, n, t, hb, ht => by
    simp only [tyOf] at ht
    obtain ⟨ts, hts, hk⟩ := Option.bind_eq_some_iff.mp ht
    obtain ⟨⟨ops, as, n1⟩, h1, h2, h3, h4, h5⟩ := genEs_ok args n ts hb hts
    simp only at h2 h3 h4 h5
    obtain ⟨⟨ops', r, n2⟩, g1, g2, g3, g4, g5⟩ := emitOp_ok (f := f) (n := n1) (k := k) (t := t) h4
      (by rw [h2]; exact hk)
    simp only at g2 g3 g4 g5
    refine ⟨(ops ++ ops', r, n2), by simp [genE, h1, g1], g2, by simp only; omega, g4, ?_⟩
    rintro σ v ⟨env, hs, hv⟩
    simp only [eval] at hv
    obtain ⟨vs, hvs, hv⟩ := Option.bind_eq_some_iff.mp hv
    obtain ⟨τ, t1, t2, t3⟩ := h5 σ env vs hs hvs
    obtain ⟨ρ, r1, r2, r3⟩ := g5 τ v ⟨vs, t3, hv⟩
    refine ⟨ρ, by simp [runs_append, t1, r1], ?_, r3⟩
    intro i hi
    rw [r2 i (by omega), t2 i hi]

theorem genEs_ok {iv : Nat → Option Nat} {sc : List Nat} : ∀ (es : List Expr) (n : Nat) (ts : List Bool),
    Bound iv sc n → tysOf sc es = some ts →
    ∃ p, genEs iv es n = some p ∧ p.2.1.map Prod.snd = ts ∧ n ≤ p.2.2 ∧ (∀ a ∈ p.2.1, a.1 < p.2.2) ∧
      ∀ (σ : Env α) env vs, Scope iv sc n env σ → evals env es = some vs →
        ∃ τ, runs f p.1 σ = some τ ∧ (∀ i < n, τ i = σ i) ∧ Holds τ p.2.1 vs
  | [], n, ts, _, ht => by
    simp only [tysOf, Option.some.injEq] at ht
    subst ht
    refine ⟨_, rfl, rfl, le_refl _, by simp, ?_⟩
    intro σ env vs hs hv
    simp only [evals, Option.some.injEq] at hv
    subst hv
    exact ⟨σ, rfl, fun _ _ => rfl, trivial⟩
  | e :: es, n, ts, hb, ht => by
    simp only [tysOf] at ht
    cases ht1 : tyOf sc e with
    | none => simp [ht1] at ht
    | some t =>
      cases ht2 : tysOf sc es with
      | none => simp [ht1, ht2] at ht
      | some ts' =>
        simp only [ht1, ht2, Option.some.injEq] at ht
        subst ht
        obtain ⟨⟨ops, a, n1⟩, h1, h2, h3, h4, h5⟩ := genE_ok e n t hb ht1
        simp only at h2 h3 h4 h5
        obtain ⟨⟨ops', as, n2⟩, g1, g2, g3, g4, g5⟩ := genEs_ok es n1 ts' (hb.mono h3) ht2
        simp only at g2 g3 g4 g5
        refine ⟨(ops ++ ops', a :: as, n2), by simp [genEs, h1, g1], by simp [h2, g2],
          by simp only; omega, ?_, ?_⟩
        · intro b hb
          rcases List.mem_cons.mp hb with rfl | hb
          · simp only; omega
          · exact g4 b hb
        · intro σ env vs hs hv
          simp only [evals] at hv
          cases hv1 : eval env e with
          | none => simp [hv1] at hv
          | some v =>
            cases hv2 : evals env es with
            | none => simp [hv1, hv2] at hv
            | some vs' =>
              simp only [hv1, hv2, Option.some.injEq] at hv
              subst hv
              obtain ⟨τ, t1, t2, t3, t4, t5⟩ := h5 σ v ⟨env, hs, hv1⟩
              obtain ⟨ρ, r1, r2, r3⟩ := g5 τ env vs' (hs.congr h3 t2) hv2
              refine ⟨ρ, by simp [runs_append, t1, r1], ?_, ?_⟩
              · intro i hi
                rw [r2 i (by omega), t2 i hi]
              · exact ⟨⟨by rw [r2 _ h4, t3], t4⟩, t5, r3⟩

end

end Heir.Codegen
