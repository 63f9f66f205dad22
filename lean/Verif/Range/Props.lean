import Verif.Range.Spec
import Mathlib.Tactic.Linarith
import Mathlib.Tactic.Positivity
import Mathlib.Tactic.NormNum
import Mathlib.Tactic.Ring
import Mathlib.Tactic.IntervalCases
import Mathlib.Data.List.GetD
import Mathlib.Algebra.Order.AbsoluteValue.Basic
import Mathlib.Algebra.Order.Field.Power

/-! # Properties of the range analysis -/

namespace Heir.Range

variable {α : Type}

theorem upd_eq (t : Nat → α) (v : Nat) (a : α) : upd t v a v = a := by simp [upd]

theorem upd_ne (t : Nat → α) {v u : Nat} (a : α) (h : u ≠ v) : upd t v a u = t u := by simp [upd, h]

/-- The arities `SSA` demands. -/
def Arity (op : Op) : Prop :=
  match op.kind with
  | .add | .mul | .sub | .insert => op.args.length = 2
  | .const _ => op.args.length = 0
  | .init => op.args.length = 1
  | .other _ srcs => ∀ a ∈ srcs, a ∈ op.args

theorem run_of_defined (P : Nat → Prop) (st : (Nat → α) → Op → α) (l : List Op) (t : Nat → α)
    (h : SSA P l) (v : Nat) (hv : P v) : run st l t v = t v := by
  induction l generalizing P t with
  | nil => rfl
  | cons o l ih =>
    rw [run, ih _ _ h.2.2.2 (Or.inl hv), upd_ne]
    rintro rfl
    exact h.2.1 hv

theorem foldlM_congr {t t' : Nat → Option ℚ} {f : ℚ → ℚ → ℚ} {l : List Nat} (h : ∀ a ∈ l, t a = t' a) (x : ℚ) :
    l.foldlM (fun r a => (t a).map (f r)) x = l.foldlM (fun r a => (t' a).map (f r)) x := by
  induction l generalizing x with
  | nil => rfl
  | cons a l ih =>
    rw [List.foldlM_cons, List.foldlM_cons, h a (by simp)]
    congr 1
    funext y
    exact ih (fun b hb => h b (by simp [hb])) y

theorem firstInit_congr {t t' : Nat → Option ℚ} {l : List Nat} (h : ∀ a ∈ l, t a = t' a) :
    firstInit t l = firstInit t' l := by
  induction l with
  | nil => rfl
  | cons a l ih => rw [firstInit, firstInit, h a (by simp), ih fun b hb => h b (by simp [hb])]

theorem getD_mem {l : List Nat} {i : Nat} (h : i < l.length) : l.getD i 0 ∈ l := by
  rw [List.getD_eq_getElem _ _ h]; exact List.getElem_mem h

theorem step_congr (t t' : Nat → Option ℚ) (op : Op) (hA : Arity op) (h : ∀ a ∈ op.args, t a = t' a) :
    step t op = step t' op := by
  unfold step
  unfold Arity at hA
  cases hk : op.kind <;> simp only [hk] at hA ⊢
  · exact foldlM_congr h _
  · exact foldlM_congr h _
  · rw [h _ (getD_mem (by omega))]
  · rw [h _ (getD_mem (by omega)), h _ (getD_mem (by omega))]
  · exact firstInit_congr h
  · exact firstInit_congr h

theorem run_fix (P : Nat → Prop) (l : List Op) (t : Nat → Option ℚ) (h : SSA P l) :
    ∀ o ∈ l, run step l t o.res = step (run step l t) o := by
  induction l generalizing P t with
  | nil => simp
  | cons o l ih =>
    intro o' ho'
    rw [run]
    rcases List.mem_cons.1 ho' with rfl | ho'
    · rw [run_of_defined _ _ _ _ h.2.2.2 _ (Or.inr rfl), upd_eq]
      apply step_congr _ _ _ h.2.2.1
      intro a ha
      rw [run_of_defined _ _ _ _ h.2.2.2 _ (Or.inl (h.1 a ha)), upd_ne]
      rintro rfl
      exact h.2.1 (h.1 _ ha)
    · exact ih _ _ h.2.2.2 o' ho'

theorem ssa_induction (Q : Nat → Prop) (l : List Op) (P : Nat → Prop) (h : SSA P l) (h0 : ∀ v, P v → Q v)
    (hs : ∀ o ∈ l, Arity o → (∀ a ∈ o.args, Q a) → Q o.res) : ∀ o ∈ l, Q o.res := by
  induction l generalizing P with
  | nil => simp
  | cons o l ih =>
    have ho : Q o.res := hs o (by simp) h.2.2.1 fun a ha => h0 a (h.1 a ha)
    intro o' ho'
    rcases List.mem_cons.1 ho' with rfl | ho'
    · exact ho
    · refine ih _ h.2.2.2 ?_ (fun o ho => hs o (by simp [ho])) o' ho'
      rintro v (hv | rfl)
      · exact h0 v hv
      · exact ho

/-! ## Constants -/

theorem bumpAbs_ge (m : Option ℚ) (c : ℚ) : (∀ b, m = some b → b ≤ bumpAbs m c) ∧ |c| ≤ bumpAbs m c := by
  unfold bumpAbs
  cases m with
  | none => simp
  | some b =>
    simp only [Option.some.injEq, forall_eq']
    split
    · exact ⟨by linarith, le_rfl⟩
    · exact ⟨le_rfl, by linarith⟩

theorem maxAbs_ge (cs : List ℚ) (m : Option ℚ) (r : ℚ) (h : maxAbs m cs = some r) :
    (∀ b, m = some b → b ≤ r) ∧ ∀ c ∈ cs, |c| ≤ r := by
  induction cs generalizing m with
  | nil => exact ⟨fun b hb => by rw [maxAbs, hb] at h; cases h; exact le_rfl, by simp⟩
  | cons c cs ih =>
    rw [maxAbs] at h
    obtain ⟨h1, h2⟩ := ih _ h
    have h1 := h1 _ rfl
    obtain ⟨h3, h4⟩ := bumpAbs_ge m c
    exact ⟨fun b hb => le_trans (h3 b hb) h1, fun x hx => by
      rcases List.mem_cons.1 hx with rfl | hx; exacts [le_trans h4 h1, h2 x hx]⟩

theorem maxAbs_nonneg (cs : List ℚ) (m : Option ℚ) (r : ℚ) (hm : ∀ b, m = some b → 0 ≤ b) (h : maxAbs m cs = some r) :
    0 ≤ r := by
  cases cs with
  | nil => exact hm r h
  | cons c cs => exact le_trans (abs_nonneg c) ((maxAbs_ge _ _ _ h).2 c (by simp))

theorem clearSign_nonneg {w : Nat} (c : BitVec w) : 0 ≤ (clearSign c).toInt := by
  unfold clearSign
  rcases w with _ | w
  · rw [BitVec.eq_nil (BitVec.ofNat 0 _)]; decide
  · have h1 : c.toNat % 2 ^ w < 2 ^ w := Nat.mod_lt _ (by positivity)
    have h2 : (2 : Nat) ^ (w + 1) = 2 * 2 ^ w := by ring
    have h3 : (BitVec.ofNat (w + 1) (c.toNat % 2 ^ (w + 1 - 1))).toNat = c.toNat % 2 ^ w := by
      rw [BitVec.toNat_ofNat]
      apply Nat.mod_eq_of_lt
      simp only [Nat.add_sub_cancel]
      omega
    unfold BitVec.toInt
    rw [h3, if_pos (by omega)]
    omega

theorem clearSign_of_nonneg {w : Nat} (c : BitVec w) (h : 0 ≤ c.toInt) : clearSign c = c := by
  unfold clearSign
  rcases w with _ | w
  · rw [BitVec.eq_nil c]; exact BitVec.eq_nil _
  · have h2 : (2 : Nat) ^ (w + 1) = 2 * 2 ^ w := by ring
    have hlt : c.toNat < 2 ^ w := by
      unfold BitVec.toInt at h
      have := c.isLt
      split at h
      · omega
      · exfalso; omega
    apply BitVec.eq_of_toNat_eq
    rw [BitVec.toNat_ofNat]
    simp only [Nat.add_sub_cancel]
    rw [Nat.mod_eq_of_lt hlt, Nat.mod_eq_of_lt (by omega)]

theorem toInt_of_nonneg {w : Nat} {c : BitVec w} (h : 0 ≤ c.toInt) : c.toInt = c.toNat := by
  unfold BitVec.toInt at h ⊢
  have := c.isLt
  split at h
  · rw [if_pos (by assumption)]
  · omega

theorem bumpCleared_ge {w : Nat} (m : Option (BitVec w)) (c : BitVec w) (hm : ∀ b, m = some b → 0 ≤ b.toInt) :
    0 ≤ (bumpCleared m c).toInt ∧ (∀ b, m = some b → b.toInt ≤ (bumpCleared m c).toInt) ∧
      (clearSign c).toInt ≤ (bumpCleared m c).toInt := by
  have hc := clearSign_nonneg c
  unfold bumpCleared
  cases m with
  | none => simp [hc]
  | some b =>
    have hb0 := hm b rfl
    simp only [Option.some.injEq, forall_eq']
    split
    · rename_i hb
      refine ⟨hc, ?_, le_rfl⟩
      rw [toInt_of_nonneg hb0, toInt_of_nonneg hc]
      simpa [BitVec.ule] using hb
    · rename_i hb
      refine ⟨hb0, le_rfl, ?_⟩
      rw [toInt_of_nonneg hb0, toInt_of_nonneg hc]
      have : ¬ b.toNat ≤ (clearSign c).toNat := by simpa [BitVec.ule] using hb
      omega

theorem maxCleared_ge {w : Nat} (cs : List (BitVec w)) (m : Option (BitVec w)) (r : BitVec w)
    (hm : ∀ b, m = some b → 0 ≤ b.toInt) (h : maxCleared m cs = some r) :
    0 ≤ r.toInt ∧ (∀ b, m = some b → b.toInt ≤ r.toInt) ∧ ∀ c ∈ cs, (clearSign c).toInt ≤ r.toInt := by
  induction cs generalizing m with
  | nil => exact ⟨hm r h, fun b hb => by rw [maxCleared, hb] at h; cases h; exact le_rfl, by simp⟩
  | cons c cs ih =>
    rw [maxCleared] at h
    obtain ⟨b0, b1, b2⟩ := bumpCleared_ge m c hm
    obtain ⟨h0, h1, h2⟩ := ih _ (fun b hb => by cases hb; exact b0) h
    have h1 := h1 _ rfl
    exact ⟨h0, fun b hb => le_trans (b1 b hb) h1, fun x hx => by
      rcases List.mem_cons.1 hx with rfl | hx; exacts [le_trans b2 h1, h2 x hx]⟩

/-- The range of a constant bounds its elements, if integer tensors have no negative elements. -/
theorem constRange_ge (c : Const) (hc : match c with | .denseInt cs => ∀ x ∈ cs, 0 ≤ x.toInt | _ => True) (r : ℚ)
    (h : (constRange c).getD none = some r) : 0 ≤ r ∧ ∀ x ∈ c.elems, |x| ≤ r := by
  unfold constRange at h
  cases c with
  | float c =>
    simp only [Option.getD_some, Option.some.injEq] at h
    subst h
    exact ⟨abs_nonneg _, by simp [Const.elems]⟩
  | int c =>
    unfold intRange at h
    simp only at h
    split at h
    · simp only [Option.map_some, Option.getD_some, Option.some.injEq] at h
      subst h
      refine ⟨by positivity, fun x hx => ?_⟩
      simp only [Const.elems, List.mem_singleton] at hx
      subst hx
      rw [Nat.cast_natAbs, Int.cast_abs]
    · simp at h
  | denseFloat cs =>
    simp only [Option.getD_some] at h
    exact ⟨maxAbs_nonneg _ _ _ (by simp) h, (maxAbs_ge _ _ _ h).2⟩
  | denseInt cs =>
    simp only at h hc
    split at h
    · cases h
    · rename_i m hm
      split at h
      · simp only [Option.getD_some, Option.some.injEq] at h
        subst h
        obtain ⟨h0, -, h2⟩ := maxCleared_ge _ _ _ (by simp) hm
        refine ⟨by exact_mod_cast h0, fun x hx => ?_⟩
        simp only [Const.elems, List.mem_map] at hx
        obtain ⟨y, hy, rfl⟩ := hx
        have h3 := h2 y hy
        have h4 := hc y hy
        rw [clearSign_of_nonneg y h4] at h3
        rw [abs_of_nonneg (by exact_mod_cast h4)]
        exact_mod_cast h3
      · simp at h
  | resource cs => simp at h

/-! ## C82: ranges bound magnitudes -/

theorem join_ge {l r : Option ℚ} {x : ℚ} (h : join l r = some x) : (∀ a, l = some a → a ≤ x) ∧ ∀ a, r = some a → a ≤ x := by
  cases l <;> cases r <;> simp only [join, Option.some.injEq, reduceCtorEq] at h
  · subst h; simp
  · subst h; simp
  · subst h; simp

/-- The range of every value bounds the magnitudes of its elements, for inputs within the input range.  Missing:
subtractions, integer tensors with negative elements, operations that take elements from other operands than the
first, and loops. -/
theorem C82_ranges_bound_partial (input : ℚ) (hin : 0 ≤ input) (g : Prog) (V : Nat → Nat → ℚ)
    (hssa : SSA (· < g.nargs) g.ops) (hcov : Covered (ranges input g) g) (hrun : Runs input V g) (v : Nat)
    (hv : g.Value v) (r : ℚ) (h : ranges input g v = some r) : 0 ≤ r ∧ ∀ i, |V v i| ≤ r := by
  have hent : ∀ x, x < g.nargs → ranges input g x = some input := fun x hx => by
    unfold ranges
    rw [run_of_defined _ _ _ _ hssa x hx]
    simp [hx]
  have hfix := run_fix _ _ (fun v => if v < g.nargs then some input else none) hssa
  change ∀ o ∈ g.ops, ranges input g o.res = step (ranges input g) o at hfix
  generalize ranges input g = t at *
  have h0 : ∀ x, x < g.nargs → ∀ r, t x = some r → 0 ≤ r ∧ ∀ i, |V x i| ≤ r := by
    intro x hx r hr
    rw [hent x hx] at hr
    cases hr
    exact ⟨hin, hrun.args x hx⟩
  have hall := ssa_induction (fun v => ∀ r, t v = some r → 0 ≤ r ∧ ∀ i, |V v i| ≤ r) g.ops _ hssa h0 (by
    intro op hop hA ih r hr
    rw [hfix op hop] at hr
    have hp := hrun.ops op hop
    have hc := hcov op hop
    unfold step at hr
    unfold Performs at hp
    unfold Arity at hA
    cases hk : op.kind with
    | add =>
      simp only [hk] at hr hp hA
      match hq : op.args, hA with
      | [a, b], _ =>
        simp only [hq, List.getD_cons_zero, List.getD_cons_succ] at hr hp ih
        simp only [List.foldlM_cons, List.foldlM_nil, Option.bind_eq_bind, Option.bind_eq_some_iff,
          Option.map_eq_some_iff, Option.pure_def, Option.some.injEq] at hr
        obtain ⟨_, ⟨x, hx, rfl⟩, _, ⟨y, hy, rfl⟩, rfl⟩ := hr
        obtain ⟨x0, x1⟩ := ih a (by simp) x hx
        obtain ⟨y0, y1⟩ := ih b (by simp) y hy
        refine ⟨by linarith, fun i => ?_⟩
        rw [hp i]
        have := abs_add_le (V a i) (V b i)
        linarith [x1 i, y1 i]
    | mul =>
      simp only [hk] at hr hp hA
      match hq : op.args, hA with
      | [a, b], _ =>
        simp only [hq, List.getD_cons_zero, List.getD_cons_succ] at hr hp ih
        simp only [List.foldlM_cons, List.foldlM_nil, Option.bind_eq_bind, Option.bind_eq_some_iff,
          Option.map_eq_some_iff, Option.pure_def, Option.some.injEq] at hr
        obtain ⟨_, ⟨x, hx, rfl⟩, _, ⟨y, hy, rfl⟩, rfl⟩ := hr
        obtain ⟨x0, x1⟩ := ih a (by simp) x hx
        obtain ⟨y0, y1⟩ := ih b (by simp) y hy
        refine ⟨by positivity, fun i => ?_⟩
        rw [hp i, abs_mul, one_mul]
        exact mul_le_mul (x1 i) (y1 i) (abs_nonneg _) x0
    | const c =>
      simp only [hk] at hr hp hc
      obtain ⟨c0, c1⟩ := constRange_ge c (by cases c <;> simp_all) r hr
      refine ⟨c0, fun i => ?_⟩
      rw [hp i]
      by_cases hi : i < c.elems.length
      · rw [List.getD_eq_getElem _ _ hi]; exact c1 _ (List.getElem_mem hi)
      · rw [List.getD_eq_default _ _ (by omega)]; simpa using c0
    | init =>
      simp only [hk] at hr hp hA
      obtain ⟨x0, x1⟩ := ih _ (getD_mem (by omega)) r hr
      exact ⟨x0, fun i => by rw [hp i]; exact x1 i⟩
    | insert =>
      simp only [hk] at hr hp hA
      obtain ⟨k, hp⟩ := hp
      split at hr
      · rename_i hsome
        rw [Bool.and_eq_true, Option.isSome_iff_exists, Option.isSome_iff_exists] at hsome
        obtain ⟨⟨x, hx⟩, ⟨y, hy⟩⟩ := hsome
        obtain ⟨j1, j2⟩ := join_ge hr
        obtain ⟨x0, x1⟩ := ih _ (getD_mem (i := 0) (by omega)) x hx
        obtain ⟨y0, y1⟩ := ih _ (getD_mem (i := 1) (by omega)) y hy
        refine ⟨le_trans x0 (j1 x hx), fun i => ?_⟩
        rw [hp i]
        split
        · exact le_trans (x1 0) (j1 x hx)
        · exact le_trans (y1 i) (j2 y hy)
      · cases hr
    | sub => simp only [hk] at hc
    | other id srcs =>
      simp only [hk] at hr hp hc hA
      obtain ⟨hs, hn⟩ := hc
      match hq : op.args, hr with
      | [], hr => simp [firstInit] at hr
      | a :: as, hr =>
        simp only [hq, List.headD_cons] at hs hn ih
        have ha : t a = some r := by
          cases hta : t a with
          | none => rw [hn hta] at hr; cases hr
          | some x => rw [firstInit, hta] at hr; simpa using hr
        obtain ⟨x0, x1⟩ := ih a (by simp) r ha
        refine ⟨x0, fun i => ?_⟩
        rcases hp i with h | ⟨b, hb, j, h | h⟩
        · rw [h]; simpa using x0
        · rw [h, hs b hb]; exact x1 j
        · rw [h, hs b hb, abs_neg]; exact x1 j)
  rcases hv with hv | ⟨op, hop, rfl⟩
  · exact h0 v hv r h
  · exact hall op hop r h

/-- `x * 3 + x` rotated by two, with an element of a tensor replaced. -/
def sample : Prog where
  nargs := 1
  ops := [⟨.const (.denseFloat [-3, 2, 1]), [], 1, false⟩, ⟨.mul, [0, 1], 2, false⟩, ⟨.add, [2, 0], 3, true⟩,
    ⟨.const (.int (2 : BitVec 32)), [], 4, false⟩, ⟨.other 0 [3], [3, 4], 5, true⟩,
    ⟨.const (.int (-7 : BitVec 16)), [], 6, false⟩, ⟨.insert, [6, 5], 7, true⟩]

def sampleValues (x : Nat → ℚ) : Nat → Nat → ℚ := fun v i =>
  let c : Nat → ℚ := fun i => [(-3 : ℚ), 2, 1].getD i 0
  match v with
  | 0 => x i
  | 1 => c i
  | 2 => x i * c i
  | 3 => x i * c i + x i
  | 4 => [(2 : ℚ)].getD i 0
  | 5 => x (i + 2) * c (i + 2) + x (i + 2)
  | 6 => [(-7 : ℚ)].getD i 0
  | 7 => if i = 1 then -7 else x (i + 2) * c (i + 2) + x (i + 2)
  | _ => 0

example (x : Nat → ℚ) (hx : ∀ i, |x i| ≤ 1) : SSA (· < sample.nargs) sample.ops ∧ Covered (ranges 1 sample) sample ∧
    Runs 1 (sampleValues x) sample ∧ ranges 1 sample 7 = some 7 ∧ ranges 1 sample 5 = some 4 := by
  refine ⟨by simp [sample, SSA], ?_, ⟨fun v hv i => ?_, ?_⟩, by decide +kernel, by decide +kernel⟩
  · intro op hop
    simp only [sample, List.mem_cons, List.not_mem_nil, or_false] at hop
    rcases hop with rfl | rfl | rfl | rfl | rfl | rfl | rfl <;> simp only [List.headD_cons]
    refine ⟨by simp, fun h => ?_⟩
    have : ranges 1 sample 3 = some 4 := by decide +kernel
    rw [this] at h
    cases h
  · have : v = 0 := by have : v < 1 := hv; omega
    subst this
    exact hx i
  · intro op hop
    simp only [sample, List.mem_cons, List.not_mem_nil, or_false] at hop
    rcases hop with rfl | rfl | rfl | rfl | rfl | rfl | rfl
    · intro i; rfl
    · intro i; rfl
    · intro i; rfl
    · intro i
      have : ((2 : BitVec 32).toInt : ℚ) = 2 := by decide
      simp only [Const.elems, this]; rfl
    · intro i
      exact Or.inr ⟨3, by simp, i + 2, Or.inl rfl⟩
    · intro i
      have : ((-7 : BitVec 16).toInt : ℚ) = -7 := by decide
      simp only [Const.elems, this]; rfl
    · refine ⟨1, fun i => ?_⟩
      simp only [sampleValues, List.getD_cons_zero, List.getD_cons_succ]

/-! ### Where the analysis is wrong -/

/-- The property without its conditions, for one program. -/
def Wrong (g : Prog) : Prop :=
  SSA (· < g.nargs) g.ops ∧ defined g = true ∧ ∃ V, Runs 1 V g ∧ ∃ v i r, g.Value v ∧ ranges 1 g v = some r ∧ r < |V v i|

/-- A difference is given the range of its first operand. -/
theorem C82_sub_violated : Wrong ⟨2, [⟨.sub, [0, 1], 2, true⟩]⟩ := by
  refine ⟨by simp [SSA], by decide +kernel,
    fun v _ => match v with | 0 => 1 | 1 => -1 | _ => 2, ⟨?_, ?_⟩, 2, 0, 1, Or.inr ⟨_, List.mem_singleton_self _, rfl⟩,
    by decide +kernel, by norm_num⟩
  · intro v hv i
    have hv' : v < 2 := hv
    interval_cases v <;> norm_num
  · intro op hop
    simp only [List.mem_singleton] at hop
    subst hop
    intro i
    norm_num

/-- Clearing the sign bit of a negative element is not its absolute value: `-100` as an 8-bit integer counts as 28. -/
theorem C82_negative_elements_violated : Wrong ⟨0, [⟨.const (.denseInt [(-100 : BitVec 8)]), [], 0, false⟩]⟩ := by
  refine ⟨by simp [SSA], by decide +kernel, fun _ i => [(-100 : ℚ)].getD i 0, ⟨fun v hv => by simp at hv, ?_⟩, 0, 0, 28,
    Or.inr ⟨_, List.mem_singleton_self _, rfl⟩, by decide +kernel, by norm_num⟩
  intro op hop
  simp only [List.mem_singleton] at hop
  subst hop
  intro i
  have : ((-100 : BitVec 8).toInt : ℚ) = -100 := by decide
  simp only [Const.elems, List.map_cons, List.map_nil, this]

/-- A rotation of a constant the analysis does not read has the range of the rotation amount. -/
theorem C82_resource_violated : Wrong ⟨0, [⟨.const (.resource [5]), [], 0, false⟩,
    ⟨.const (.int (1 : BitVec 32)), [], 1, false⟩, ⟨.other 0 [0], [0, 1], 2, false⟩]⟩ := by
  refine ⟨by simp [SSA], by decide +kernel, fun v i => match v with | 0 => [(5 : ℚ)].getD i 0 | 1 => [(1 : ℚ)].getD i 0 | _ => [(5 : ℚ)].getD i 0,
    ⟨fun v hv => by simp at hv, ?_⟩, 2, 0, 1, Or.inr ⟨⟨.other 0 [0], [0, 1], 2, false⟩, by simp, rfl⟩, by decide +kernel, by norm_num⟩
  intro op hop
  simp only [List.mem_cons, List.not_mem_nil, or_false] at hop
  rcases hop with rfl | rfl | rfl
  · intro i; rfl
  · intro i
    have : ((1 : BitVec 32).toInt : ℚ) = 1 := by decide
    simp only [Const.elems, this]
  · intro i
    exact Or.inr ⟨0, by simp, i, Or.inl rfl⟩

/-- An operation that combines tensors, such as `tensor.insert_slice`, has the range of its first operand. -/
theorem C82_combination_violated : Wrong ⟨1, [⟨.add, [0, 0], 1, true⟩, ⟨.other 0 [0, 1], [0, 1], 2, true⟩]⟩ := by
  refine ⟨by simp [SSA], by decide +kernel, fun v _ => match v with | 0 => 1 | _ => 2,
    ⟨?_, ?_⟩, 2, 0, 1, Or.inr ⟨⟨.other 0 [0, 1], [0, 1], 2, true⟩, by simp, rfl⟩, by decide +kernel, by norm_num⟩
  · intro v hv i
    have hv' : v < 1 := hv
    interval_cases v
    norm_num
  · intro op hop
    simp only [List.mem_cons, List.not_mem_nil, or_false] at hop
    rcases hop with rfl | rfl
    · intro i; norm_num
    · intro i
      exact Or.inr ⟨1, by simp, 0, Or.inl rfl⟩

/-- A constant tensor without elements, a scalar constant that is the smallest `int64_t`: the analysis is undefined. -/
theorem C82_constants_undefined : constRange (.denseInt ([] : List (BitVec 32))) = none ∧
    constRange (.int (BitVec.intMin 64)) = none := by
  constructor <;> decide +kernel

/-- A loop that doubles its argument has no stable range: the solver goes on. -/
theorem C82_loop_diverges (n : Nat) :
    loopStates 1 [⟨.add, [0, 0], 1, false⟩] 0 1 n = some (2 ^ n) ∧
      loopStates 1 [⟨.add, [0, 0], 1, false⟩] 0 1 (n + 1) ≠ loopStates 1 [⟨.add, [0, 0], 1, false⟩] 0 1 n := by
  have key : ∀ n, loopStates 1 [⟨.add, [0, 0], 1, false⟩] 0 1 n = some (2 ^ n) := by
    intro n
    induction n with
    | zero => simp [loopStates]
    | succ n ih =>
      rw [loopStates, ih]
      have : run step [⟨.add, [0, 0], 1, false⟩] (upd (fun _ => none) 0 (some ((2 : ℚ) ^ n))) 1 =
          some (2 ^ n + 2 ^ n) := by
        simp [run, step, upd]
      rw [this, join, max_eq_right (by have : (0 : ℚ) ≤ 2 ^ n := by positivity
                                       linarith)]
      congr 1; ring
  refine ⟨key n, ?_⟩
  rw [key, key]
  simp only [ne_eq, Option.some.injEq]
  intro h
  have : (0 : ℚ) < 2 ^ n := by positivity
  rw [pow_succ] at h
  linarith

/-! ## C83: the first modulus has room -/

theorem bumpZero_ge (t : Nat → Option ℚ) (op : Op) (m : Option ℚ) :
    (∀ b, m = some b → ∃ r, bumpZero t op m = some r ∧ b ≤ r) ∧
      (op.atZero = true → ∀ b, t op.res = some b → ∃ r, bumpZero t op m = some r ∧ b ≤ r) := by
  unfold bumpZero
  cases op.atZero with
  | false => exact ⟨fun b hb => ⟨b, hb, le_rfl⟩, by simp⟩
  | true =>
    cases t op.res <;> cases m <;> simp
    split <;> simp <;> linarith

theorem maxZero_ge (t : Nat → Option ℚ) (ops : List Op) (m : Option ℚ) (r : ℚ) (h : maxZero t ops m = some r) :
    (∀ b, m = some b → b ≤ r) ∧ ∀ op ∈ ops, op.atZero = true → ∀ b, t op.res = some b → b ≤ r := by
  induction ops generalizing m with
  | nil => exact ⟨fun b hb => by rw [maxZero, hb] at h; cases h; exact le_rfl, by simp⟩
  | cons o ops ih =>
    rw [maxZero] at h
    obtain ⟨h1, h2⟩ := ih _ h
    obtain ⟨b1, b2⟩ := bumpZero_ge t o m
    refine ⟨fun b hb => ?_, fun op hop hz b hb => ?_⟩
    · obtain ⟨x, hx, hle⟩ := b1 b hb
      exact le_trans hle (h1 x hx)
    · rcases List.mem_cons.1 hop with rfl | hop
      · obtain ⟨x, hx, hle⟩ := b2 hz b hb
        exact le_trans hle (h1 x hx)
      · exact h2 op hop hz b hb

theorem bumpZero_mem (t : Nat → Option ℚ) (op : Op) (m : Option ℚ) :
    bumpZero t op m = m ∨ op.atZero = true ∧ bumpZero t op m = t op.res := by
  unfold bumpZero
  cases op.atZero with
  | false => simp
  | true =>
    rcases t op.res with _ | r <;> rcases m with _ | b <;> simp only [if_true, true_and, or_true, true_or]
    split <;> simp

theorem maxZero_mem (t : Nat → Option ℚ) (ops : List Op) (m : Option ℚ) (r : ℚ) (h : maxZero t ops m = some r) :
    m = some r ∨ ∃ op ∈ ops, op.atZero = true ∧ t op.res = some r := by
  induction ops generalizing m with
  | nil => exact Or.inl h
  | cons o ops ih =>
    rw [maxZero] at h
    rcases ih _ h with h | ⟨op, hop, h⟩
    · rcases bumpZero_mem t o m with h' | ⟨hz, h'⟩
      · exact Or.inl (h' ▸ h)
      · exact Or.inr ⟨o, by simp, hz, h' ▸ h⟩
    · exact Or.inr ⟨op, by simp [hop], h⟩

/-- The extra bits hold every result at level zero, with a sign bit and one bit to spare, and less bits would not. -/
theorem extraBits_room (input : ℚ) (hin : 0 ≤ input) (g : Prog) (V : Nat → Nat → ℚ)
    (hssa : SSA (· < g.nargs) g.ops) (hcov : Covered (ranges input g) g) (hrun : Runs input V g) (e : Int)
    (h : extraBits input g = some (some e)) :
    (∀ op ∈ g.ops, op.atZero = true → (ranges input g op.res).isSome = true → ∀ i, 4 * |V op.res i| ≤ 2 ^ e) ∧
    ∃ op ∈ g.ops, op.atZero = true ∧ ∃ r, ranges input g op.res = some r ∧ 2 ^ (e - 1) < 4 * r := by
  unfold extraBits at h
  cases hm : maxZero (ranges input g) g.ops none with
  | none => rw [hm] at h; simp at h
  | some r =>
    rw [hm] at h
    simp only at h
    split at h
    · simp at h
    · rename_i hr0
      simp only [Option.some.injEq] at h
      have hfour : (4 : ℚ) = 2 ^ (2 : Int) := by norm_num
      constructor
      · intro op hop hz hsome i
        obtain ⟨b, hb⟩ := Option.isSome_iff_exists.1 hsome
        have h1 := (C82_ranges_bound_partial input hin g V hssa hcov hrun op.res (Or.inr ⟨op, hop, rfl⟩) b hb).2 i
        have h2 := (maxZero_ge _ _ _ _ hm).2 op hop hz b hb
        have h3 : r ≤ (2 : ℚ) ^ Int.clog 2 r := Int.self_le_zpow_clog (by norm_num) r
        have h4 : (2 : ℚ) ^ e = 4 * 2 ^ Int.clog 2 r := by
          rw [← h, hfour, ← zpow_add₀ (by norm_num)]
          congr 1; ring
        rw [h4]
        linarith
      · rcases maxZero_mem _ _ _ _ hm with h' | ⟨op, hop, hz, hr⟩
        · cases h'
        · refine ⟨op, hop, hz, r, hr, ?_⟩
          have hpos : 0 < r := lt_of_le_of_ne
            (C82_ranges_bound_partial input hin g V hssa hcov hrun op.res (Or.inr ⟨op, hop, rfl⟩) r hr).1 (Ne.symm hr0)
          have h3 : (2 : ℚ) ^ (Int.clog 2 r - 1) < r := Int.zpow_pred_clog_lt_self (by norm_num) hpos
          have h4 : (2 : ℚ) ^ (e - 1) = 4 * 2 ^ (Int.clog 2 r - 1) := by
            rw [← h, hfour, ← zpow_add₀ (by norm_num)]
            congr 1; ring
          rw [h4]
          linarith

/-- The bits chosen for the first modulus, or those given and validated without a warning, hold every result at level
zero, encoded at the scaling modulus, with a sign bit and one bit to spare; of those chosen, one less would not do so
for the ranges.  Missing: arguments at level zero, results without a range, and what `C82_ranges_bound_partial` leaves
out. -/
theorem C83_first_modulus_room_partial (given scaling : Int) (validate : Bool) (hval : given = 0 ∨ validate = true)
    (input : ℚ) (hin : 0 ≤ input) (g : Prog) (V : Nat → Nat → ℚ) (hssa : SSA (· < g.nargs) g.ops)
    (hcov : Covered (ranges input g) g) (hrun : Runs input V g) (bits : Int)
    (h : firstMod given scaling validate input g = some (some (bits, false))) :
    (∀ op ∈ g.ops, op.atZero = true → (ranges input g op.res).isSome = true →
      ∀ i, 4 * (|V op.res i| * 2 ^ scaling) ≤ 2 ^ bits) ∧
    (given ≠ 0 → bits = given) ∧
    (given = 0 → ∃ op ∈ g.ops, op.atZero = true ∧ ∃ r, ranges input g op.res = some r ∧
      2 ^ (bits - 1) < 4 * (r * 2 ^ scaling)) := by
  have hc : (given = 0 || validate) = true := by
    rcases hval with h | h <;> simp [h]
  unfold firstMod at h
  rw [hc] at h
  simp only [if_true] at h
  obtain ⟨o, ho, h'⟩ := Option.map_eq_some_iff.1 h
  clear h
  obtain ⟨e, rfl, h⟩ := Option.map_eq_some_iff.1 h'
  clear h'
  obtain ⟨hr1, op, hop, hz, r, hr, hlt⟩ := extraBits_room input hin g V hssa hcov hrun e ho
  have hs : (0 : ℚ) < 2 ^ scaling := by positivity
  have hle : scaling + e ≤ bits := by
    split at h
    · cases h; exact le_rfl
    · simp only [Prod.mk.injEq, decide_eq_false_iff_not] at h
      omega
  refine ⟨fun op hop hz hsome i => ?_, fun hg => ?_, fun hg => ?_⟩
  · have h1 := mul_le_mul_of_nonneg_right (hr1 op hop hz hsome i) hs.le
    have h2 : (2 : ℚ) ^ e * 2 ^ scaling ≤ 2 ^ bits := by
      rw [← zpow_add₀ (by norm_num)]
      exact zpow_le_zpow_right₀ (by norm_num) (by omega)
    linarith
  · rw [if_neg hg] at h
    simp only [Prod.mk.injEq] at h
    exact h.1.symm
  · rw [if_pos hg] at h
    simp only [Prod.mk.injEq, and_true] at h
    refine ⟨op, hop, hz, r, hr, ?_⟩
    have h1 := mul_lt_mul_of_pos_right hlt hs
    have h2 : (2 : ℚ) ^ (bits - 1) = 2 ^ (e - 1) * 2 ^ scaling := by
      rw [← zpow_add₀ (by norm_num), ← h]
      congr 1; ring
    rw [h2]
    linarith

example : firstMod 0 45 false 1 sample = some (some (50, false)) ∧
    firstMod 50 45 true 1 sample = some (some (50, false)) ∧ firstMod 49 45 true 1 sample = some (some (49, true)) := by
  have h1 : ranges 1 sample 3 = some 4 := by decide +kernel
  have h2 : ranges 1 sample 5 = some 4 := by decide +kernel
  have h3 : ranges 1 sample 7 = some 7 := by decide +kernel
  have hm : maxZero (ranges 1 sample) sample.ops none = some 7 := by
    generalize ranges 1 sample = t at *
    have l2 : (4 : ℚ) < 7 := by norm_num
    simp [sample, maxZero, bumpZero, h1, h2, h3, l2]
  have hc : Int.clog 2 (7 : ℚ) = 3 := by
    have := Int.clog_natCast (R := ℚ) 2 7
    have h7 : Nat.clog 2 7 = 3 := by decide +kernel
    rw [h7] at this
    exact_mod_cast this
  have he : extraBits 1 sample = some (some 5) := by
    unfold extraBits
    rw [hm]
    simp only [if_neg (show (7 : ℚ) ≠ 0 by norm_num), hc]
    rfl
  simp [firstMod, he]

/-- Only results are looked at: an argument at level zero that is larger than all results has no room. -/
theorem C83_arguments_violated : ∃ (g : Prog) (V : Nat → Nat → ℚ), SSA (· < g.nargs) g.ops ∧
    Covered (ranges 1024 g) g ∧ Runs 1024 V g ∧ ∃ bits, firstMod 0 45 false 1024 g = some (some (bits, false)) ∧
    ∃ v, v < g.nargs ∧ ∃ i, (2 : ℚ) ^ bits < |V v i| * 2 ^ (45 : Int) := by
  let g : Prog := ⟨1, [⟨.const (.float (1 / 1024)), [], 1, false⟩, ⟨.mul, [0, 1], 2, true⟩]⟩
  have h2 : ranges 1024 g 2 = some 1 := by decide +kernel
  have hm : maxZero (ranges 1024 g) g.ops none = some 1 := by
    show maxZero (ranges 1024 g) [⟨.const (.float (1 / 1024)), [], 1, false⟩, ⟨.mul, [0, 1], 2, true⟩] none = some 1
    simp [maxZero, bumpZero, h2]
  refine ⟨g, fun v i => match v with | 0 => 1024 | 1 => [(1 / 1024 : ℚ)].getD i 0 | _ => 1024 * [(1 / 1024 : ℚ)].getD i 0,
    by simp [g, SSA], ?_, ⟨?_, ?_⟩, 47, ?_, 0, by decide, 0, ?_⟩
  · intro op hop
    simp only [g, List.mem_cons, List.not_mem_nil, or_false] at hop
    rcases hop with rfl | rfl <;> simp
  · intro v hv i
    have hv' : v < 1 := hv
    interval_cases v
    norm_num
  · intro op hop
    simp only [g, List.mem_cons, List.not_mem_nil, or_false] at hop
    rcases hop with rfl | rfl
    · intro i; rfl
    · intro i; rfl
  · unfold firstMod extraBits
    rw [hm]
    simp
  · norm_num

/-- A product with zero: the logarithm of its range is no `int`. -/
theorem C83_zero_undefined :
    firstMod 0 45 false 1 ⟨1, [⟨.const (.float 0), [], 1, false⟩, ⟨.mul, [0, 1], 2, true⟩]⟩ = none := by
  have h2 : ranges 1 ⟨1, [⟨.const (.float 0), [], 1, false⟩, ⟨.mul, [0, 1], 2, true⟩]⟩ 2 = some 0 := by decide +kernel
  unfold firstMod extraBits
  simp [maxZero, bumpZero, h2]

end Heir.Range
