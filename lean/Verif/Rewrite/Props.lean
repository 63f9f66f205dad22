import Verif.Rewrite.Spec
import Mathlib.Analysis.Complex.ExponentialBounds
import Mathlib.Algebra.Order.BigOperators.Ring.Finset
import Mathlib.Algebra.Order.Chebyshev
import Mathlib.Algebra.BigOperators.Field
import Mathlib.Tactic.ByContra
import Mathlib.Tactic.Linarith
import Mathlib.Tactic.FieldSimp
import Mathlib.Tactic.Ring
import Mathlib.Tactic.NormNum
import Mathlib.Tactic.Positivity

/-! # Properties of the rewritings -/

namespace Heir.Rewrite

/-! ## C101: selections -/

theorem bit_cases (x : BitVec 1) : x = 0#1 ∨ x = 1#1 := by
  revert x
  decide

theorem mux_int {w : Nat} (hw : 1 < w) (x : BitVec 1) (t f : BitVec w) :
    BitVec.setWidth w x * t + BitVec.setWidth w (1#1 - x) * f = if x = 1#1 then t else f := by
  have h1 : BitVec.setWidth w 1#1 = 1#w := by
    apply BitVec.eq_of_toNat_eq
    simp
  rcases bit_cases x with rfl | rfl
  · rw [if_neg (by decide), show (1#1 - 0#1 : BitVec 1) = 1#1 by decide, h1]
    simp
  · rw [if_pos rfl, show (1#1 - 1#1 : BitVec 1) = 0#1 by decide, h1]
    simp

theorem mux_float {α : Type} [Ring α] (x : BitVec 1) (t f : α) :
    ((x.toNat : Nat) : α) * t + (((1#1 - x).toNat : Nat) : α) * f = if x = 1#1 then t else f := by
  rcases bit_cases x with rfl | rfl <;> simp

theorem mux_list {α : Type} (g h : BitVec 1 → α) (mul add : α → α → α)
    (hm : ∀ x t f, add (mul (g x) t) (mul (h x) f) = if x = 1#1 then t else f) (c : List (BitVec 1))
    (t f : List α) :
    List.zipWith add (List.zipWith mul (c.map g) t) (List.zipWith mul (c.map h) f) =
      List.zipWith (fun (x : BitVec 1) (p : α × α) => if x = 1#1 then p.1 else p.2) c (t.zip f) := by
  induction c generalizing t f with
  | nil => simp
  | cons x c ih =>
    cases t with
    | nil => simp
    | cons a t =>
      cases f with
      | nil => simp
      | cons b f => simp [hm, ih]

theorem zip_replicate {α : Type} (c : BitVec 1) (t f : List α) (h : t.length = f.length) :
    List.zipWith (fun (x : BitVec 1) (p : α × α) => if x = 1#1 then p.1 else p.2)
      (List.replicate t.length c) (t.zip f) = if c = 1#1 then t else f := by
  induction t generalizing f with
  | nil =>
    cases f with
    | nil => simp
    | cons => simp at h
  | cons a t ih =>
    cases f with
    | nil => simp at h
    | cons b f =>
      rw [List.length_cons, List.replicate_succ, List.zip_cons_cons, List.zipWith_cons_cons,
        ih f (by simpa using h)]
      split <;> rfl

/-- Integer selections on integers of at least two bits keep their value: scalar, shaped, and a scalar
condition on shaped values. Missing: `i1` and `index`, see `C101_i1_violated`. -/
theorem C101_int_partial (ty : IntTy) (hty : ty.extends = true) (c : Sh (BitVec 1))
    (t f r : Sh (BitVec ty.width)) (h : select c t f = some r) : selectInt ty c t f = some r := by
  have hw : 1 < ty.width := by
    cases ty with
    | int w =>
      simp only [IntTy.extends, decide_eq_true_eq] at hty
      exact hty
    | index => simp [IntTy.extends] at hty
  have hm : ∀ (x : BitVec 1) (t f : BitVec ty.width),
      BitVec.setWidth ty.width x * t + BitVec.setWidth ty.width (1#1 - x) * f =
        if x = 1#1 then t else f := mux_int hw
  cases c with
  | scalar c =>
    cases t with
    | scalar t =>
      cases f with
      | scalar f =>
        simp only [select, Option.some.injEq] at h
        subst h
        simp [selectInt, matchShapedType, extui, hty, Sh.same, Sh.map, Sh.zip, hm]
      | shaped f => simp [select] at h
    | shaped t =>
      cases f with
      | scalar f => simp [select] at h
      | shaped f =>
        simp only [select, Option.ite_none_right_eq_some, Option.some.injEq] at h
        obtain ⟨hl, rfl⟩ := h
        rw [← zip_replicate c t f hl, ← mux_list (BitVec.setWidth ty.width)
          (fun x => BitVec.setWidth ty.width (1#1 - x)) (· * ·) (· + ·) hm]
        simp [selectInt, matchShapedType, extui, hty, Sh.same, Sh.map, Sh.zip, hl]
  | shaped c =>
    cases t with
    | scalar t => simp [select] at h
    | shaped t =>
      cases f with
      | scalar f => simp [select] at h
      | shaped f =>
        simp only [select, Option.ite_none_right_eq_some, Option.some.injEq] at h
        obtain ⟨⟨hl, hl'⟩, rfl⟩ := h
        rw [← mux_list (BitVec.setWidth ty.width)
          (fun x => BitVec.setWidth ty.width (1#1 - x)) (· * ·) (· + ·) hm]
        simp [selectInt, matchShapedType, extui, hty, Sh.same, Sh.map, Sh.zip, hl, hl',
          Function.comp_def]

/-- Float selections keep their value if the condition has the shape of the values. Missing: a scalar
condition on shaped values, see `C101_float_violated`, and NaN and infinities. -/
theorem C101_float_partial {α : Type} [Ring α] (c : Sh (BitVec 1)) (t f r : Sh α)
    (hs : c.same t = true) (h : select c t f = some r) : selectFloat c t f = some r := by
  cases c with
  | scalar c =>
    cases t with
    | scalar t =>
      cases f with
      | scalar f =>
        simp only [select, Option.some.injEq] at h
        subst h
        simp only [selectFloat, uitofp, Sh.same, Sh.map, Sh.zip, if_true, Option.bind_some,
          Option.bind_eq_bind, mux_float]
      | shaped f => simp [select] at h
    | shaped t => simp [Sh.same] at hs
  | shaped c =>
    cases t with
    | scalar t => simp [select] at h
    | shaped t =>
      cases f with
      | scalar f => simp [select] at h
      | shaped f =>
        simp only [select, Option.ite_none_right_eq_some, Option.some.injEq] at h
        obtain ⟨⟨hl, hl'⟩, rfl⟩ := h
        rw [← mux_list (fun x : BitVec 1 => (x.toNat : α)) (fun x => ((1#1 - x).toNat : α)) (· * ·) (· + ·)
          mux_float]
        simp only [selectFloat, uitofp, Sh.same, Sh.map, Sh.zip, hl, hl', List.length_map,
          List.length_zipWith, List.map_map, beq_self_eq_true, if_true, Option.bind_some,
          Function.comp_def]

/-- Selections of `i1` and `index` values become an invalid `arith.extui`. -/
theorem C101_i1_violated (ty : IntTy) (hty : ty.extends = false) (c : Sh (BitVec 1))
    (t f : Sh (BitVec ty.width)) : selectInt ty c t f = none := by
  simp [selectInt, extui, hty]

/-- A scalar condition on shaped floats is not splat: the conversion is invalid, though the description
of the pass promises it. -/
theorem C101_float_violated {α : Type} [Ring α] (c : BitVec 1) (t f : List α) :
    selectFloat (.scalar c) (.shaped t) (.shaped f) = none := by
  simp [selectFloat, uitofp, Sh.same]

example : (IntTy.int 8).extends = true ∧ (IntTy.int 1).extends = false ∧ IntTy.index.extends = false ∧
    select (.scalar 1#1) (.shaped [3#8, 4#8]) (.shaped [5#8, 6#8]) = some (.shaped [3#8, 4#8]) ∧
    select (.shaped [0#1, 1#1]) (.shaped [3#8, 4#8]) (.shaped [5#8, 6#8]) = some (.shaped [5#8, 4#8]) ∧
    select (.scalar 1#1) (.scalar 1#1) (.scalar 0#1) = some (.scalar 1#1) ∧
    select (.scalar 0#1) (.shaped [(1 : ℚ)]) (.shaped [2]) = some (.shaped [2]) := by
  decide

/-! ## C102: comparisons by the sign -/

theorem halfSign_neg {x : ℚ} (h : x < 0) : halfSign x = 0 := by
  simp [halfSign, sign, h]

theorem halfSign_zero : halfSign 0 = 1 / 2 := by
  simp [halfSign, sign]

theorem halfSign_pos {x : ℚ} (h : 0 < x) : halfSign x = 1 := by
  rw [halfSign, sign, if_neg (by linarith), if_neg (by linarith)]
  norm_num

theorem fptosi_zero : fptosi1 0 = some 0#1 := by decide +kernel

theorem fptosi_half : fptosi1 (1 / 2) = some 0#1 := by decide +kernel

theorem fptosi_one : fptosi1 1 = none := by decide +kernel

/-- The number computed for `a < b` is one if `b < a`, zero if `a < b` and a half if they are equal;
for `a > b` the roles are exchanged. Missing: it is the value of the opposite comparison, see
`C102_inverted_violated`. -/
theorem C102_number_partial (a b : ℚ) :
    halfSign (a - b) = if b < a then 1 else if a = b then 1 / 2 else 0 := by
  rcases lt_trichotomy a b with h | rfl | h
  · rw [if_neg (by linarith), if_neg (ne_of_lt h), halfSign_neg (by linarith)]
  · rw [if_neg (lt_irrefl _), if_pos rfl, sub_self, halfSign_zero]
  · rw [if_pos h, halfSign_pos (by linarith)]

/-- The rewritten comparison has the value of the comparison on equal numbers only: for numbers that
compare true it is false, for the opposite ones poison. -/
theorem C102_inverted_violated (a b : ℚ) (p : Pred) (hp : p = .lt ∨ p = .gt) :
    (cmpF p a b = .ok (some (if p.holds a b then 1#1 else 0#1)) ↔ a = b) ∧
      (p.holds a b = true → cmpF p a b = .ok (some 0#1)) ∧
      (p.holds b a = true → cmpF p a b = .ok none) := by
  have key : ∀ x y : ℚ, (fptosi1 (halfSign (x - y)) = some (if x < y then 1#1 else 0#1) ↔ x = y) ∧
      (x < y → fptosi1 (halfSign (x - y)) = some 0#1) ∧ (y < x → fptosi1 (halfSign (x - y)) = none) := by
    intro x y
    rcases lt_trichotomy x y with h | rfl | h
    · rw [halfSign_neg (by linarith), fptosi_zero, if_pos h]
      exact ⟨⟨fun e => absurd e (by decide), fun e => absurd e (ne_of_lt h)⟩, fun _ => rfl,
        fun h' => absurd h' (by linarith)⟩
    · rw [sub_self, halfSign_zero, fptosi_half, if_neg (lt_irrefl _)]
      exact ⟨⟨fun _ => rfl, fun _ => rfl⟩, fun _ => rfl, fun h => absurd h (lt_irrefl _)⟩
    · rw [halfSign_pos (by linarith), fptosi_one]
      exact ⟨⟨fun e => absurd e (by simp), fun e => absurd e.symm (ne_of_lt h)⟩,
        fun h' => absurd h' (by linarith), fun _ => rfl⟩
  rcases hp with rfl | rfl
  · obtain ⟨h1, h2, h3⟩ := key a b
    simp only [cmpF, Pred.holds, decide_eq_true_eq, Out.ok.injEq]
    exact ⟨h1, h2, h3⟩
  · obtain ⟨h1, h2, h3⟩ := key b a
    simp only [cmpF, Pred.holds, decide_eq_true_eq, Out.ok.injEq, gt_iff_lt]
    exact ⟨h1.trans eq_comm, h2, h3⟩

/-- The same for signed integers that the conversion to floats keeps apart. -/
theorem C102_int_violated {w : Nat} (round : ℤ → ℚ) (hr : StrictMono round) (a b : BitVec w) :
    (cmpI round .lt a b = .ok (some (if Pred.holdsInt .lt a b then 1#1 else 0#1)) ↔ a = b) ∧
      (cmpI round .gt a b = .ok (some (if Pred.holdsInt .gt a b then 1#1 else 0#1)) ↔ a = b) := by
  have key := fun x y : ℚ => (C102_inverted_violated x y .lt (Or.inl rfl)).1
  simp only [cmpF, Pred.holds, decide_eq_true_eq] at key
  have hi : ∀ a b : BitVec w, (round a.toInt = round b.toInt ↔ a = b) := fun a b =>
    hr.injective.eq_iff.trans BitVec.toInt_inj
  have hl : ∀ a b : BitVec w, (round a.toInt < round b.toInt ↔ a.toInt < b.toInt) := fun a b =>
    hr.lt_iff_lt
  constructor
  · have := key (round a.toInt) (round b.toInt)
    rw [hi] at this
    simp only [hl] at this
    simpa only [cmpI, Pred.holdsInt, decide_eq_true_eq] using this
  · have := key (round b.toInt) (round a.toInt)
    rw [hi] at this
    simp only [hl] at this
    rw [eq_comm (a := a)]
    simpa only [cmpI, Pred.holdsInt, decide_eq_true_eq] using this

/-- The unsigned `a > b` dereferences a null value. -/
theorem C102_ugt_violated {w : Nat} (round : ℤ → ℚ) (a b : BitVec w) : cmpI round .ugt a b = .ub := rfl

/-- The unsigned `a < b` compares as signed: 1 and 128 in 8 bits are poison. -/
theorem C102_ult_violated : Pred.holdsInt .ult (1#8) (128#8) = true ∧
    cmpI (fun z => (z : ℚ)) .ult (1#8) (128#8) = .ok none := by
  decide +kernel

example : StrictMono (fun z : ℤ => (z : ℚ)) := Int.cast_strictMono

/-! ## C103: activations -/

/-- The selections of the greater of two integers that are matched, and the operation they become, are
the maximum, unsigned or signed as the comparison. -/
theorem C103_max {w : Nat} (r : Rectifier w) (a c : BitVec w) :
    r.rewritten a c = r.select a c ∧ r.IsMax a c (r.rewritten a c) := by
  cases r
  · simp only [Rectifier.rewritten, Rectifier.select, Rectifier.IsMax, BitVec.lt_def]
    by_cases h1 : a.toNat < c.toNat <;> by_cases h2 : c.toNat < a.toNat <;> simp [h1, h2] <;>
      first
        | omega
        | exact ⟨BitVec.eq_of_toNat_eq (by omega), by omega⟩
  · simp only [Rectifier.rewritten, Rectifier.select, Rectifier.IsMax, BitVec.le_def]
    by_cases h1 : a.toNat < c.toNat <;> by_cases h2 : c.toNat ≤ a.toNat <;> simp [h1, h2] <;> omega
  · simp only [Rectifier.rewritten, Rectifier.select, Rectifier.IsMax, BitVec.slt_iff_toInt_lt]
    by_cases h1 : a.toInt < c.toInt <;> by_cases h2 : c.toInt < a.toInt <;> simp [h1, h2] <;>
      first
        | omega
        | exact ⟨BitVec.eq_of_toInt_eq (by omega), by omega⟩
  · simp only [Rectifier.rewritten, Rectifier.select, Rectifier.IsMax, BitVec.sle_iff_toInt_le]
    by_cases h1 : a.toInt < c.toInt <;> by_cases h2 : c.toInt ≤ a.toInt <;> simp [h1, h2] <;> omega

/-- So are those of numbers. Missing: NaN, see `C103_nan_violated`. -/
theorem C103_maxF_partial (a c : ℚ) :
    (if Fl.ugt (.num a) (.num c) then Fl.num a else .num c) = Fl.maximumf (.num a) (.num c) ∧
      (if Fl.uge (.num a) (.num c) then Fl.num a else .num c) = Fl.maximumf (.num a) (.num c) := by
  simp only [Fl.ugt, Fl.uge, Fl.maximumf, decide_eq_true_eq]
  constructor
  · split
    · rw [max_eq_left (by linarith)]
    · rw [max_eq_right (by linarith)]
  · split
    · rw [max_eq_left (by linarith)]
    · rw [max_eq_right (by linarith)]

/-- `select(a > NaN, a, NaN)` is the number, the maximum is not. -/
theorem C103_nan_violated (a : ℚ) :
    (if Fl.ugt (.num a) .nan then Fl.num a else .nan) = .num a ∧ Fl.maximumf (.num a) .nan = .nan :=
  ⟨rfl, rfl⟩

theorem strip_body (g : Generic) : (strip g).body = g.body := by
  unfold strip
  split
  · rfl
  · split <;> rfl

/-- Every selection that becomes a maximum has the bounds that applied to it. -/
theorem C103_domain (g : Generic) (k : Nat) (i : Inner) (hi : g.body[k]? = some i)
    (hm : i.matched = true) :
    ∃ i', (activation g).body[k]? = some i' ∧ (i'.lower, i'.upper) = bounds g i := by
  refine ⟨forwardDomain g i, ?_, ?_⟩
  · rw [activation, strip_body, List.getElem?_map, hi]
    rfl
  · rw [forwardDomain, if_pos hm]
    rfl

/-- The bounds are not on the generic and on an operation of its body at once. -/
theorem C103_domain_once (g : Generic) (i : Inner) (hi : i ∈ (activation g).body)
    (hb : i.lower.isSome = true ∨ i.upper.isSome = true) :
    (activation g).lower = none ∧ (activation g).upper = none := by
  rw [activation, strip_body] at hi
  rw [activation, strip]
  split
  · rename_i h
    simpa [Option.isNone_iff_eq_none] using h
  · rw [if_pos]
    · exact ⟨rfl, rfl⟩
    · rw [List.any_eq_true]
      exact ⟨i, hi, by simpa using hb⟩

/-- Other operations keep the bounds that applied to them if nothing in the body has bounds
afterwards. Missing: otherwise, see `C103_domain_violated`. -/
theorem C103_domain_kept_partial (g : Generic) (hn : ∀ i ∈ g.body, i.matched = false)
    (hb : ∀ i ∈ g.body, i.lower = none ∧ i.upper = none) : activation g = g := by
  have hbody : g.body.map (forwardDomain g) = g.body := by
    conv_rhs => rw [← List.map_id g.body]
    apply List.map_congr_left
    intro i hi
    simp [forwardDomain, hn i hi]
  rw [activation, hbody, strip]
  split
  · rfl
  · rw [if_neg]
    rw [Bool.not_eq_true, List.any_eq_false]
    intro i hi
    simp [hb i hi]

/-- An operation that is not matched loses the bounds of the generic as soon as another operation has
bounds, even if no maximum was made. -/
theorem C103_domain_violated :
    let i : Inner := ⟨false, none, none⟩
    let g : Generic := ⟨some (-5), some 5, [i, ⟨false, some 0, some 1⟩]⟩
    bounds g i = (some (-5), some 5) ∧ i ∈ (activation g).body ∧ bounds (activation g) i = (none, none) := by
  decide +kernel

example : ∃ g : Generic, (activation g).body = [⟨true, some (-5), some 5⟩, ⟨true, some 0, some 5⟩] ∧
    (activation g).lower = none :=
  ⟨⟨some (-5), some 5, [⟨true, none, none⟩, ⟨true, some 0, none⟩]⟩, by decide +kernel, by decide +kernel⟩

/-- The quotients that are matched are the softmax, whatever is subtracted from the rows. -/
theorem C103_softmax {r n : Nat} (x : Fin r → Fin n → ℝ) (maxVal : Option (Fin r → ℝ)) (i : Fin r)
    (j : Fin n) : quotient x maxVal i j = softmax x i j := by
  cases maxVal with
  | none => simp [quotient, softmax]
  | some m =>
    simp only [quotient, softmax, zero_add]
    have h : ∀ k, Real.exp (x i k - m i) = Real.exp (x i k) / Real.exp (m i) := fun k => Real.exp_sub _ _
    simp only [h]
    rw [← Finset.sum_div, div_div_div_cancel_right₀ (Real.exp_ne_zero _)]

/-! ## C105: masks -/

theorem getElem_mask {β : Type} {m : List β} {P : β → Prop} (h : ∀ x ∈ m, P x) {k : Nat} {x : β}
    (hk : m[k]? = some x) : P x := h x (List.mem_of_getElem? hk)

theorem and_mask {w : Nat} (a b : BitVec w) (ha : a = 0#w ∨ a = 1#w) (hb : b = 0#w ∨ b = 1#w) :
    a &&& b = a * b := by
  rcases ha with rfl | rfl
  · simp
  · rcases hb with rfl | rfl
    · simp
    · simp

theorem mulI_some {w : Nat} {fl : Flags} {a b r : BitVec w} (h : mulI fl a b = some r) : r = a * b := by
  unfold mulI at h
  split at h
  · cases h
  · exact (Option.some.inj h).symm

theorem mulI_comm {w : Nat} (fl : Flags) (a b : BitVec w) : mulI fl a b = mulI fl b a := by
  unfold mulI
  rw [BitVec.mul_comm a b]
  have h1 : BitVec.smulOverflow a b = BitVec.smulOverflow b a := by
    simp only [BitVec.smulOverflow]
    rw [Int.mul_comm]
  have h2 : BitVec.umulOverflow a b = BitVec.umulOverflow b a := by
    simp only [BitVec.umulOverflow]
    rw [Nat.mul_comm]
  rw [h1, h2]

theorem mulI_zero {w : Nat} (fl : Flags) (a : BitVec w) : mulI fl a 0#w = some 0#w := by
  have h1 : BitVec.smulOverflow a 0#w = false := by
    simp only [BitVec.smulOverflow, BitVec.toInt_zero, Int.mul_zero, Bool.or_eq_false_iff,
      decide_eq_false_iff_not]
    constructor
    · have : (0 : Int) < 2 ^ (w - 1) := by positivity
      omega
    · have : (0 : Int) < 2 ^ (w - 1) := by positivity
      omega
  have h2 : BitVec.umulOverflow a 0#w = false := by
    simp [BitVec.umulOverflow]
  simp [mulI, h1, h2]

/-- One element: the product that replaces two products by masks has their value, and overflows only
where one of them did. -/
theorem fold_element {w : Nat} (p : MaskPat) (f1 f2 : Flags) (v a b r : BitVec w)
    (ha : a = 0#w ∨ a = 1#w) (hb : b = 0#w ∨ b = 1#w)
    (h : p.before (mulI f1) (mulI f2) v a b = some r) : maskAfter (mulI f1) v (a &&& b) = some r := by
  rw [maskAfter, and_mask a b ha hb]
  have key : ∀ {x y : BitVec w}, mulI f1 v b = some x → a * x = y → mulI f1 v (a * b) = some y := by
    intro x y hx e
    have hx' := mulI_some hx
    rcases ha with rfl | rfl
    · rw [BitVec.zero_mul, mulI_zero, ← e, BitVec.zero_mul]
    · rw [BitVec.one_mul, hx, ← e, BitVec.one_mul]
  have key3 : ∀ {x y : BitVec w}, mulI f1 a b = some x → v * x = y → mulI f1 v (a * b) = some y := by
    intro x y hx e
    have hx' := mulI_some hx
    rcases ha with rfl | rfl
    · rw [BitVec.zero_mul, mulI_zero, ← e, hx', BitVec.zero_mul, BitVec.mul_zero]
    · rcases hb with rfl | rfl
      · rw [BitVec.mul_zero, mulI_zero, ← e, hx', BitVec.mul_zero, BitVec.mul_zero]
      · rw [BitVec.one_mul] at hx' ⊢
        subst hx'
        rw [BitVec.mul_one] at e
        subst e
        -- the product of the masks does not overflow, so one is one in the signed sense too
        unfold mulI at hx ⊢
        split at hx
        · cases hx
        · rename_i hov
          rw [if_neg, BitVec.mul_one]
          intro hov'
          apply hov
          simp only [Bool.or_eq_true, Bool.and_eq_true] at hov' ⊢
          by_cases hw : w ≤ 1
          · have hcase : w = 0 ∨ w = 1 := by omega
            rcases hcase with rfl | rfl
            · rcases hov' with ⟨h1, h2⟩ | ⟨h1, h2⟩
              · exact Or.inl ⟨h1, by rw [Subsingleton.elim (1#0) v] at *; exact h2⟩
              · exact Or.inr ⟨h1, by rw [Subsingleton.elim (1#0) v] at *; exact h2⟩
            · rcases bit_cases v with rfl | rfl
              · rcases hov' with ⟨h1, h2⟩ | ⟨h1, h2⟩
                · exact absurd h2 (by decide)
                · exact absurd h2 (by decide)
              · exact hov'
          · exfalso
            rcases hov' with ⟨-, h2⟩ | ⟨-, h2⟩
            · have h1 : (1#w).toInt = 1 := by
                rw [BitVec.toInt_one (by omega)]
              simp only [BitVec.smulOverflow, h1, Int.mul_one, Bool.or_eq_true, decide_eq_true_eq] at h2
              have := BitVec.toInt_lt (x := v)
              have := BitVec.le_toInt (x := v)
              omega
            · have h1 : (1#w).toNat = 1 := by
                rw [BitVec.toNat_ofNat, Nat.mod_eq_of_lt]
                exact Nat.one_lt_two_pow (by omega)
              simp only [BitVec.umulOverflow, h1, Nat.mul_one, decide_eq_true_eq] at h2
              have := v.isLt
              omega
  cases p <;> simp only [MaskPat.before, Option.bind_eq_some_iff] at h <;> obtain ⟨x, hx, hy⟩ := h <;>
    have e := (mulI_some hy).symm
  · rw [mulI_comm] at hx
    exact key hx e
  · exact key hx e
  · exact key3 hx e
  · rw [mulI_comm] at hx
    exact key hx ((BitVec.mul_comm _ _).trans e)
  · exact key hx ((BitVec.mul_comm _ _).trans e)
  · exact key3 hx ((BitVec.mul_comm _ _).trans e)

theorem isIntMask_iff {w : Nat} (m : List (BitVec w)) :
    isIntMask m = true ↔ ∀ x ∈ m, x = 0#w ∨ x = 1#w := by
  simp [isIntMask]

/-- Two products by masks become one by their intersection, for all six shapes and all flags: each
element that is not poison keeps its value. -/
theorem C105_fold {w : Nat} (p : MaskPat) (f1 f2 : Flags) (v m1 m2 : List (BitVec w))
    (h1 : isIntMask m1 = true) (h2 : isIntMask m2 = true) (hl : m1.length = m2.length)
    (hv : v.length = m1.length) :
    ∃ m, intersectInt m1 m2 = some m ∧ m.length = v.length ∧ isIntMask m = true ∧
      ∀ k (hk : k < v.length) (hk1 : k < m1.length) (hk2 : k < m2.length) (hkm : k < m.length) r,
        p.before (mulI f1) (mulI f2) v[k] m1[k] m2[k] = some r →
        maskAfter (mulI f1) v[k] m[k] = some r := by
  rw [isIntMask_iff] at h1 h2
  refine ⟨_, by rw [intersectInt, if_pos (by omega)], by rw [List.length_zipWith]; omega, ?_, ?_⟩
  · rw [isIntMask_iff]
    intro x hx
    obtain ⟨k, hk, rfl⟩ := List.getElem_of_mem hx
    rw [List.length_zipWith] at hk
    rw [List.getElem_zipWith]
    rcases h1 _ (List.getElem_mem (by omega : k < m1.length)) with e | e <;>
      rcases h2 _ (List.getElem_mem (by omega : k < m2.length)) with e' | e' <;> rw [e, e'] <;> simp
  · intro k hk hk1 hk2 hkm r h
    rw [List.getElem_zipWith]
    exact fold_element p f1 f2 _ _ _ r (h1 _ (List.getElem_mem _)) (h2 _ (List.getElem_mem _)) h

theorem isFloatMask_iff {α : Type} [Zero α] [One α] [DecidableEq α] (m : List α) :
    isFloatMask m = true ↔ ∀ x ∈ m, x = 0 ∨ x = 1 := by
  simp only [isFloatMask, List.all_eq_true, Bool.not_eq_true', Bool.and_eq_false_iff, bne_eq_false_iff_eq]

/-- The same in a commutative ring, the exact numbers for the floats. -/
theorem C105_foldF {α : Type} [CommRing α] [DecidableEq α] (p : MaskPat) (v m1 m2 : List α)
    (h1 : isFloatMask m1 = true) (h2 : isFloatMask m2 = true) (hl : m1.length = m2.length)
    (hv : v.length = m1.length) :
    ∃ m, intersectFloat m1 m2 = some m ∧ m.length = v.length ∧ isFloatMask m = true ∧
      ∀ k (hk : k < v.length) (hk1 : k < m1.length) (hk2 : k < m2.length) (hkm : k < m.length),
        maskAfter (fun a b => some (a * b)) v[k] m[k] =
          p.before (fun a b => some (a * b)) (fun a b => some (a * b)) v[k] m1[k] m2[k] := by
  rw [isFloatMask_iff] at h1 h2
  refine ⟨_, by rw [intersectFloat, if_pos (by omega)], by rw [List.length_zipWith]; omega, ?_, ?_⟩
  · rw [isFloatMask_iff]
    intro x hx
    obtain ⟨k, hk, rfl⟩ := List.getElem_of_mem hx
    rw [List.getElem_zipWith]
    split
    · rename_i h
      exact Or.inr h.1
    · exact Or.inl rfl
  · intro k hk hk1 hk2 hkm
    rw [List.getElem_zipWith]
    have key : (if m1[k] = 1 ∧ m2[k] = 1 then m1[k] else 0) = m1[k] * m2[k] := by
      rcases h1 _ (List.getElem_mem hk1) with e | e <;> rcases h2 _ (List.getElem_mem hk2) with e' | e' <;>
        rw [e, e']
      · split
        · rename_i h
          rw [h.1]
          simp
        · simp
      · split
        · rename_i h
          rw [h.1]
          simp
        · simp
      · split
        · rename_i h
          rw [h.2]
          simp
        · simp
      · simp
    rw [key, maskAfter]
    cases p <;> simp only [MaskPat.before, Option.bind_some, Option.some.injEq] <;> ring

example : isIntMask [0#8, 1#8, 1#8] = true ∧ isIntMask [1#8, 1#8, 0#8] = true ∧
    intersectInt [0#8, 1#8, 1#8] [1#8, 1#8, 0#8] = some [0#8, 1#8, 0#8] := by decide

example : isFloatMask [(0 : ℚ), 1, 1] = true ∧
    intersectFloat [(0 : ℚ), 1, 1] [1, 1, 0] = some [0, 1, 0] := by decide +kernel

/-! ## C106: reductions -/

/-- The projection that forgets the reduced dimensions. -/
theorem checkLoop_trailing (results : List (Option Nat)) (dims : List Nat) :
    ∀ fuel i, (∀ j, i ≤ j → j < i + fuel → dims.contains j = false) → i + fuel = results.length →
      (checkLoop results dims fuel i i = some true ↔
        ∀ j (h : j < results.length), i ≤ j → results[j] = some j)
  | 0, i, _, hl => by
    refine ⟨fun _ j h hij => by omega, fun _ => rfl⟩
  | fuel + 1, i, hd, hl => by
    have hi : i < results.length := by omega
    rw [checkLoop, hd i (le_refl _) (by omega)]
    simp only [Bool.false_eq_true, if_false]
    rw [List.getElem?_eq_getElem hi]
    dsimp only
    have ih := checkLoop_trailing results dims fuel (i + 1)
      (fun j h1 h2 => hd j (by omega) (by omega)) (by omega)
    split
    · rename_i he
      rw [ih]
      constructor
      · intro h j hj hij
        rcases Nat.eq_or_lt_of_le hij with rfl | hlt
        · exact he
        · exact h j hj hlt
      · intro h j hj hij
        exact h j hj (by omega)
    · rename_i he
      constructor
      · intro h
        cases h
      · intro h
        exact absurd (h i hi (le_refl _)) he

theorem filter_range_trailing (n k : Nat) (dims : List Nat) (hk : k ≤ n)
    (hd : ∀ j < n, dims.contains j = true ↔ k ≤ j) :
    (List.range n).filter (fun d => !dims.contains d) = List.range k := by
  have h : List.range n = List.range k ++ (List.range (n - k)).map (k + ·) := by
    rw [← List.range_add]
    congr 1
    omega
  rw [h, List.filter_append]
  have h1 : (List.range k).filter (fun d => !dims.contains d) = List.range k := by
    apply List.filter_eq_self.2
    intro d hdk
    have := List.mem_range.1 hdk
    have hc := hd d (by omega)
    cases hcd : dims.contains d
    · rfl
    · have := hc.1 hcd
      omega
  have h2 : ((List.range (n - k)).map (k + ·)).filter (fun d => !dims.contains d) = [] := by
    apply List.filter_eq_nil_iff.2
    intro d hdk
    obtain ⟨a, ha, rfl⟩ := List.mem_map.1 hdk
    have := List.mem_range.1 ha
    rw [(hd (k + a) (by omega)).2 (by omega)]
    simp
  rw [h1, h2, List.append_nil]

/-- If the reduced dimensions are the last ones, exactly the maps are accepted that forget them, and the
reduction has the value of the generic. Missing: other reduced dimensions, see
`C106_transposed_violated`. -/
theorem C106_trailing_partial {α : Type} (shape : List Nat) (k : Nat) (map dims : List Nat)
    (hk : k ≤ shape.length) (hlen : dims.length = shape.length - k)
    (hd : ∀ j < shape.length, dims.contains j = true ↔ k ≤ j) :
    (checkOutputMap shape.length (map.map some) dims = some true ↔ map = List.range k) ∧
      (checkOutputMap shape.length (map.map some) dims = some true →
        ∀ (body : α → α → α) (input init : List Nat → α),
          reduce body shape dims input init = generic body shape map input init) := by
  have key : checkOutputMap shape.length (map.map some) dims = some true ↔ map = List.range k := by
    unfold checkOutputMap
    rw [List.length_map]
    by_cases hl : map.length = shape.length - dims.length
    · have hmk : map.length = k := by omega
      rw [if_neg (by simpa using hl)]
      by_cases h0 : map.length = 0
      · rw [if_pos h0]
        have : map = [] := List.length_eq_zero_iff.1 h0
        subst this
        have : k = 0 := by simpa using hmk.symm
        subst this
        simp
      · rw [if_neg h0, checkLoop_trailing (map.map some) dims map.length 0 ?_ (by simp)]
        · constructor
          · intro h
            apply List.ext_getElem
            · simp [hmk]
            · intro j h1 h2
              have := h j (by simpa using h1) (Nat.zero_le _)
              simpa using this
          · rintro rfl j hj -
            simp
        · intro j _ hj
          cases hc : dims.contains j
          · rfl
          · have := (hd j (by omega)).1 hc
            omega
    · rw [if_pos (by simpa using hl)]
      constructor
      · intro h
        cases h
      · rintro rfl
        exact absurd (by rw [List.length_range, hlen]; omega) hl
  refine ⟨key, fun h body input init => ?_⟩
  rw [key.1 h, reduce, filter_range_trailing shape.length k dims hk hd]

/-- The projection is accepted whatever dimensions are reduced. -/
theorem checkLoop_complete (n : Nat) (dims results : List Nat)
    (hr : results = (List.range n).filter fun d => !dims.contains d) :
    ∀ fuel i, i + fuel ≤ n → checkLoop (results.map some) dims fuel i
      ((List.range i).filter fun d => !dims.contains d).length = some true
  | 0, _, _ => rfl
  | fuel + 1, i, hi => by
    have ih := checkLoop_complete n dims results hr fuel (i + 1) (by omega)
    rw [checkLoop]
    rw [List.range_succ, List.filter_append] at ih
    cases hc : dims.contains i
    · have hc' : i ∉ dims := by simpa using hc
      have hone : ([i].filter fun d => !dims.contains d) = [i] := by simp [hc']
      rw [hone, List.length_append, List.length_singleton] at ih
      have hsplit : results = ((List.range i).filter fun d => !dims.contains d) ++
          (i :: ((List.range (n - i - 1)).map (i + 1 + ·)).filter fun d => !dims.contains d) := by
        rw [hr]
        have : List.range n = List.range i ++ (i :: (List.range (n - i - 1)).map (i + 1 + ·)) := by
          have h1 : List.range n = List.range (i + 1) ++ (List.range (n - i - 1)).map (i + 1 + ·) := by
            rw [← List.range_add]
            congr 1
            omega
          rw [h1, List.range_succ, List.append_assoc]
          rfl
        rw [this, List.filter_append, List.filter_cons]
        simp [hc']
      have hget : (results.map some)[((List.range i).filter fun d => !dims.contains d).length]? =
          some (some i) := by
        rw [hsplit, List.map_append, List.getElem?_append_right (by simp)]
        simp
      rw [hget]
      simpa using ih
    · have hc' : i ∈ dims := by simpa using hc
      have hnone : ([i].filter fun d => !dims.contains d) = [] := by simp [hc']
      rw [hnone, List.append_nil] at ih
      simpa using ih

theorem C106_complete (reduction : List Bool) :
    checkOutputMap reduction.length
      (((List.range reduction.length).filter fun d => !(reductionDims reduction).contains d).map some)
      (reductionDims reduction) = some true := by
  have hc : ∀ d ∈ List.range reduction.length,
      (!(reductionDims reduction).contains d) = !reduction.getD d false := by
    intro d hd
    congr 1
    rw [Bool.eq_iff_iff, List.contains_iff_mem, reductionDims, List.mem_filter]
    exact ⟨fun h => h.2, fun h => ⟨hd, h⟩⟩
  have hlen : ((List.range reduction.length).filter
      fun d => !(reductionDims reduction).contains d).length =
      reduction.length - (reductionDims reduction).length := by
    rw [List.filter_congr hc, reductionDims]
    have := List.length_eq_length_filter_add (l := List.range reduction.length)
      (fun d => reduction.getD d false)
    rw [List.length_range] at this
    omega
  unfold checkOutputMap
  rw [List.length_map, hlen]
  simp only [ne_eq, not_true_eq_false, if_false]
  split
  · rfl
  · exact checkLoop_complete reduction.length (reductionDims reduction) _ rfl _ 0 (by omega)

/-- With the first two of four dimensions reduced the map is not looked at: the transposed output is
accepted, and the reduction is the transpose of the generic. -/
theorem C106_transposed_violated :
    reductionDims [true, true, false, false] = [0, 1] ∧
      checkOutputMap 4 [some 3, some 2] [0, 1] = some true ∧
      generic (· + ·) [1, 1, 2, 2] [3, 2] (fun p => 2 * p.getD 2 0 + p.getD 3 0) (fun _ => 0) [1, 0] = 1 ∧
      reduce (· + ·) [1, 1, 2, 2] [0, 1] (fun p => 2 * p.getD 2 0 + p.getD 3 0) (fun _ => 0) [1, 0] = 2 := by
  decide +kernel

example : reductionDims [false, false, true] = [2] ∧
    checkOutputMap 3 [some 0, some 1] [2] = some true ∧ checkOutputMap 3 [some 1, some 0] [2] = some false ∧
    (∀ j < [2, 2, 3].length, [2].contains j = true ↔ 2 ≤ j) := by
  decide

end Heir.Rewrite
