import Verif.PolyNtt.Lemmas3
import Mathlib.Data.ZMod.Basic
import Mathlib.Data.ZMod.ValMinAbs
import Mathlib.Tactic.Ring
import Mathlib.Tactic.LinearCombination
import Mathlib.Tactic.IntervalCases

/-!
# C146–C147: `--convert-polynomial-mul-to-ntt`
-/

namespace Heir.PolyNtt

/-! ## C146: what the rewritten function computes -/

/-- C146; missing: constants that are needed in evaluation form must have the evaluations of
their polynomial as numbers, but the pass only changes the label of the attribute
(`C146_violated_constant`); and operations that the solver puts in evaluation form must commute
with the transform, which `mod_switch` to another modulus does not
(`C146_violated_modswitch`).

For every solution of the solver's constraints the pass rewrites the function, and the rewritten
function, given the arguments in the forms of its signature, returns what the source returns,
every polynomial in the form of the result type; no operation gets an operand in the wrong
form. -/
theorem C146_same_partial {P C E : Type} (m : Sem P C E) (hm : m.Right) (p : Prog) (s : Sol)
    (hw : p.Wf = true) (hl : p.Live) (hf : feasible p s = true)
    (hE : ∀ (j : Nat) (ins : Ins), p.body[j]? = some ins → ins.cls = .either →
      (s (p.args.length + j)).mode = true → m.Commutes ins.fn)
    (hK : ∀ (j : Nat) (ins : Ins), p.body[j]? = some ins → ins.cls = .const →
      (s (p.args.length + j)).e = true → m.constE ins.fn = m.ntt (m.const ins.fn))
    (args : List (V P C)) (ht : typed p.args args) :
    ∃ res t, p.run m args = some res ∧ trans p s = some t ∧
      t.run m (args.mapIdx fun i v => inForm m (argForm (s i)) v) =
        some (List.zipWith (fun x v => inForm m (argForm (s x)) v) p.rets res) := by
  have hneed := needed hw hl hf
  have hw' := hw
  have hf' := hf
  simp only [Prog.Wf, Bool.and_eq_true, List.all_eq_true, decide_eq_true_eq] at hw'
  simp only [feasible, Bool.and_eq_true, List.all_eq_true] at hf'
  obtain ⟨ws, h1⟩ := args_sim (m := m) (s := s) ht p.args 0 ⟨[], p.args.length, []⟩ [] rfl
    (Nat.zero_le _) ⟨by simp [ht.1], rfl, by simp [tgtBody], by simp⟩
  obtain ⟨vs', st', ws', h2, h3, h4, h5⟩ := body_sim hm p.body args _ ws h1 (by
    intro k ins hk
    rw [ht.1]
    have h3 := isPoly_body hk
    exact ⟨h3, bodyWf_get hw'.1 hk, bodyOK_get hf'.1.2 hk,
      fun hp => hneed _ _ rfl (by omega) (by rw [h3]; exact hp), hE k ins hk, hK k ins hk⟩)
  rw [ht.1] at h3 h5
  obtain ⟨res, ks, h6, h7, h8⟩ := rets_sim h4 p.rets
    (fun x hx => by rw [h5, ← types_length]; exact hw'.2 x hx)
    (fun x hx hp => by
      have := hf'.2 x (by simp [polyOps, hx, hp])
      simpa using this)
  refine ⟨res, ⟨st'.out, ks⟩, by rw [Prog.run, h2, Option.bind_some, h6], ?_, ?_⟩
  · simp only [trans, h3, Option.bind_some, h7, Option.map_some]
  · simp only [TProg.run, h4.run, Option.bind_some, h8]

/-- Functions with operations that the pass does not know are not rewritten. -/
theorem C146_rejects (p : Prog) (s : Sol) (ins : Ins) (hi : ins ∈ p.body)
    (hc : ins.cls = .unknown) : feasible p s = false ∧ trans p s = none := by
  have h1 : ∀ (l : List Ins) (i : Nat), ins ∈ l → bodyOK p.types s i l = false := by
    intro l
    induction l with
    | nil => intro i h; cases h
    | cons a l ih =>
      intro i h
      rcases List.mem_cons.1 h with rfl | h
      · simp [bodyOK, insOK, hc]
      · simp [bodyOK, ih (i + 1) h]
  have h2 : ∀ (l : List Ins) (i : Nat) (st : St), ins ∈ l → transBody p s i l st = none := by
    intro l
    induction l with
    | nil => intro i st h; cases h
    | cons a l ih =>
      intro i st h
      rcases List.mem_cons.1 h with rfl | h
      · simp [transBody, transIns, hc]
      · simp only [transBody]
        cases transIns p.types s (weight p i) i a st with
        | none => rfl
        | some st' => exact ih (i + 1) st' h
  constructor
  · simp [feasible, h1 _ _ hi]
  · simp [trans, h2 _ _ _ hi]

/-! ### the polynomials of the examples -/

/-- Polynomials modulo `x^2 + 1`, over the integers modulo 5 or 13: two coefficients, or two
evaluations. -/
abbrev Pol := (ZMod 5 × ZMod 5) ⊕ (ZMod 13 × ZMod 13)

/-- The evaluations at `r` and `-r`. -/
def fwd {R : Type} [CommRing R] (r : R) (a : R × R) : R × R := (a.1 + r * a.2, a.1 - r * a.2)

/-- The polynomial with given evaluations, `h` being the inverse of 2. -/
def bwd {R : Type} [CommRing R] (r h : R) (a : R × R) : R × R :=
  (h * (a.1 + a.2), -r * h * (a.1 - a.2))

/-- Product modulo `x^2 + 1`. -/
def mulx {R : Type} [CommRing R] (a b : R × R) : R × R :=
  (a.1 * b.1 - a.2 * b.2, a.1 * b.2 + a.2 * b.1)

theorem bwd_fwd {R : Type} [CommRing R] {r h : R} (hr : r * r = -1) (hh : 2 * h = 1)
    (a : R × R) : bwd r h (fwd r a) = a := by
  refine Prod.ext ?_ ?_
  · simp only [bwd, fwd]; linear_combination a.1 * hh
  · simp only [bwd, fwd]; linear_combination (-2 * h * a.2) * hr + a.2 * hh

theorem fwd_mulx {R : Type} [CommRing R] {r : R} (hr : r * r = -1) (a b : R × R) :
    fwd r (mulx a b) = fwd r a * fwd r b := by
  refine Prod.ext ?_ ?_
  · simp only [fwd, mulx, Prod.fst_mul]; linear_combination (-(a.2 * b.2)) * hr
  · simp only [fwd, mulx, Prod.snd_mul]; linear_combination (-(a.2 * b.2)) * hr

/-- A product in the ring of both operands. -/
def prod2 (f : ZMod 5 × ZMod 5 → ZMod 5 × ZMod 5 → ZMod 5 × ZMod 5)
    (g : ZMod 13 × ZMod 13 → ZMod 13 × ZMod 13 → ZMod 13 × ZMod 13) : Pol → Pol → Pol
  | .inl a, .inl b => .inl (f a b)
  | .inr a, .inr b => .inr (g a b)
  | a, _ => a

/-- A number modulo 13 as a number modulo 5: the one of least magnitude that it stands for,
`ConvertModSwitch`, `ModArithToArith.cpp:451-497`. -/
def lower (a : ZMod 13) : ZMod 5 := (a.valMinAbs : ZMod 5)

/-- Every number of the array is lowered. -/
def switch : Pol → Pol
  | .inl a => .inl a
  | .inr a => .inl (lower a.1, lower a.2)

/-- `add` (0) and `mod_switch` (1), on the arrays. -/
def eith (fn : Nat) (xs : List (ZMod 5 ⊕ Pol)) : Pol :=
  match fn, xs with
  | 0, [.inr a, .inr b] => prod2 (· + ·) (· + ·) a b
  | 1, [.inr a] => switch a
  | _, _ => .inl 0

/-- The constant `1 + x`: as coefficients the numbers 1, 1. -/
def one1 : Pol := .inl (1, 1)

/-- What the operations compute; `relabel` says whether a constant in evaluation form has the
same numbers as in coefficient form or the evaluations. -/
def sem (relabel : Bool) : Sem (ZMod 5) Pol Pol where
  ntt := Sum.map (fwd 2) (fwd 5)
  intt := Sum.map (bwd 2 3) (bwd 5 7)
  plain := fun _ xs => xs.sum
  coeffC := fun _ _ => .inl (0, 1)
  coeffP := fun _ xs => match xs with
    | [.inr (.inl a)] => a.2
    | _ => 0
  mulC := prod2 mulx mulx
  mulE := prod2 (· * ·) (· * ·)
  eithC := eith
  eithE := eith
  const := fun _ => one1
  constE := fun _ => if relabel then one1 else Sum.map (fwd 2) (fwd 5) one1

theorem sem_right (b : Bool) : (sem b).Right where
  left := by
    rintro (a | a)
    · exact congrArg Sum.inl (bwd_fwd (by decide +kernel) (by decide +kernel) a)
    · exact congrArg Sum.inr (bwd_fwd (by decide +kernel) (by decide +kernel) a)
  mul := by
    rintro (a | a) (b | b)
    · exact congrArg Sum.inl (fwd_mulx (by decide +kernel) a b)
    · rfl
    · rfl
    · exact congrArg Sum.inr (fwd_mulx (by decide +kernel) a b)

theorem fwd_add {R : Type} [CommRing R] (r : R) (a b : R × R) :
    fwd r (a + b) = fwd r a + fwd r b := by
  refine Prod.ext ?_ ?_
  · simp only [fwd, Prod.fst_add, Prod.snd_add]; ring
  · simp only [fwd, Prod.fst_add, Prod.snd_add]; ring

theorem sem_add (b : Bool) : (sem b).Commutes 0 := by
  have h0 : Sum.map (fwd (2 : ZMod 5)) (fwd (5 : ZMod 13)) (.inl 0) = .inl 0 := by decide +kernel
  intro xs
  match xs with
  | [.inr a, .inr b] =>
    rcases a with a | a <;> rcases b with b | b
    · exact congrArg Sum.inl (fwd_add _ a b)
    · rfl
    · rfl
    · exact congrArg Sum.inr (fwd_add _ a b)
  | [] => exact h0
  | [.inl _] => exact h0
  | [.inr _] => exact h0
  | [.inl _, _] => exact h0
  | [.inr _, .inl _] => exact h0
  | .inl _ :: _ :: _ :: _ => exact h0
  | .inr _ :: .inl _ :: _ :: _ => exact h0
  | .inr _ :: .inr _ :: _ :: _ => exact h0

/-- Solutions as lists. -/
def sol (l : List Vars) : Sol := fun i => l.getD i ⟨false, false, false, false⟩

/-- A function of polynomials `x`, `y`: `t = x * y + x` is returned with a coefficient of `t`. -/
def ex1 : Prog where
  args := [true, true]
  body := [⟨.eval, true, [0, 1], 0⟩, ⟨.either, true, [2, 0], 0⟩, ⟨.coeff, false, [3], 0⟩]
  rets := [3, 4]
  cost := fun _ => 1

/-- The best solution: all in evaluation form and one inverse transform of the sum. -/
def ex1s : Sol := sol [⟨false, true, false, false⟩, ⟨false, true, false, false⟩,
  ⟨false, true, false, false⟩, ⟨true, true, true, true⟩]

theorem ex1_live : ex1.Live := by
  intro j h1 h2
  have h3 := lt_of_isPoly h2
  have h4 : ex1.types.length = 5 := rfl
  have h5 : ex1.args.length = 2 := rfl
  rw [h4] at h3
  rw [h5] at h1
  interval_cases j
  · exact .inr ⟨1, ⟨.either, true, [2, 0], 0⟩, rfl, by decide⟩
  · exact .inl (by decide)
  · exact .inl (by decide)

example : ex1.Wf = true ∧ ex1.Live ∧ feasible ex1 ex1s = true ∧ objective ex1 ex1s = 1 ∧
    typed (P := ZMod 5) (C := Pol) ex1.args [.inr (.inl (1, 2)), .inr (.inl (3, 1))] ∧
    ((trans ex1 ex1s).bind fun t => t.run (sem true)
      [.e (Sum.map (fwd 2) (fwd 5) (.inl (1, 2))), .e (Sum.map (fwd 2) (fwd 5) (.inl (3, 1)))]) =
      some [.c (.inl (2, 4)), .p 4] := by
  refine ⟨by decide +kernel, ex1_live, by decide +kernel, by decide +kernel, ⟨rfl, ?_⟩, by rfl⟩
  intro i hi
  have hi' : i < 2 := hi
  interval_cases i <;> rfl

/-- The product of an argument and the constant `1 + x`. -/
def exK : Prog where
  args := [true]
  body := [⟨.const, true, [], 0⟩, ⟨.eval, true, [0, 1], 0⟩]
  rets := [2]
  cost := fun _ => 1

/-- All in evaluation form. -/
def exKs : Sol := sol [⟨false, true, false, false⟩, ⟨false, true, false, false⟩,
  ⟨false, true, false, false⟩]

theorem exK_live : exK.Live := by
  intro j h1 h2
  have h3 := lt_of_isPoly h2
  have h4 : exK.types.length = 3 := rfl
  have h5 : exK.args.length = 1 := rfl
  rw [h4] at h3
  rw [h5] at h1
  interval_cases j
  · exact .inr ⟨1, ⟨.eval, true, [0, 1], 0⟩, rfl, by decide⟩
  · exact .inl (by decide)

/-- C146 fails for constants: the attribute of a constant that is used in a product is only
labelled as evaluations, so the product `x * (1 + x)` becomes another polynomial.  (With the
evaluations as numbers the result is right.) -/
theorem C146_violated_constant :
    ∃ (p : Prog) (s : Sol) (t : TProg) (x : Pol), p.Wf = true ∧ p.Live ∧ feasible p s = true ∧
      trans p s = some t ∧
      (∃ y z, p.run (sem true) [.inr x] = some [.inr y] ∧
        t.run (sem true) [.e ((sem true).ntt x)] = some [.e z] ∧ (sem true).intt z ≠ y) ∧
      ∃ y z, p.run (sem false) [.inr x] = some [.inr y] ∧
        t.run (sem false) [.e ((sem false).ntt x)] = some [.e z] ∧ (sem false).intt z = y := by
  refine ⟨exK, exKs, ⟨[.constE 0, .mul [0, 1]], [2]⟩, .inl (0, 1), by decide +kernel, exK_live,
    by decide +kernel, rfl, ⟨.inl (4, 1), .inl (2, 3), by rfl, by rfl, by decide +kernel⟩,
    ⟨.inl (4, 1), .inl (1, 2), by rfl, by rfl, by decide +kernel⟩⟩

/-- The product of two polynomials modulo 13, switched to the modulus 5. -/
def exM : Prog where
  args := [true, true]
  body := [⟨.eval, true, [0, 1], 0⟩, ⟨.either, true, [2], 1⟩]
  rets := [3]
  cost := fun _ => 1

/-- All in evaluation form: no transform, so this is a best solution. -/
def exMs : Sol := sol [⟨false, true, false, false⟩, ⟨false, true, false, false⟩,
  ⟨false, true, false, false⟩, ⟨false, true, false, true⟩]

theorem exM_live : exM.Live := by
  intro j h1 h2
  have h3 := lt_of_isPoly h2
  have h4 : exM.types.length = 4 := rfl
  have h5 : exM.args.length = 2 := rfl
  rw [h4] at h3
  rw [h5] at h1
  interval_cases j
  · exact .inr ⟨1, ⟨.either, true, [2], 1⟩, rfl, by decide⟩
  · exact .inl (by decide)

/-- C146 fails for `mod_switch`: the solver lets it work on evaluations, where switching every
number to the new modulus gives the evaluations of another polynomial. -/
theorem C146_violated_modswitch :
    ∃ (p : Prog) (s : Sol) (t : TProg) (a b y z : Pol), p.Wf = true ∧ p.Live ∧
      feasible p s = true ∧ objective p s = 0 ∧ trans p s = some t ∧
      p.run (sem true) [.inr a, .inr b] = some [.inr y] ∧
      t.run (sem true) [.e ((sem true).ntt a), .e ((sem true).ntt b)] = some [.e z] ∧
      (sem true).intt z ≠ y := by
  refine ⟨exM, exMs, ⟨[.mul [0, 1], .eithE 1 [2]], [3]⟩, .inr (0, 1), .inr (1, 0), .inl (0, 1),
    .inl (0, 0), by decide +kernel, exM_live, by decide +kernel, by decide +kernel, rfl, by rfl,
    by rfl, by decide +kernel⟩

/-! ## C147: the number of transforms -/

/-- The rewritten function has one transform for every value that the solution converts, and no
others: no value is transformed twice. -/
theorem C147_transforms (p : Prog) (s : Sol) (t : TProg) (hw : p.Wf = true)
    (hf : feasible p s = true) (ht : trans p s = some t) :
    transforms t.body = ((List.range p.types.length).map fun i =>
      if isPoly p.types i && (s i).conv then max 1 (p.cost i) else 0).sum :=
  trans_count hw hf ht

example : ex1.Wf = true ∧ feasible ex1 ex1s = true ∧
    (trans ex1 ex1s).map (fun t => transforms t.body) = some 1 := by decide +kernel

/-- C147; missing: constants count, one for each form in which they are written, so that for
functions with constants the number of transforms need not be the least
(`C147_violated_constants`).

A solution of least objective makes a function in which the transforms and the constants
together are no more than what any placement of transforms needs. -/
theorem C147_optimal_partial (p : Prog) (s : Sol) (t : TProg) (hw : p.Wf = true)
    (hf : feasible p s = true) (ht : trans p s = some t)
    (hmin : ∀ s', feasible p s' = true → objective p s ≤ objective p s')
    (q : Placement) (hq : q.Valid p) :
    transforms t.body + ((List.range p.types.length).map fun i =>
      if constAt p i then (s i).c.toNat + (s i).e.toNat else 0).sum ≤
        q.transforms p + q.consts p := by
  have h := hmin _ (asSol_feasible hq)
  rw [objective_eq, objective_eq, asSol_convs, asSol_consts, ← trans_count hw hf ht] at h
  exact h

/-- Without constants no placement needs fewer transforms. -/
theorem C147_optimal_noconst (p : Prog) (s : Sol) (t : TProg) (hw : p.Wf = true)
    (hf : feasible p s = true) (ht : trans p s = some t)
    (hmin : ∀ s', feasible p s' = true → objective p s ≤ objective p s')
    (hc : ∀ ins ∈ p.body, ins.cls ≠ .const) (q : Placement) (hq : q.Valid p) :
    transforms t.body ≤ q.transforms p := by
  have h := C147_optimal_partial p s t hw hf ht hmin q hq
  have h0 : ∀ i, constAt p i = false := by
    intro i
    unfold constAt
    cases hb : p.body[i - p.args.length]? with
    | none => simp
    | some ins => simp [hc ins (List.mem_of_getElem? hb)]
  have h1 : q.consts p = 0 := by
    unfold Placement.consts
    apply List.sum_eq_zero
    intro x hx
    simp only [List.mem_map, h0] at hx
    obtain ⟨i, -, rfl⟩ := hx
    rfl
  omega

/-- There always is a solution, and so there is a best one. -/
theorem C147_solvable (p : Prog) (hw : p.Wf = true) :
    ∃ s, feasible p s = true ∧ ∀ s', feasible p s' = true → objective p s ≤ objective p s' := by
  classical
  have hex : ∃ n s, feasible p s = true ∧ objective p s = n := by
    simp only [Prog.Wf, Bool.and_eq_true] at hw
    refine ⟨_, fun i => ⟨true, true, !constAt p i, false⟩, ?_, rfl⟩
    simp only [feasible, Bool.and_eq_true, List.all_eq_true]
    refine ⟨⟨?_, bodyOK_of _ _ ?_⟩, fun _ _ => rfl⟩
    · intro i hi
      simp [constAt_arg (p := p) (List.mem_range.1 hi), convBoth]
    · intro k ins hk
      have h1 := bodyWf_get hw.1 hk
      have h2 := constAt_body hk
      obtain ⟨cls, poly, ops, fn⟩ := ins
      simp only [insWf, Bool.and_eq_true] at h1
      cases cls with
      | unknown => cases h1.2
      | coeff => cases poly <;> simp [insOK, h2]
      | _ => simp [insOK, h2, opMode, implyMode, convBoth]
  obtain ⟨s, h1, h2⟩ := Nat.find_spec hex
  refine ⟨s, h1, fun s' h' => ?_⟩
  rw [h2]
  exact Nat.find_min' hex ⟨s', h', rfl⟩

/-- The placement for `ex1`. -/
def ex1q : Placement where
  made := fun _ => .eval
  has := fun i f => decide (f = .eval) || decide (i = 3)

theorem ex1q_valid : ex1q.Valid ex1 := by
  refine ⟨fun i => by simp [ex1q], fun j ins hj => ?_⟩
  have hlt := (List.getElem?_eq_some_iff.1 hj).1
  have h3 : j < 3 := hlt
  interval_cases j <;> (cases hj; simp [placedIns, ex1q])

example : ex1q.Valid ex1 ∧ ex1q.transforms ex1 = 1 ∧ (∀ ins ∈ ex1.body, ins.cls ≠ .const) :=
  ⟨ex1q_valid, by decide +kernel, by decide +kernel⟩

/-- `to_tensor (x + k1 + k2)` and `(z + k1 + k2) * z` for constants `k1`, `k2`. -/
def exC : Prog where
  args := [true, true]
  body := [⟨.const, true, [], 0⟩, ⟨.const, true, [], 1⟩,
    ⟨.either, true, [0, 2], 0⟩, ⟨.either, true, [4, 3], 0⟩, ⟨.coeff, false, [5], 0⟩,
    ⟨.either, true, [1, 2], 0⟩, ⟨.either, true, [7, 3], 0⟩, ⟨.eval, true, [8, 1], 0⟩]
  rets := [6, 9]
  cost := fun _ => 1

/-- Both constants in both forms. -/
def exCq : Placement where
  made := fun i => if i ∈ [1, 7, 8, 9] then .eval else .coeff
  has := fun i f => decide (i = 2) || decide (i = 3) ||
    (if i ∈ [1, 7, 8, 9] then decide (f = .eval) else decide (f = .coeff))

theorem exCq_valid : exCq.Valid exC := by
  refine ⟨fun i => ?_, fun j ins hj => ?_⟩
  · simp only [exCq]; split <;> simp
  · have hlt := (List.getElem?_eq_some_iff.1 hj).1
    have h3 : j < 8 := hlt
    interval_cases j <;> (cases hj; simp [placedIns, exCq, exC])

/-- Both constants as evaluations, and one inverse transform, of `x + k1 + k2`. -/
def exCs : Sol := sol [⟨false, true, false, false⟩, ⟨false, true, false, false⟩,
  ⟨false, true, false, false⟩, ⟨false, true, false, false⟩,
  ⟨false, true, false, true⟩, ⟨true, true, true, true⟩, ⟨false, false, false, false⟩,
  ⟨false, true, false, true⟩, ⟨false, true, false, true⟩, ⟨false, true, false, true⟩]

/-- What the constraints say for `exC`. -/
theorem exC_lower (s : Sol) (hf : feasible exC s = true) (hc : convs exC s = 0) :
    4 ≤ madeConsts exC s := by
  have hlen : List.range exC.types.length = [0, 1, 2, 3, 4, 5, 6, 7, 8, 9] := rfl
  have hconv : ∀ i, i < 10 → i ≠ 6 → (s i).conv = false := by
    intro i hi h6
    by_contra hcv
    have : convW exC s i = 0 := by
      unfold convs at hc
      rw [List.sum_eq_zero_iff] at hc
      exact hc _ (List.mem_map_of_mem (by rw [List.mem_range]; exact hi))
    have hp : isPoly exC.types i = true := by interval_cases i <;> first | rfl | exact absurd rfl h6
    simp only [Bool.not_eq_false] at hcv
    rw [convW, hp, hcv] at this
    simp [weight] at this
  have hb : bodyOK exC.types s 2 exC.body = true := by
    simp only [feasible, Bool.and_eq_true] at hf; exact hf.1.2
  have hr : (s 9).c = true ∨ (s 9).e = true := by
    simp only [feasible, Bool.and_eq_true, List.all_eq_true] at hf
    simpa using hf.2 9 (by decide)
  have h4 := bodyOK_get (k := 2) hb rfl
  have h5 := bodyOK_get (k := 3) hb rfl
  have h6 := bodyOK_get (k := 4) hb rfl
  have h7 := bodyOK_get (k := 5) hb rfl
  have h8 := bodyOK_get (k := 6) hb rfl
  have h9 := bodyOK_get (k := 7) hb rfl
  have p02 : polyOps exC.types [0, 2] = [0, 2] := rfl
  have p43 : polyOps exC.types [4, 3] = [4, 3] := rfl
  have p5 : polyOps exC.types [5] = [5] := rfl
  have p12 : polyOps exC.types [1, 2] = [1, 2] := rfl
  have p73 : polyOps exC.types [7, 3] = [7, 3] := rfl
  have p81 : polyOps exC.types [8, 1] = [8, 1] := rfl
  simp only [insOK, p02, p43, p5, p12, p73, p81, List.all_cons, List.all_nil, Bool.and_true,
    Bool.false_eq_true, if_false, Nat.reduceAdd] at h4 h5 h6 h7 h8 h9
  have c4 := hconv 4 (by decide) (by decide)
  have c5 := hconv 5 (by decide) (by decide)
  have c7 := hconv 7 (by decide) (by decide)
  have c8 := hconv 8 (by decide) (by decide)
  have hk : (s 2).c = true ∧ (s 2).e = true ∧ (s 3).c = true ∧ (s 3).e = true := by
    -- `x + k1 + k2` in coefficient form
    have a5 : (s 5).c = true := h6
    simp only [opMode, implyMode, convBoth, c5, a5] at h5
    have e5 : (s 5).e = false := by revert h5; cases (s 5).e <;> simp
    have m5 : (s 5).mode = false := by revert h5; rw [e5]; cases (s 5).mode <;> simp
    simp only [e5, m5] at h5
    have a4 : (s 4).c = true := by revert h5; cases (s 4).c <;> simp
    have k3 : (s 3).c = true := by revert h5; cases (s 3).c <;> simp
    simp only [opMode, implyMode, convBoth, c4, a4] at h4
    have e4 : (s 4).e = false := by revert h4; cases (s 4).e <;> simp
    have m4 : (s 4).mode = false := by revert h4; rw [e4]; cases (s 4).mode <;> simp
    simp only [e4, m4] at h4
    have k2 : (s 2).c = true := by revert h4; cases (s 2).c <;> simp
    -- `(z + k1 + k2) * z` in evaluation form
    have e9 : (s 9).e = true := by
      rcases hr with hr | hr
      · revert h9; rw [hr]; cases (s 9).e <;> simp
      · exact hr
    have e8 : (s 8).e = true := by revert h9; rw [e9]; cases (s 8).e <;> simp
    simp only [opMode, implyMode, convBoth, c8, e8] at h8
    have a8 : (s 8).c = false := by revert h8; cases (s 8).c <;> simp
    have m8 : (s 8).mode = true := by revert h8; rw [a8]; cases (s 8).mode <;> simp
    simp only [a8, m8] at h8
    have e7 : (s 7).e = true := by revert h8; cases (s 7).e <;> simp
    have l3 : (s 3).e = true := by revert h8; cases (s 3).e <;> simp
    simp only [opMode, implyMode, convBoth, c7, e7] at h7
    have a7 : (s 7).c = false := by revert h7; cases (s 7).c <;> simp
    have m7 : (s 7).mode = true := by revert h7; rw [a7]; cases (s 7).mode <;> simp
    simp only [a7, m7] at h7
    have l2 : (s 2).e = true := by revert h7; cases (s 2).e <;> simp
    exact ⟨k2, l2, k3, l3⟩
  have hca : ∀ i, i < 10 → constAt exC i = (decide (i = 2) || decide (i = 3)) := by
    intro i hi; interval_cases i <;> rfl
  unfold madeConsts
  rw [hlen]
  simp only [List.map_cons, List.map_nil, List.sum_cons, List.sum_nil]
  rw [hca 2 (by decide), hca 3 (by decide), hk.1, hk.2.1, hk.2.2.1, hk.2.2.2]
  simp
  omega

/-- C147 fails for functions with constants: no transform is needed when both constants are
written in both forms, but every solution of least objective has one. -/
theorem C147_violated_constants :
    ∃ (p : Prog) (q : Placement), p.Wf = true ∧ q.Valid p ∧ q.transforms p = 0 ∧
      ∀ s t, feasible p s = true → (∀ s', feasible p s' = true → objective p s ≤ objective p s') →
        trans p s = some t → 1 ≤ transforms t.body := by
  refine ⟨exC, exCq, by decide +kernel, exCq_valid, by decide +kernel, fun s t hf hmin ht => ?_⟩
  have h1 : objective exC s ≤ 3 := by
    have := hmin exCs (by decide +kernel)
    have h3 : objective exC exCs = 3 := by decide +kernel
    omega
  rw [trans_count (by decide +kernel) hf ht]
  by_contra hlt
  have h0 : convs exC s = 0 := by omega
  have := exC_lower s hf h0
  rw [objective_eq] at h1
  omega

end Heir.PolyNtt
