/- Helper lemmas: what the rolls do to the values of the axes. -/
import Verif.Rotom.Lemmas2

namespace Heir.Rotom

/-- The axes of a layout. -/
def axesOf (ds : List Dim) : List Dim := (axisIds ds).map (fun id => ⟨id, fullExtent ds id, 1⟩)

/-- `byExpr` on values. -/
def byVal (axes ds : List Dim) (d g : Nat → Int) (vs : List Int) (j : Nat) (dj : Dim) : Option Int :=
  if dj.isGap then some (g (gapIndex ds j))
  else if dj.isReplicate then some (d (replIndex ds j))
  else (varIndex axes dj).bind (fun v => vs[v]?)

/-- `rollStep` on values. -/
def rollStepV (axes ds : List Dim) (d g : Nat → Int) (vs : List Int) (i j : Int) :
    Option (List Int) :=
  if i < 0 ∨ j < 0 then none
  else
    match ds[i.toNat]?, ds[j.toNat]? with
    | some di, some dj =>
      (varIndex axes di).bind fun f =>
        (byVal axes ds d g vs j.toNat dj).bind fun b =>
          vs[f]?.map fun e => vs.set f ((e - b) % (di.size : Int))
    | _, _ => none

/-- `rollAll` on values. -/
def rollAllV (axes ds : List Dim) (d g : Nat → Int) : List Int → List Int → Option (List Int)
  | [], vs => some vs
  | [_], _ => none
  | i :: j :: rest, vs => (rollStepV axes ds d g vs i j).bind (rollAllV axes ds d g rest)

theorem byExpr_eval (axes ds : List Dim) (ix d g : Nat → Int) (es : List Expr) (j : Nat) (dj : Dim) :
    (byExpr axes ds es j dj).map (Expr.eval ix d g)
      = byVal axes ds d g (es.map (Expr.eval ix d g)) j dj := by
  unfold byExpr byVal
  by_cases h1 : dj.isGap = true
  · simp [h1, Expr.eval]
  · by_cases h2 : dj.isReplicate = true
    · simp [h1, h2, Expr.eval]
    · simp only [h1, h2, if_false, Bool.false_eq_true]
      cases varIndex axes dj with
      | none => rfl
      | some v => simp

theorem rollStep_eval (axes ds : List Dim) (ix d g : Nat → Int) (es : List Expr) (i j : Int) :
    (rollStep axes ds es i j).map (List.map (Expr.eval ix d g))
      = rollStepV axes ds d g (es.map (Expr.eval ix d g)) i j := by
  unfold rollStep rollStepV
  by_cases h : i < 0 ∨ j < 0
  · simp [h]
  · simp only [if_neg h]
    cases ds[i.toNat]? with
    | none => rfl
    | some di =>
      cases ds[j.toNat]? with
      | none => rfl
      | some dj =>
        simp only
        cases varIndex axes di with
        | none => rfl
        | some f =>
          simp only [Option.bind_some]
          rw [← byExpr_eval]
          cases byExpr axes ds es j.toNat dj with
          | none => rfl
          | some b =>
            simp only [Option.bind_some, Option.map_some, List.getElem?_map]
            cases es[f]? with
            | none => rfl
            | some e => simp [Expr.eval, List.map_set]

theorem rollAll_eval (axes ds : List Dim) (ix d g : Nat → Int) :
    ∀ (rolls : List Int) (es : List Expr), (rollAll axes ds rolls es).map (List.map (Expr.eval ix d g))
      = rollAllV axes ds d g rolls (es.map (Expr.eval ix d g))
  | [], es => rfl
  | [_], es => rfl
  | i :: j :: rest, es => by
    simp only [rollAll, rollAllV]
    rw [← rollStep_eval]
    cases rollStep axes ds es i j with
    | none => rfl
    | some es' =>
      simp only [Option.bind_some, Option.map_some]
      exact rollAll_eval axes ds ix d g rest es'

/-! ### One step -/

theorem varIndex_some {axes : List Dim} {w : Dim} {f : Nat} (h : varIndex axes w = some f) :
    axes[f]? = some w := by
  unfold varIndex at h
  obtain ⟨hl, he, _⟩ := List.idxOf?_eq_some_iff.mp h
  rw [List.getElem?_eq_getElem hl, he]

/-- What a roll is rolled by. -/
inductive By (axes ds : List Dim) (d g : Nat → Int) (j : Nat) (dj : Dim) (vs : List Int) : Int → Prop
  | gap : dj.isGap = true → By axes ds d g j dj vs (g (gapIndex ds j))
  | repl : dj.isReplicate = true → dj.isGap = false → By axes ds d g j dj vs (d (replIndex ds j))
  | trav (t : Nat) (b : Int) : dj.isTrav = true → varIndex axes dj = some t → vs[t]? = some b →
      By axes ds d g j dj vs b

theorem byVal_some {axes ds : List Dim} {d g : Nat → Int} {vs : List Int} {j : Nat} {dj : Dim}
    {b : Int} (h : byVal axes ds d g vs j dj = some b) : By axes ds d g j dj vs b := by
  unfold byVal at h
  by_cases h1 : dj.isGap = true
  · simp only [h1, if_true, Option.some.injEq] at h
    subst h; exact By.gap h1
  · by_cases h2 : dj.isReplicate = true
    · simp only [h1, h2, if_true, Option.some.injEq, if_false, Bool.false_eq_true] at h
      subst h; exact By.repl h2 (by simpa using h1)
    · simp only [h1, h2, if_false, Bool.false_eq_true] at h
      obtain ⟨t, h3, h4⟩ := Option.bind_eq_some_iff.mp h
      exact By.trav t b (by simp [Dim.isTrav, h1, h2]) h3 h4

theorem byVal_of {axes ds : List Dim} {d g : Nat → Int} {vs : List Int} {j : Nat} {dj : Dim}
    {b : Int} (h : By axes ds d g j dj vs b) : byVal axes ds d g vs j dj = some b := by
  unfold byVal
  cases h with
  | gap h1 => simp [h1]
  | repl h2 h1 => simp [h1, h2]
  | trav t _ h1 h2 h3 =>
    obtain ⟨a, c⟩ := trav_flags h1
    simp [a, c, h2, h3]

theorem rollStepV_iff {axes ds : List Dim} {d g : Nat → Int} {vs vs' : List Int} {i j : Int} :
    rollStepV axes ds d g vs i j = some vs' ↔
      (0 ≤ i ∧ 0 ≤ j) ∧ ∃ di dj f b x, ds[i.toNat]? = some di ∧ ds[j.toNat]? = some dj ∧
        varIndex axes di = some f ∧ By axes ds d g j.toNat dj vs b ∧ vs[f]? = some x ∧
        vs' = vs.set f ((x - b) % (di.size : Int)) := by
  unfold rollStepV
  by_cases h : i < 0 ∨ j < 0
  · rw [if_pos h]
    constructor
    · intro h'; simp at h'
    · rintro ⟨h', _⟩; omega
  · rw [if_neg h]
    have h0 : 0 ≤ i ∧ 0 ≤ j := by omega
    cases hi : ds[i.toNat]? with
    | none => simp
    | some di =>
      cases hj : ds[j.toNat]? with
      | none => simp
      | some dj =>
        simp only
        constructor
        · intro h'
          obtain ⟨f, h1, h2⟩ := Option.bind_eq_some_iff.mp h'
          obtain ⟨b, h3, h4⟩ := Option.bind_eq_some_iff.mp h2
          obtain ⟨x, h5, h6⟩ := Option.map_eq_some_iff.mp h4
          exact ⟨h0, di, dj, f, b, x, rfl, rfl, h1, byVal_some h3, h5, h6.symm⟩
        · rintro ⟨_, di', dj', f, b, x, e1, e2, h1, h3, h5, h6⟩
          simp only [Option.some.injEq] at e1 e2
          subst e1; subst e2
          rw [h1, Option.bind_some, byVal_of h3, Option.bind_some, h5, Option.map_some, h6]

/-- The values are within the extents of the axes. -/
def InAx (axes : List Dim) (vs : List Int) : Prop :=
  vs.length = axes.length ∧ ∀ (k : Nat) (a : Dim) (v : Int), axes[k]? = some a → vs[k]? = some v → 0 ≤ v ∧ v < a.size

theorem getElem?_axesOf {ds : List Dim} {k : Nat} {a : Dim} (h : (axesOf ds)[k]? = some a) :
    ∃ id, (axisIds ds)[k]? = some id ∧ a = ⟨id, fullExtent ds id, 1⟩ := by
  unfold axesOf at h
  rw [List.getElem?_map] at h
  obtain ⟨id, h1, h2⟩ := Option.map_eq_some_iff.mp h
  exact ⟨id, h1, h2.symm⟩

/-- The sizes of the dims are positive. -/
def Pos (ds : List Dim) : Prop := ∀ d ∈ ds, 0 < d.size ∧ 0 < d.stride

theorem axes_size_pos {ds : List Dim} (hp : Pos ds) {k : Nat} {a : Dim}
    (h : (axesOf ds)[k]? = some a) : 0 < a.size := by
  obtain ⟨id, _, rfl⟩ := getElem?_axesOf h
  exact full_pos id (fun d hd => (hp d hd).1)

theorem step_inAx {ds : List Dim} {d g : Nat → Int} {vs vs' : List Int} {i j : Int}
    (hp : Pos ds) (h : rollStepV (axesOf ds) ds d g vs i j = some vs') (hv : InAx (axesOf ds) vs) :
    InAx (axesOf ds) vs' := by
  obtain ⟨_, di, dj, f, b, x, _, _, hf, _, hx, rfl⟩ := rollStepV_iff.mp h
  refine ⟨by rw [List.length_set]; exact hv.1, ?_⟩
  intro k a v hk hkv
  have ha := axes_size_pos hp hk
  rw [List.getElem?_set] at hkv
  by_cases hfk : f = k
  · subst hfk
    have := varIndex_some hf
    rw [hk, Option.some.injEq] at this
    subst this
    rw [if_pos rfl] at hkv
    split_ifs at hkv
    simp only [Option.some.injEq] at hkv
    subst hkv
    exact ⟨Int.emod_nonneg _ (by omega), Int.emod_lt_of_pos _ (by omega)⟩
  · rw [if_neg hfk] at hkv
    exact hv.2 k a v hk hkv

/-- An axis rolled by itself has one value. -/
theorem self_size {ds : List Dim} (hp : Pos ds) {di : Dim} {i j : Nat} {f : Nat}
    (hij : i ≠ j) (hi : ds[i]? = some di) (hj : ds[j]? = some di) (ht : di.isTrav = true)
    (hf : (axesOf ds)[f]? = some di) : di.size = 1 := by
  obtain ⟨id, _, hid⟩ := getElem?_axesOf hf
  have hfull : fullExtent ds di.dim = di.size := by rw [hid]
  have hpos : 0 < di.size := (hp di (List.mem_of_getElem? hi)).1
  have hd : di.size * di.size ∣ di.size := by
    rw [← hfull] 
    rcases Nat.lt_or_gt_of_ne hij with h | h
    · have := two_dvd_full ht i j h hi hj
      rw [← hfull] at this
      rwa [hfull, hfull] at *
    · have := two_dvd_full ht j i h hj hi
      rwa [hfull] at *
  have := Nat.le_of_dvd hpos hd
  nlinarith

theorem emod_sub_inj {x y b m : Int} (h : (x - b) % m = (y - b) % m) (hx0 : 0 ≤ x) (hx : x < m)
    (hy0 : 0 ≤ y) (hy : y < m) : x = y := by
  have h1 : x % m = y % m := by
    have := congrArg (fun t => (t + b) % m) h
    simpa using this
  rwa [Int.emod_eq_of_lt hx0 hx, Int.emod_eq_of_lt hy0 hy] at h1

theorem rollOk_ne {ds : List Dim} {i j : Int} (h : rollOk ds i j = true) :
    i ≠ j ∧ ∀ di, ds[i.toNat]? = some di → di.isTrav = true := by
  unfold rollOk at h
  by_cases h1 : i = j
  · simp [h1] at h
  · rw [if_neg h1] at h
    split_ifs at h with h2
    refine ⟨h1, ?_⟩
    intro di hdi
    rw [hdi] at h
    cases hj : ds[j.toNat]? with
    | none => rw [hj] at h; simp at h
    | some dj =>
      rw [hj] at h
      simp only at h
      by_cases h3 : (di.isGap || di.isReplicate) = true
      · rw [if_pos h3] at h; simp at h
      · simp only [Bool.or_eq_true, not_or] at h3
        simp [Dim.isTrav, h3]

end Heir.Rotom
