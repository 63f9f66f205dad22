/- Helper lemmas: a gap put before the slot dims changes no address. -/
import Verif.Rotom.Lemmas7

namespace Heir.Rotom

/-- The gap put in front of the slot dims. -/
def gapDim (f : Nat) : Dim := ⟨-2, f, 1⟩

/-- The renaming of positions. -/
def shiftPos (k : Nat) (x : Int) : Int := if (k : Int) ≤ x then x + 1 else x

/-- The renaming of the ordinals of gaps. -/
def rho (g0 : Nat) (o : Nat) : Nat := if o < g0 then o else o + 1

theorem rho_inj {g0 a b : Nat} (h : rho g0 a = rho g0 b) : a = b := by
  unfold rho at h; split_ifs at h <;> omega

theorem rho_ne (g0 a : Nat) : rho g0 a ≠ g0 := by
  unfold rho; split_ifs <;> omega

/-- The renaming of the gaps of an expression. -/
def Expr.ren (g0 : Nat) : Expr → Expr
  | .i k => .i k
  | .d k => .d k
  | .g k => .g (rho g0 k)
  | .sub a b => .sub (a.ren g0) (b.ren g0)
  | .md a m => .md (a.ren g0) m
  | .fdiv a m => .fdiv (a.ren g0) m

theorem ren_eval (g0 : Nat) (ix d g : Nat → Int) (e : Expr) :
    (e.ren g0).eval ix d g = e.eval ix d (fun k => g (rho g0 k)) := by
  induction e with
  | i k => rfl
  | d k => rfl
  | g k => rfl
  | sub a b iha ihb => simp [Expr.ren, Expr.eval, iha, ihb]
  | md a m ih => simp [Expr.ren, Expr.eval, ih]
  | fdiv a m ih => simp [Expr.ren, Expr.eval, ih]

section
variable (pre post : List Dim) (f : Nat)

/-- The dims with the gap. -/
def withGap : List Dim := pre ++ gapDim f :: post

theorem gapDim_gap : (gapDim f).isGap = true := rfl
theorem gapDim_trav : (gapDim f).isTrav = false := rfl
theorem gapDim_repl : (gapDim f).isReplicate = false := rfl

theorem filter_withGap (p : Dim → Bool) (h : p (gapDim f) = false) :
    (withGap pre post f).filter p = (pre ++ post).filter p := by
  unfold withGap
  rw [List.filter_append, List.filter_cons_of_neg (by simp [h]), List.filter_append]

theorem axisIds_withGap : axisIds (withGap pre post f) = axisIds (pre ++ post) := by
  unfold axisIds
  rw [filter_withGap _ _ _ _ (gapDim_trav f)]

theorem full_withGap (id : Int) : fullExtent (withGap pre post f) id = fullExtent (pre ++ post) id := by
  unfold fullExtent
  rw [filter_withGap]
  rw [gapDim_trav]; rfl

theorem count_withGap (id : Int) : pieceCount (withGap pre post f) id = pieceCount (pre ++ post) id := by
  unfold pieceCount
  rw [filter_withGap]
  rw [gapDim_trav]; rfl

theorem mkPiece_withGap (d : Dim) : mkPiece (withGap pre post f) d = mkPiece (pre ++ post) d := by
  unfold mkPiece
  rw [count_withGap, full_withGap, axisIds_withGap]

theorem axesOf_withGap : axesOf (withGap pre post f) = axesOf (pre ++ post) := by
  unfold axesOf
  rw [axisIds_withGap]
  apply List.map_congr_left
  intro id _
  rw [full_withGap]

theorem radixOk_withGap (id : Int) : radixOk (withGap pre post f) id = radixOk (pre ++ post) id := by
  unfold radixOk
  rw [count_withGap, full_withGap, filter_withGap]
  rw [gapDim_trav]; rfl

/-- The number of gaps before the new one. -/
def g0of : Nat := (pre.filter Dim.isGap).length

theorem toNat_shift {k : Nat} {x : Int} (h : 0 ≤ x) :
    (shiftPos k x).toNat = if k ≤ x.toNat then x.toNat + 1 else x.toNat := by
  unfold shiftPos
  split_ifs <;> omega

theorem get_shift (j : Nat) :
    (withGap pre post f)[if pre.length ≤ j then j + 1 else j]? = (pre ++ post)[j]? := by
  unfold withGap
  by_cases h : pre.length ≤ j
  · rw [if_pos h, List.getElem?_append_right (by omega), List.getElem?_append_right h,
      show j + 1 - pre.length = (j - pre.length) + 1 by omega, List.getElem?_cons_succ]
  · rw [if_neg h, List.getElem?_append_left (by omega), List.getElem?_append_left (by omega)]

theorem take_shift_len (p : Dim → Bool) (j : Nat) :
    (((withGap pre post f).take (if pre.length ≤ j then j + 1 else j)).filter p).length
      = (((pre ++ post).take j).filter p).length
        + (if pre.length ≤ j ∧ p (gapDim f) = true then 1 else 0) := by
  unfold withGap
  by_cases h : pre.length ≤ j
  · rw [if_pos h]
    have e1 : (pre ++ gapDim f :: post).take (j + 1) = pre ++ gapDim f :: post.take (j - pre.length) := by
      rw [List.take_append, List.take_of_length_le (by omega),
        show j + 1 - pre.length = (j - pre.length) + 1 by omega, List.take_succ_cons]
    have e2 : (pre ++ post).take j = pre ++ post.take (j - pre.length) := by
      rw [List.take_append, List.take_of_length_le h]
    rw [e1, e2, List.filter_append, List.filter_append, List.length_append, List.length_append]
    by_cases hp : p (gapDim f) = true
    · rw [List.filter_cons_of_pos hp, if_pos ⟨h, hp⟩, List.length_cons]; omega
    · rw [List.filter_cons_of_neg hp, if_neg (fun hc => hp hc.2)]; omega
  · rw [if_neg h, if_neg (fun hc => h hc.1), List.take_append_of_le_length (by omega),
      List.take_append_of_le_length (by omega)]
    omega

theorem replIndex_shift (j : Nat) :
    replIndex (withGap pre post f) (if pre.length ≤ j then j + 1 else j) = replIndex (pre ++ post) j := by
  unfold replIndex
  rw [take_shift_len, if_neg (by simp [gapDim_repl])]
  omega

theorem gapIndex_shift (j : Nat) (dj : Dim) (hj : (pre ++ post)[j]? = some dj) (hg : dj.isGap = true) :
    gapIndex (withGap pre post f) (if pre.length ≤ j then j + 1 else j)
      = rho (g0of pre) (gapIndex (pre ++ post) j) := by
  unfold gapIndex
  rw [take_shift_len]
  unfold rho g0of
  by_cases h : pre.length ≤ j
  · rw [if_pos ⟨h, gapDim_gap f⟩]
    have e2 : (pre ++ post).take j = pre ++ post.take (j - pre.length) := by
      rw [List.take_append, List.take_of_length_le h]
    rw [e2, List.filter_append, List.length_append, if_neg (by omega)]
  · rw [if_neg (fun hc => h hc.1), List.take_append_of_le_length (by omega)]
    rw [List.getElem?_append_left (by omega)] at hj
    have := gapIndex_lt hj hg
    unfold gapIndex at this
    rw [if_pos this]
    omega

theorem rolledGap_shift : ∀ (rolls : List Int) (o : Nat),
    rolledGap (withGap pre post f) (rolls.map (shiftPos pre.length)) (rho (g0of pre) o)
      = rolledGap (pre ++ post) rolls o
  | [], o => rfl
  | [_], o => rfl
  | i :: j :: rest, o => by
    simp only [List.map_cons]
    rw [rolledGap, rolledGap, rolledGap_shift rest o]
    congr 1
    by_cases h : j < 0
    · have : shiftPos pre.length j < 0 := by unfold shiftPos; split_ifs <;> omega
      rw [if_pos h, if_pos this]
    · have : ¬ shiftPos pre.length j < 0 := by unfold shiftPos; split_ifs <;> omega
      rw [if_neg h, if_neg this, toNat_shift (by omega), get_shift]
      cases hj : (pre ++ post)[j.toNat]? with
      | none => rfl
      | some dj =>
        simp only
        by_cases hg : dj.isGap = true
        · rw [gapIndex_shift pre post f _ dj hj hg, hg, Bool.true_and, Bool.true_and]
          rw [Bool.eq_iff_iff, beq_iff_eq, beq_iff_eq]
          exact ⟨rho_inj, fun h => by rw [h]⟩
        · have : dj.isGap = false := by simpa using hg
          rw [this, Bool.false_and, Bool.false_and]

theorem rolledGap_new : ∀ (rolls : List Int),
    rolledGap (withGap pre post f) (rolls.map (shiftPos pre.length)) (g0of pre) = false
  | [] => rfl
  | [_] => rfl
  | i :: j :: rest => by
    simp only [List.map_cons]
    rw [rolledGap, rolledGap_new rest, Bool.or_false]
    by_cases h : j < 0
    · have : shiftPos pre.length j < 0 := by unfold shiftPos; split_ifs <;> omega
      rw [if_pos this]
    · have : ¬ shiftPos pre.length j < 0 := by unfold shiftPos; split_ifs <;> omega
      rw [if_neg this, toNat_shift (by omega), get_shift]
      cases hj : (pre ++ post)[j.toNat]? with
      | none => rfl
      | some dj =>
        simp only
        by_cases hg : dj.isGap = true
        · rw [gapIndex_shift pre post f _ dj hj hg, hg, Bool.true_and]
          have := rho_ne (g0of pre) (gapIndex (pre ++ post) j.toNat)
          simpa using this
        · have : dj.isGap = false := by simpa using hg
          rw [this, Bool.false_and]

theorem byExpr_shift (axes : List Dim) (es : List Expr) (j : Nat) (dj : Dim)
    (hj : (pre ++ post)[j]? = some dj) :
    byExpr axes (withGap pre post f) (es.map (Expr.ren (g0of pre)))
        (if pre.length ≤ j then j + 1 else j) dj
      = (byExpr axes (pre ++ post) es j dj).map (Expr.ren (g0of pre)) := by
  unfold byExpr
  by_cases h1 : dj.isGap = true
  · rw [if_pos h1, if_pos h1, gapIndex_shift pre post f j dj hj h1]; rfl
  · rw [if_neg h1, if_neg h1]
    by_cases h2 : dj.isReplicate = true
    · rw [if_pos h2, if_pos h2, replIndex_shift]; rfl
    · rw [if_neg h2, if_neg h2]
      cases varIndex axes dj with
      | none => rfl
      | some v => simp

theorem rollStep_shift (axes : List Dim) (es : List Expr) (i j : Int) :
    rollStep axes (withGap pre post f) (es.map (Expr.ren (g0of pre)))
        (shiftPos pre.length i) (shiftPos pre.length j)
      = (rollStep axes (pre ++ post) es i j).map (List.map (Expr.ren (g0of pre))) := by
  unfold rollStep
  by_cases h : i < 0 ∨ j < 0
  · have : shiftPos pre.length i < 0 ∨ shiftPos pre.length j < 0 := by
      unfold shiftPos; split_ifs <;> omega
    rw [if_pos h, if_pos this]; rfl
  · have : ¬ (shiftPos pre.length i < 0 ∨ shiftPos pre.length j < 0) := by
      unfold shiftPos; split_ifs <;> omega
    rw [if_neg h, if_neg this, toNat_shift (by omega), toNat_shift (by omega), get_shift, get_shift]
    cases (pre ++ post)[i.toNat]? with
    | none => rfl
    | some di =>
      cases hj : (pre ++ post)[j.toNat]? with
      | none => rfl
      | some dj =>
        simp only
        cases varIndex axes di with
        | none => rfl
        | some v =>
          simp only [Option.bind_some]
          rw [byExpr_shift pre post f axes es j.toNat dj hj]
          cases byExpr axes (pre ++ post) es j.toNat dj with
          | none => rfl
          | some b =>
            simp only [Option.bind_some, Option.map_some, List.getElem?_map]
            cases es[v]? with
            | none => rfl
            | some e => simp [Expr.ren, List.map_set]

theorem rollAll_shift (axes : List Dim) : ∀ (rolls : List Int) (es : List Expr),
    rollAll axes (withGap pre post f) (rolls.map (shiftPos pre.length))
        (es.map (Expr.ren (g0of pre)))
      = (rollAll axes (pre ++ post) rolls es).map (List.map (Expr.ren (g0of pre)))
  | [], es => rfl
  | [_], es => rfl
  | i :: j :: rest, es => by
    simp only [List.map_cons, rollAll]
    rw [rollStep_shift]
    cases rollStep axes (pre ++ post) es i j with
    | none => rfl
    | some es' =>
      simp only [Option.map_some, Option.bind_some]
      exact rollAll_shift axes rest es'

end

theorem digit_ren (g0 : Nat) (p : Piece) (e : Expr) : digit p (e.ren g0) = (digit p e).ren g0 := by
  unfold digit
  split_ifs <;> rfl

theorem segTerms_ren (g0 : Nat) (rolled rolled' : Nat → Bool) (axes : List Dim) (es : List Expr)
    (ps : List Piece) (gi gi' ri : Nat)
    (h : ∀ k, k < nGap ps → gi' + k = rho g0 (gi + k) ∧ rolled' (gi' + k) = rolled (gi + k)) :
    segTerms rolled' axes (es.map (Expr.ren g0)) ps gi' ri
      = (segTerms rolled axes es ps gi ri).map (fun t => (t.1, t.2.ren g0)) := by
  induction ps generalizing gi gi' ri with
  | nil => rfl
  | cons p ps ih =>
    rw [segTerms, segTerms, List.map_append]
    congr 1
    · unfold term
      cases hk : p.kind with
      | gap =>
        simp only
        have h0 := h 0 (by unfold nGap; rw [List.filter_cons_of_pos (by simp [hk])]; simp)
        rw [Nat.add_zero, Nat.add_zero] at h0
        rw [h0.2]
        by_cases hr : rolled gi = true
        · simp [hr, Expr.ren, h0.1]
        · simp [hr]
      | repl => simp [Expr.ren]
      | trav =>
        simp only
        by_cases h1 : Option.map (fun x => x.size) axes[p.axis]? = some 1
        · simp [h1]
        · simp only [h1, if_false, List.getElem?_map]
          cases es[p.axis]? with
          | none => rfl
          | some e => simp [digit_ren]
    · apply ih
      intro k hk
      have hn := nGap_cons p ps 0
      unfold bumpGap at hn ⊢
      by_cases hg : p.kind = .gap
      · rw [if_pos hg] at hn
        have := h (k + 1) (by omega)
        rw [if_pos hg, if_pos hg, show gi' + 1 + k = gi' + (k + 1) by omega,
          show gi + 1 + k = gi + (k + 1) by omega]
        exact this
      · rw [if_neg hg] at hn
        rw [if_neg hg, if_neg hg]
        exact h k (by omega)

theorem numCt_ren (rolled rolled' : Nat → Bool) (ps : List Piece) (gi gi' : Nat)
    (h : ∀ k, k < nGap ps → rolled' (gi' + k) = rolled (gi + k)) :
    numCt rolled' ps gi' = numCt rolled ps gi := by
  induction ps generalizing gi gi' with
  | nil => rfl
  | cons p ps ih =>
    rw [numCt, numCt]
    have hn := nGap_cons p ps 0
    unfold bumpGap at hn ⊢
    by_cases hg : p.kind = .gap
    · rw [if_pos hg] at hn
      have h0 := h 0 (by omega)
      rw [Nat.add_zero, Nat.add_zero] at h0
      rw [h0, if_pos hg, if_pos hg, ih (gi + 1) (gi' + 1)]
      intro k hk
      rw [show gi' + 1 + k = gi' + (k + 1) by omega, show gi + 1 + k = gi + (k + 1) by omega]
      exact h (k + 1) (by omega)
    · rw [if_neg hg] at hn
      rw [if_neg hg, if_neg hg, if_neg (fun hc => hg hc.1), if_neg (fun hc => hg hc.1), ih gi gi']
      intro k hk
      exact h k (by omega)

theorem addr_ren (g0 : Nat) (ix d g : Nat → Int) (ts : List (Nat × Expr)) :
    addr ix d g (ts.map (fun t => (t.1, t.2.ren g0))) = addr ix d (fun k => g (rho g0 k)) ts := by
  unfold addr
  rw [List.map_map]
  congr 1
  apply List.map_congr_left
  intro t _
  simp [ren_eval]

end Heir.Rotom
