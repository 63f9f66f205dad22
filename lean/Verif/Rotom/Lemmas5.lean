/- Helper lemmas: addresses as mixed radix numbers. -/
import Verif.Rotom.Lemmas4

namespace Heir.Rotom

/-- The digit of a piece. -/
def cellVal (rolled : Nat → Bool) (d g : Nat → Int) (vs : List Int) (p : Piece) (gi ri : Nat) : Int :=
  match p.kind with
  | .gap => if rolled gi then g gi else 0
  | .repl => d ri
  | .trav => dig p (vs.getD p.axis 0)

/-- The sizes and the digits of the pieces. -/
def cells (rolled : Nat → Bool) (d g : Nat → Int) (vs : List Int) :
    List Piece → Nat → Nat → List (Nat × Int)
  | [], _, _ => []
  | p :: ps, gi, ri =>
    (p.dim.size, cellVal rolled d g vs p gi ri)
      :: cells rolled d g vs ps (bumpGap p gi) (bumpRepl p ri)

theorem cells_sizes (rolled : Nat → Bool) (d g : Nat → Int) (vs : List Int) (ps : List Piece)
    (gi ri : Nat) : (cells rolled d g vs ps gi ri).map (·.1) = ps.map (·.dim.size) := by
  induction ps generalizing gi ri with
  | nil => rfl
  | cons p ps ih => simp [cells, ih]

theorem prodS_cells (rolled : Nat → Bool) (d g : Nat → Int) (vs : List Int) (ps : List Piece)
    (gi ri : Nat) : prodS (cells rolled d g vs ps gi ri) = spans ps := by
  unfold prodS spans
  rw [cells_sizes]

/-- Number of gaps and of replications. -/
def nGap (ps : List Piece) : Nat := (ps.filter (fun p => p.kind == .gap)).length

/-- See `nGap`. -/
def nRepl (ps : List Piece) : Nat := (ps.filter (fun p => p.kind == .repl)).length

theorem nGap_cons (p : Piece) (ps : List Piece) (gi : Nat) :
    gi + nGap (p :: ps) = bumpGap p gi + nGap ps := by
  unfold nGap bumpGap
  by_cases h : p.kind = .gap
  · rw [if_pos h, List.filter_cons_of_pos (by simp [h]), List.length_cons]; omega
  · rw [if_neg h, List.filter_cons_of_neg (by simp [h])]

theorem nRepl_cons (p : Piece) (ps : List Piece) (ri : Nat) :
    ri + nRepl (p :: ps) = bumpRepl p ri + nRepl ps := by
  unfold nRepl bumpRepl
  by_cases h : p.kind = .repl
  · rw [if_pos h, List.filter_cons_of_pos (by simp [h]), List.length_cons]; omega
  · rw [if_neg h, List.filter_cons_of_neg (by simp [h])]

theorem cells_append (rolled : Nat → Bool) (d g : Nat → Int) (vs : List Int) (a b : List Piece)
    (gi ri : Nat) : cells rolled d g vs (a ++ b) gi ri
      = cells rolled d g vs a gi ri ++ cells rolled d g vs b (gi + nGap a) (ri + nRepl a) := by
  induction a generalizing gi ri with
  | nil => simp [cells, nGap, nRepl]
  | cons p a ih =>
    rw [List.cons_append, cells, cells, ih, List.cons_append, nGap_cons, nRepl_cons]

theorem axis_at {ds : List Dim} {d : Dim} (h : d ∈ ds) (ht : d.isTrav = true) :
    (axesOf ds)[(mkPiece ds d).axis]? = some ⟨d.dim, fullExtent ds d.dim, 1⟩ := by
  rw [(mkPiece_trav ht).2.2]
  have hm : d.dim ∈ axisIds ds := (mem_axisIds ds d.dim).mpr ⟨d, h, ht, rfl⟩
  unfold axesOf
  rw [List.getElem?_map, List.getElem?_eq_getElem (List.idxOf_lt_length_iff.mpr hm),
    List.getElem_idxOf]
  rfl

theorem getD_of_inAx {ds : List Dim} {vs : List Int} (hv : InAx (axesOf ds) vs) {k : Nat} {a : Dim}
    (h : (axesOf ds)[k]? = some a) : vs[k]? = some (vs.getD k 0) ∧ 0 ≤ vs.getD k 0 ∧ vs.getD k 0 < a.size := by
  have hl : k < vs.length := by rw [hv.1]; exact (List.getElem?_eq_some_iff.mp h).1
  have : vs[k]? = some (vs.getD k 0) := by
    rw [List.getD_eq_getElem?_getD, List.getElem?_eq_getElem hl]; rfl
  exact ⟨this, hv.2 k a _ h this⟩

/-- The digit of a traversal piece is within its size. -/
theorem cell_trav {ds : List Dim} (hp : Pos ds) {vs : List Int} (hv : InAx (axesOf ds) vs) {d : Dim}
    (h : d ∈ ds) (ht : d.isTrav = true) :
    0 ≤ dig (mkPiece ds d) (vs.getD (mkPiece ds d).axis 0) ∧
      dig (mkPiece ds d) (vs.getD (mkPiece ds d).axis 0) < d.size := by
  obtain ⟨_, h0, h1⟩ := getD_of_inAx hv (axis_at h ht)
  exact dig_bounds h ht (hp d h).1 (hp d h).2 _ h0 h1

theorem addr_segTerms {ds : List Dim} (hp : Pos ds) (rolled : Nat → Bool) (ix d g : Nat → Int)
    (es : List Expr) (hv : InAx (axesOf ds) (es.map (Expr.eval ix d g))) (l : List Dim)
    (hl : ∀ x ∈ l, x ∈ ds) (gi ri : Nat) :
    addr ix d g (segTerms rolled (axesOf ds) es (l.map (mkPiece ds)) gi ri)
      = mix (cells rolled d g (es.map (Expr.eval ix d g)) (l.map (mkPiece ds)) gi ri) := by
  induction l generalizing gi ri with
  | nil => rfl
  | cons x l ih =>
    have hx : x ∈ ds := hl x (by simp)
    rw [List.map_cons, segTerms, cells, mix, prodS_cells, ← ih (fun y hy => hl y (by simp [hy]))]
    unfold addr
    rw [List.map_append, List.sum_append]
    congr 1
    have key : ((term rolled (axesOf ds) es (mkPiece ds x) gi ri).map (Expr.eval ix d g)).getD 0
        = cellVal rolled d g (es.map (Expr.eval ix d g)) (mkPiece ds x) gi ri := by
      unfold term cellVal
      cases hk : (mkPiece ds x).kind with
      | gap =>
        simp only
        by_cases hr : rolled gi = true <;> simp [hr, Expr.eval]
      | repl => simp [Expr.eval]
      | trav =>
        simp only
        have ht := mkPiece_kind_trav hk
        have hax := axis_at hx ht
        have hb := cell_trav hp hv hx ht
        have hget := (getD_of_inAx hv hax).1
        rw [hax, Option.map_some]
        by_cases h1 : fullExtent ds x.dim = 1
        · simp only [h1, if_true, Option.map_none, Option.getD_none]
          have := size_dvd_full hx ht
          rw [h1, Nat.dvd_one] at this
          rw [this] at hb
          push_cast at hb
          omega
        · rw [if_neg (by simpa using h1)]
          rw [List.getElem?_map] at hget
          obtain ⟨e, he1, he2⟩ := Option.map_eq_some_iff.mp hget
          rw [he1, Option.map_some, Option.map_some, Option.getD_some, digit_eval, he2]
    rw [← key]
    cases term rolled (axesOf ds) es (mkPiece ds x) gi ri with
    | none => simp
    | some e => simp [mul_comm]

theorem cells_inR {ds : List Dim} (hp : Pos ds) (rolled : Nat → Bool) (d g : Nat → Int)
    (vs : List Int) (hv : InAx (axesOf ds) vs) (l : List Dim) (hl : ∀ x ∈ l, x ∈ ds) (gi ri : Nat)
    (hd : ∀ (k b : Nat), (dBounds (l.map (mkPiece ds)))[k]? = some b → 0 ≤ d (ri + k) ∧ d (ri + k) < b)
    (hg : ∀ (k b : Nat), (gBounds (l.map (mkPiece ds)))[k]? = some b → rolled (gi + k) = true →
      0 ≤ g (gi + k) ∧ g (gi + k) < b) :
    InR (cells rolled d g vs (l.map (mkPiece ds)) gi ri) := by
  induction l generalizing gi ri with
  | nil => intro c hc; simp [cells] at hc
  | cons x l ih =>
    have hx : x ∈ ds := hl x (by simp)
    have hsz : (mkPiece ds x).dim.size = x.size := by rw [mkPiece_dim]
    rw [List.map_cons] at hd hg ⊢
    rw [cells]
    intro c hc
    rcases List.mem_cons.mp hc with rfl | hc
    · simp only
      unfold cellVal
      cases hk : (mkPiece ds x).kind with
      | gap =>
        simp only
        by_cases hr : rolled gi = true
        · rw [if_pos hr]
          exact hg 0 _ (by simp [gBounds, hk]) (by simpa using hr)
        · rw [if_neg hr, hsz]
          exact ⟨le_refl _, by exact_mod_cast (hp x hx).1⟩
      | repl => exact hd 0 _ (by simp [dBounds, hk])
      | trav =>
        rw [hsz]
        exact cell_trav hp hv hx (mkPiece_kind_trav hk)
    · refine ih (fun y hy => hl y (by simp [hy])) (bumpGap (mkPiece ds x) gi)
        (bumpRepl (mkPiece ds x) ri) ?_ ?_ c hc
      · intro k b hkb
        unfold bumpRepl
        by_cases hk : (mkPiece ds x).kind = .repl
        · rw [if_pos hk]
          have := hd (k + 1) b (by unfold dBounds at hkb ⊢; rw [List.filter_cons_of_pos (by simp [hk])]; simpa using hkb)
          rw [show ri + 1 + k = ri + (k + 1) by omega]; exact this
        · rw [if_neg hk]
          exact hd k b (by unfold dBounds at hkb ⊢; rw [List.filter_cons_of_neg (by simp [hk])]; exact hkb)
      · intro k b hkb
        unfold bumpGap
        by_cases hk : (mkPiece ds x).kind = .gap
        · rw [if_pos hk]
          have := hg (k + 1) b (by unfold gBounds at hkb ⊢; rw [List.filter_cons_of_pos (by simp [hk])]; simpa using hkb)
          rw [show gi + 1 + k = gi + (k + 1) by omega]; exact this
        · rw [if_neg hk]
          exact hg k b (by unfold gBounds at hkb ⊢; rw [List.filter_cons_of_neg (by simp [hk])]; exact hkb)

/-! ### Reading the digits -/

theorem cells_read (rolled : Nat → Bool) (d g d' g' : Nat → Int) (vs vs' : List Int)
    (ps : List Piece) (gi ri : Nat)
    (h : cells rolled d g vs ps gi ri = cells rolled d' g' vs' ps gi ri) :
    (∀ k, k < nRepl ps → d (ri + k) = d' (ri + k)) ∧
    (∀ k, k < nGap ps → rolled (gi + k) = true → g (gi + k) = g' (gi + k)) ∧
    (∀ p ∈ ps, p.kind = .trav → dig p (vs.getD p.axis 0) = dig p (vs'.getD p.axis 0)) := by
  induction ps generalizing gi ri with
  | nil => simp [nRepl, nGap]
  | cons p ps ih =>
    rw [cells, cells, List.cons.injEq] at h
    obtain ⟨hc, ht⟩ := h
    obtain ⟨i1, i2, i3⟩ := ih _ _ ht
    simp only [Prod.mk.injEq, true_and] at hc
    unfold cellVal at hc
    have hnr := nRepl_cons p ps ri
    have hng := nGap_cons p ps gi
    unfold bumpRepl at hnr i1
    unfold bumpGap at hng i2
    cases hk : p.kind with
    | gap =>
      rw [hk] at hc
      simp only [hk, if_true, reduceCtorEq, if_false] at hc hnr hng i1 i2
      refine ⟨fun k hk' => i1 k (by omega), ?_, ?_⟩
      · intro k hk' hr
        cases k with
        | zero =>
          rw [Nat.add_zero] at hr ⊢
          rw [hr] at hc; simpa using hc
        | succ k =>
          have := i2 k (by omega) (by rw [show gi + 1 + k = gi + (k + 1) by omega]; exact hr)
          rwa [show gi + 1 + k = gi + (k + 1) by omega] at this
      · intro q hq hqt
        rcases List.mem_cons.mp hq with rfl | hq
        · rw [hk] at hqt; simp at hqt
        · exact i3 q hq hqt
    | repl =>
      rw [hk] at hc
      simp only [hk, if_true, reduceCtorEq, if_false] at hc hnr hng i1 i2
      refine ⟨?_, fun k hk' hr => i2 k (by omega) hr, ?_⟩
      · intro k hk'
        cases k with
        | zero => rw [Nat.add_zero]; exact hc
        | succ k =>
          have := i1 k (by omega)
          rwa [show ri + 1 + k = ri + (k + 1) by omega] at this
      · intro q hq hqt
        rcases List.mem_cons.mp hq with rfl | hq
        · rw [hk] at hqt; simp at hqt
        · exact i3 q hq hqt
    | trav =>
      rw [hk] at hc
      simp only [hk, reduceCtorEq, if_false] at hc hnr hng i1 i2
      refine ⟨fun k hk' => i1 k (by omega), fun k hk' hr => i2 k (by omega) hr, ?_⟩
      intro q hq hqt
      rcases List.mem_cons.mp hq with rfl | hq
      · exact hc
      · exact i3 q hq hqt

/-! ### Writing the digits -/

/-- The digits of the gaps that no roll uses are zero. -/
def ZG (rolled : Nat → Bool) : List Piece → Nat → List (Nat × Int) → Prop
  | p :: ps, gi, c :: T => (p.kind = .gap → rolled gi = false → c.2 = 0) ∧ ZG rolled ps (bumpGap p gi) T
  | _, _, _ => True

/-- The digits of the pieces of a kind. -/
def kindVals (k : Kind) : List Piece → List (Nat × Int) → List Int
  | p :: ps, c :: T => if p.kind = k then c.2 :: kindVals k ps T else kindVals k ps T
  | _, _ => []

theorem cells_write (rolled : Nat → Bool) (d g : Nat → Int) (vs : List Int) (ps : List Piece)
    (gi ri : Nat) (T : List (Nat × Int)) (hT : T.map (·.1) = ps.map (·.dim.size))
    (hz : ZG rolled ps gi T)
    (hd : ∀ k, d (ri + k) = (kindVals .repl ps T).getD k 0)
    (hg : ∀ k, g (gi + k) = (kindVals .gap ps T).getD k 0)
    (ht : ∀ pc ∈ ps.zip T, pc.1.kind = .trav → dig pc.1 (vs.getD pc.1.axis 0) = pc.2.2) :
    cells rolled d g vs ps gi ri = T := by
  induction ps generalizing gi ri T with
  | nil => cases T with
    | nil => rfl
    | cons c T => simp at hT
  | cons p ps ih =>
    cases T with
    | nil => simp at hT
    | cons c T =>
      obtain ⟨s, v⟩ := c
      simp only [List.map_cons, List.cons.injEq] at hT
      obtain ⟨hT1, hT2⟩ := hT
      rw [cells]
      have hv : cellVal rolled d g vs p gi ri = v := by
        unfold cellVal
        cases hk : p.kind with
        | gap =>
          simp only
          by_cases hr : rolled gi = true
          · rw [if_pos hr]
            have := hg 0
            simpa [kindVals, hk] using this
          · rw [if_neg hr]
            exact (hz.1 hk (by simpa using hr)).symm
        | repl =>
          have := hd 0
          simpa [kindVals, hk] using this
        | trav => exact ht (p, (s, v)) (by simp) hk
      have htl : cells rolled d g vs ps (bumpGap p gi) (bumpRepl p ri) = T := by
        apply ih _ _ T hT2 hz.2
        · intro k
          unfold bumpRepl
          by_cases hk : p.kind = .repl
          · have := hd (k + 1)
            simp only [kindVals, hk, if_true, List.getD_cons_succ] at this
            rw [if_pos hk, ← this, show ri + 1 + k = ri + (k + 1) by omega]
          · have := hd k
            simp only [kindVals, hk, if_false] at this
            rw [if_neg hk]; exact this
        · intro k
          unfold bumpGap
          by_cases hk : p.kind = .gap
          · have := hg (k + 1)
            simp only [kindVals, hk, if_true, List.getD_cons_succ] at this
            rw [if_pos hk, ← this, show gi + 1 + k = gi + (k + 1) by omega]
          · have := hg k
            simp only [kindVals, hk, if_false] at this
            rw [if_neg hk]; exact this
        · intro pc hpc hk
          exact ht pc (by simp [hpc]) hk
      rw [hv, htl, ← hT1]

theorem kindVals_bounds (k : Kind) (ps : List Piece) (T : List (Nat × Int))
    (hT : T.map (·.1) = ps.map (·.dim.size)) (hr : InR T) (i b : Nat)
    (h : ((ps.filter (fun p => p.kind == k)).map (·.dim.size))[i]? = some b) :
    0 ≤ (kindVals k ps T).getD i 0 ∧ (kindVals k ps T).getD i 0 < b := by
  induction ps generalizing T i with
  | nil => simp at h
  | cons p ps ih =>
    cases T with
    | nil => simp at hT
    | cons c T =>
      simp only [List.map_cons, List.cons.injEq] at hT
      by_cases hk : p.kind = k
      · rw [List.filter_cons_of_pos (by simp [hk]), List.map_cons] at h
        simp only [kindVals, hk, if_true]
        cases i with
        | zero =>
          rw [List.getElem?_cons_zero, Option.some.injEq] at h
          rw [List.getD_cons_zero, ← h, ← hT.1]
          exact hr c (by simp)
        | succ i =>
          rw [List.getElem?_cons_succ] at h
          rw [List.getD_cons_succ]
          exact ih T hT.2 hr.tail i h
      · rw [List.filter_cons_of_neg (by simp [hk])] at h
        simp only [kindVals, hk, if_false]
        exact ih T hT.2 hr.tail i h

end Heir.Rotom
