/-
Properties of Rotom layouts and of their lowering.
-/
import Verif.Rotom.Lemmas7

namespace Heir.Rotom

/-! ### C162: the split of the dims -/

theorem C162_split (ds : List Dim) (n : Nat) (hn : 0 < n) (hs : ∀ d ∈ ds, 0 < d.size) (k : Nat) :
    Split ds n k ↔ k = ctLen ds n := by
  constructor
  · rintro ⟨_, h2, h3⟩
    exact ctLen_unique _ _ _ hn hs h2 h3
  · rintro rfl
    exact ctLen_split _ _ hn hs

theorem pow2_prod (l : List Nat) (h : ∀ x ∈ l, isPow2 x = true) : ∃ e, l.prod = 2 ^ e := by
  induction l with
  | nil => exact ⟨0, rfl⟩
  | cons x l ih =>
    obtain ⟨e, he⟩ := ih (fun y hy => h y (by simp [hy]))
    have hx := h x (by simp)
    unfold isPow2 at hx
    simp only [Bool.and_eq_true, decide_eq_true_eq] at hx
    refine ⟨Nat.log2 x + e, ?_⟩
    rw [List.prod_cons, he, Nat.pow_add, ← hx.2]

/-- The slot dims of an accepted layout fill the slots of a ciphertext, whose
number is a power of two. -/
theorem C162_slots (l : Layout) (h : l.verify = true) (k : Nat) (hk : Split l.dims l.n k) :
    ((l.dims.drop k).map (·.size)).prod = l.n ∧ ∃ e, l.n = 2 ^ e := by
  obtain ⟨hp, _, hn, _, _, h2, h3⟩ := verify_unpack h
  rw [split_iff hp hn] at hk
  subst hk
  refine ⟨h3, ?_⟩
  rw [← h3]
  apply pow2_prod
  intro x hx
  obtain ⟨d, hd, rfl⟩ := List.mem_map.mp hx
  exact (h2 d hd).1

example : Split [⟨0, 2, 4⟩, ⟨1, 2, 1⟩, ⟨0, 4, 1⟩] 8 1 := by
  refine ⟨by decide, by decide, ?_⟩
  intro i hi
  have : i = 0 := by omega
  subst this; decide

example : (⟨[⟨0, 2, 4⟩, ⟨1, 2, 1⟩, ⟨0, 4, 1⟩], 8, []⟩ : Layout).verify = true := by decide +kernel

/-! ### C163: one element for each slot -/

/-- Two copies in the same slot of the same ciphertext are the same copy of the
same element. -/
theorem C163_one_copy (l : Layout) (h : l.verify = true) (r : Rel) (hr : lower l = some r)
    (ix d g ix' d' g' : Nat → Int) (ct slot : Int) (h1 : r.At ix d g ct slot)
    (h2 : r.At ix' d' g' ct slot) : r.Same ix d g ix' d' g' := by
  obtain ⟨hp, _, hn, _, hro, _, _⟩ := verify_unpack h
  obtain ⟨es, hes, _, hok, rfl⟩ := lower_unpack hr
  rw [at_iff hp hes] at h1 h2
  obtain ⟨e1, _, _, c1, s1⟩ := h1
  obtain ⟨e2, _, _, c2, s2⟩ := h2
  have r1 := digits_inR hp hes e1
  have r2 := digits_inR hp hes e2
  rw [digits_append] at r1 r2
  have hc : ctDigits l es ix d g = ctDigits l es ix' d' g' := by
    apply mix_inj _ _ (inR_append r1).1 (inR_append r2).1
    · unfold ctDigits; rw [cells_sizes, cells_sizes]
    · rw [← c1, ← c2]
  have hsl : slotDigits l es ix d g = slotDigits l es ix' d' g' := by
    apply mix_inj _ _ (inR_append r1).2 (inR_append r2).2
    · unfold slotDigits; rw [cells_sizes, cells_sizes]
    · rw [← s1, ← s2]
  obtain ⟨a, b, c⟩ := digits_inj hp hro hok hes e1 e2 (by rw [digits_append, digits_append, hc, hsl])
  refine ⟨?_, ?_, fun k _ hk => c k hk⟩
  · intro k hk
    exact a k (by simpa [relOf] using hk)
  · intro k hk
    exact b k (by simpa [relOf, dBounds, nRepl] using hk)

/-- No slot holds two elements. -/
theorem C163_one_element (l : Layout) (h : l.verify = true) (r : Rel) (hr : lower l = some r)
    (ix ix' : Nat → Int) (ct slot : Int) (h1 : r.Holds ix ct slot) (h2 : r.Holds ix' ct slot) :
    ∀ k, k < r.axes.length → ix k = ix' k := by
  obtain ⟨d, g, h1⟩ := h1
  obtain ⟨d', g', h2⟩ := h2
  exact (C163_one_copy l h r hr ix d g ix' d' g' ct slot h1 h2).1

/-- A layout with a split axis, a replication and two rolls, one of which is by
the replication. -/
example : let l : Layout := ⟨[⟨0, 4, 1⟩, ⟨2, 2, 2⟩, ⟨1, 4, 1⟩, ⟨-1, 2, 1⟩, ⟨2, 2, 1⟩], 16, [0, 2, 2, 3]⟩
    l.verify = true ∧ (lower l).isSome = true := by
  decide +kernel

/-! ### C164: every element is in some slot -/

theorem posP_pcs {l : Layout} (hp : Pos l.dims) (ds : List Dim) (hd : ∀ x ∈ ds, x ∈ l.dims) :
    PosP (pcs l ds) := by
  intro p hp'
  obtain ⟨x, hx, rfl⟩ := List.mem_map.mp hp'
  rw [mkPiece_dim]
  exact (hp x (hd x hx)).1

theorem spans_pcs (l : Layout) (ds : List Dim) : spans (pcs l ds) = extent ds := by
  unfold spans pcs extent
  rw [List.map_map]
  congr 1
  apply List.map_congr_left
  intro x _
  simp [mkPiece_dim]

/-- Every copy of every element is in some slot, unless padding of the
ciphertext side stands behind a dim of that side. -/
theorem C164_placed_partial (l : Layout) (h : l.verify = true) (hpad : ¬ PaddingInside l) (r : Rel)
    (hr : lower l = some r) (ix d g : Nat → Int) (hc : r.Copy ix d g) :
    ∃ ct slot, r.At ix d g ct slot := by
  obtain ⟨hp, _, hn, _, hro, _, hex⟩ := verify_unpack h
  obtain ⟨es, hes, _, hok, rfl⟩ := lower_unpack hr
  have he : Env l ix d g := hc
  have hin := digits_inR hp hes he
  rw [digits_append] at hin
  obtain ⟨i1, i2⟩ := inR_append hin
  refine ⟨mix (ctDigits l es ix d g), mix (slotDigits l es ix d g), ?_⟩
  rw [at_iff hp hes]
  refine ⟨he, ⟨(mix_bounds _ i1).1, ?_⟩, ⟨(mix_bounds _ i2).1, ?_⟩, rfl, rfl⟩
  · apply mix_lt_numCt
    · unfold ctDigits; rw [cells_sizes]
    · exact i1
    · exact cells_ZG _ _ _ _ _ _ _
    · exact posP_pcs hp _ (fun x hx => List.mem_of_mem_take hx)
    · exact (NB_iff hp hn).mpr hpad
  · have := (mix_bounds _ i2).2
    unfold slotDigits at this ⊢
    rw [prodS_cells, spans_pcs, hex] at this
    exact this

/-- That condition is also necessary. -/
theorem C164_exact (l : Layout) (h : l.verify = true) (r : Rel) (hr : lower l = some r) :
    (∀ ix d g, r.Copy ix d g → ∃ ct slot, r.At ix d g ct slot) ↔ ¬ PaddingInside l := by
  constructor
  · intro hall hpad
    obtain ⟨hp, _, hn, _, hro, _, hex⟩ := verify_unpack h
    have hnb : ¬ NB (rolledGap l.dims l.rolls) (pcs l l.pre) 0 := by
      rw [NB_iff hp hn]; exact not_not.mpr hpad
    obtain ⟨es, hes, _, hok, rfl⟩ := lower_unpack hr
    have hpp : PosP (pcs l l.dims) := posP_pcs hp _ (fun x hx => hx)
    have hpre : PosP (pcs l l.pre) := posP_pcs hp _ (fun x hx => List.mem_of_mem_take hx)
    let T := maxT (rolledGap l.dims l.rolls) (pcs l l.dims) 0
    obtain ⟨ix, d, g, he, hdig⟩ := digits_onto hp hro hok hes T
      (by simp only [T]; rw [maxT_sizes, pcs, List.map_map]
          apply List.map_congr_left; intro x _; simp [mkPiece_dim])
      (maxT_inR _ _ _ hpp) (maxT_ZG _ _ _)
    obtain ⟨ct, slot, hat⟩ := hall ix d g he
    rw [at_iff hp hes] at hat
    obtain ⟨_, ⟨_, hlt⟩, _, hct, _⟩ := hat
    have happ : ∀ (a b : List Piece) (gi : Nat), ∃ U, maxT (rolledGap l.dims l.rolls) (a ++ b) gi
        = maxT (rolledGap l.dims l.rolls) a gi ++ U := by
      intro a b
      induction a with
      | nil => intro gi; exact ⟨_, rfl⟩
      | cons p a ih =>
        intro gi
        obtain ⟨U, hU⟩ := ih (bumpGap p gi)
        exact ⟨U, by rw [List.cons_append, maxT, maxT, hU, List.cons_append]⟩
    have hsplit : pcs l l.dims = pcs l l.pre ++ pcs l l.post := by
      unfold pcs; rw [← List.map_append, List.take_append_drop]
    have hctd : ctDigits l es ix d g = maxT (rolledGap l.dims l.rolls) (pcs l l.pre) 0 := by
      obtain ⟨U, hU⟩ := happ (pcs l l.pre) (pcs l l.post) 0
      have e1 : ctDigits l es ix d g ++ slotDigits l es ix d g
          = maxT (rolledGap l.dims l.rolls) (pcs l l.pre) 0 ++ U := by
        rw [← digits_append, hdig, ← hU, ← hsplit]
      refine (List.append_inj e1 ?_).1
      have a1 := congrArg List.length (cells_sizes (rolledGap l.dims l.rolls) d g
        (es.map (Expr.eval ix d g)) (pcs l l.pre) 0 0)
      have a2 := congrArg List.length (maxT_sizes (rolledGap l.dims l.rolls) (pcs l l.pre) 0)
      rw [List.length_map] at a1 a2
      unfold ctDigits
      rw [a1, a2]
    have := (maxT_ge (rolledGap l.dims l.rolls) (pcs l l.pre) 0 hpre).2 hnb
    rw [hctd] at hct
    rw [hct] at hlt
    simp only [relOf] at hlt
    omega
  · intro hpad ix d g hc
    exact C164_placed_partial l h hpad r hr ix d g hc

/-- A layout that is accepted and lowered, where the elements of two of the four
rows of the tensor are in no slot. -/
theorem C164_violated_padding : ∃ l : Layout, l.verify = true ∧ ∃ r, lower l = some r ∧
    r.axes = [4, 8] ∧
    ∀ ix : Nat → Int, Within ix r.axes → 2 ≤ ix 0 → ∀ ct slot, ¬ r.Holds ix ct slot := by
  refine ⟨⟨[⟨0, 4, 1⟩, ⟨-2, 2, 1⟩, ⟨1, 8, 1⟩], 8, []⟩, by decide +kernel, _, rfl, by decide +kernel, ?_⟩
  rintro ix _ h2 ct slot ⟨d, g, _, ⟨_, hct⟩, _, _, _, he, _⟩
  have e1 : (numCt (rolledGap [⟨0, 4, 1⟩, ⟨-2, 2, 1⟩, ⟨1, 8, 1⟩] [])
      (List.take 2 ([⟨0, 4, 1⟩, ⟨-2, 2, 1⟩, ⟨1, 8, 1⟩].map
        (mkPiece [⟨0, 4, 1⟩, ⟨-2, 2, 1⟩, ⟨1, 8, 1⟩]))) 0) = 4 := by decide +kernel
  have e2 : segTerms (rolledGap [⟨0, 4, 1⟩, ⟨-2, 2, 1⟩, ⟨1, 8, 1⟩] [])
      (axesOf [⟨0, 4, 1⟩, ⟨-2, 2, 1⟩, ⟨1, 8, 1⟩]) [Expr.i 0, Expr.i 1]
      (List.take 2 ([⟨0, 4, 1⟩, ⟨-2, 2, 1⟩, ⟨1, 8, 1⟩].map
        (mkPiece [⟨0, 4, 1⟩, ⟨-2, 2, 1⟩, ⟨1, 8, 1⟩]))) 0 0 = [(2, Expr.i 0)] := by decide +kernel
  have hct' : ct < ((4 : Nat) : Int) := by rw [← e1]; exact hct
  have he' : ct = addr ix d g [(2, Expr.i 0)] := by rw [← e2]; exact he
  simp [addr, Expr.eval] at he'
  push_cast at hct'
  omega

example : ¬ PaddingInside ⟨[⟨-2, 2, 1⟩, ⟨0, 4, 1⟩, ⟨1, 8, 1⟩], 8, []⟩ := by
  rintro ⟨k, i, j, di, dj, hs, hij, hjk, hi, hj, hpi, hi2, hpj, hj2⟩
  have hk : k = 2 := by
    have := (C162_split [⟨-2, 2, 1⟩, ⟨0, 4, 1⟩, ⟨1, 8, 1⟩] 8 (by decide) (by decide) k).mp hs
    rw [this]; decide +kernel
  have : i = 0 ∧ j = 1 := by omega
  obtain ⟨rfl, rfl⟩ := this
  obtain ⟨⟨d, hd, he⟩, _⟩ := hpj
  simp at hd
  rw [← hd] at he
  simp at he

/-! ### C165: every slot holds an element -/

theorem ZG_pos {rolled : Nat → Bool} {ps : List Piece} {gi : Nat} {T : List (Nat × Int)}
    (h : ZG rolled ps gi T) (j : Nat) (p : Piece) (c : Nat × Int) (hp : ps[j]? = some p)
    (hc : T[j]? = some c) (hk : p.kind = .gap) (hr : rolled (gi + nGap (ps.take j)) = false) :
    c.2 = 0 := by
  induction ps generalizing gi T j with
  | nil => simp at hp
  | cons x ps ih =>
    cases T with
    | nil => simp at hc
    | cons y T =>
      cases j with
      | zero =>
        simp only [List.getElem?_cons_zero, Option.some.injEq] at hp hc
        subst hp; subst hc
        exact h.1 hk (by simpa [nGap] using hr)
      | succ j =>
        rw [List.getElem?_cons_succ] at hp hc
        rw [List.take_succ_cons, nGap_cons] at hr
        exact ih h.2 j hp hc hr

/-- Without padding of more than one value, every slot of every ciphertext holds
an element, and the number of ciphertexts is the extent of the ciphertext side. -/
theorem C165_filled (l : Layout) (h : l.verify = true) (r : Rel) (hr : lower l = some r)
    (hpad : ∀ j d, l.dims[j]? = some d → Padding l j → d.size = 1) :
    (∀ k, Split l.dims l.n k → r.numCt = ((l.dims.take k).map (·.size)).prod) ∧
    ∀ ct slot : Int, 0 ≤ ct → ct < r.numCt → 0 ≤ slot → slot < l.n → r.Filled ct slot := by
  obtain ⟨hp, _, hn, _, hro, _, hex⟩ := verify_unpack h
  obtain ⟨es, hes, _, hok, rfl⟩ := lower_unpack hr
  have hones : OnesG (rolledGap l.dims l.rolls) (pcs l l.dims) 0 := by
    rw [OnesG_pos]
    intro j p hj hk hrr
    unfold pcs at hj
    rw [List.getElem?_map] at hj
    obtain ⟨d, hd, rfl⟩ := Option.map_eq_some_iff.mp hj
    rw [mkPiece_dim]
    apply hpad j d hd
    rw [padding_iff hd]
    refine ⟨(kind_gap_iff _ _).mp hk, ?_⟩
    rw [Nat.zero_add, gapIndex_pcs] at hrr
    exact hrr
  have hsplit : pcs l l.dims = pcs l l.pre ++ pcs l l.post := by
    unfold pcs; rw [← List.map_append, List.take_append_drop]
  have hones1 : OnesG (rolledGap l.dims l.rolls) (pcs l l.pre) 0 := by
    rw [OnesG_pos] at hones ⊢
    intro j p hj hk hrr
    have hjl : j < (pcs l l.pre).length := (List.getElem?_eq_some_iff.mp hj).1
    apply hones j p ?_ hk ?_
    · rw [hsplit, List.getElem?_append_left hjl]; exact hj
    · rw [hsplit, List.take_append_of_le_length (Nat.le_of_lt hjl)]; exact hrr
  have hnum : (relOf l es).numCt = extent l.pre := by
    simp only [relOf]
    rw [numCt_eq _ _ _ hones1, spans_pcs]
  refine ⟨?_, ?_⟩
  · intro k hk
    rw [split_iff hp hn] at hk
    subst hk
    exact hnum
  · intro ct slot h0 h1 h2 h3
    rw [hnum] at h1
    obtain ⟨T1, t1, t2, t3⟩ := mix_onto (l.pre.map (fun d : Dim => d.size)) ct h0 h1
    obtain ⟨T2, u1, u2, u3⟩ := mix_onto (l.post.map (fun d : Dim => d.size)) slot h2 (by
      have : (l.post.map (·.size)).prod = l.n := hex
      rw [this]; exact h3)
    have hTs : (T1 ++ T2).map (·.1) = l.dims.map (·.size) := by
      rw [List.map_append, t1, u1, ← List.map_append, List.take_append_drop]
    have hTr : InR (T1 ++ T2) := by
      intro c hc
      rcases List.mem_append.mp hc with hc | hc
      · exact t2 c hc
      · exact u2 c hc
    obtain ⟨ix, d, g, he, hd⟩ := digits_onto hp hro hok hes (T1 ++ T2) hTs hTr
      (OnesG_ZG _ _ _ _ (by
        rw [hTs, pcs, List.map_map]
        apply List.map_congr_left; intro x _; simp [mkPiece_dim]) hTr hones)
    rw [digits_append] at hd
    have hlen : (ctDigits l es ix d g).length = T1.length := by
      have a1 := congrArg List.length (cells_sizes (rolledGap l.dims l.rolls) d g
        (es.map (Expr.eval ix d g)) (pcs l l.pre) 0 0)
      have a2 := congrArg List.length t1
      rw [List.length_map] at a1 a2
      unfold ctDigits
      rw [a1, a2]
      simp [pcs]
    obtain ⟨e1, e2⟩ := List.append_inj hd hlen
    refine ⟨ix, d, g, ?_⟩
    rw [at_iff hp hes]
    refine ⟨he, ⟨h0, by rw [hnum]; exact h1⟩, ⟨h2, h3⟩, ?_, ?_⟩
    · rw [e1, t3]
    · rw [e2, u3]

/-- With padding of more than one value on the slot side, every ciphertext has a
slot without an element. -/
theorem C165_empty (l : Layout) (h : l.verify = true) (r : Rel) (hr : lower l = some r) (k j : Nat)
    (dj : Dim) (hk : Split l.dims l.n k) (hkj : k ≤ j) (hj : l.dims[j]? = some dj)
    (hpad : Padding l j) (h2 : 2 ≤ dj.size) (ct : Int) :
    ∃ slot : Int, 0 ≤ slot ∧ slot < l.n ∧ ¬ r.Filled ct slot := by
  obtain ⟨hp, _, hn, _, hro, _, hex⟩ := verify_unpack h
  obtain ⟨es, hes, _, hok, rfl⟩ := lower_unpack hr
  rw [split_iff hp hn] at hk
  subst hk
  let T : List (Nat × Int) := l.post.map (fun d => (d.size, if 2 ≤ d.size then (1 : Int) else 0))
  have hTs : T.map (·.1) = l.post.map (·.size) := by
    simp [T, Function.comp_def]
  have hTr : InR T := by
    intro c hc
    obtain ⟨x, hx, rfl⟩ := List.mem_map.mp hc
    have := (hp x (List.mem_of_mem_drop hx)).1
    simp only
    split_ifs <;> omega
  have hb := mix_bounds T hTr
  have hprod : prodS T = l.n := by
    unfold prodS; rw [hTs]; exact hex
  refine ⟨mix T, hb.1, by rw [← hprod]; exact hb.2, ?_⟩
  rintro ⟨ix, d, g, hat⟩
  rw [at_iff hp hes] at hat
  obtain ⟨he, _, _, _, hs⟩ := hat
  have hin := digits_inR hp hes he
  rw [digits_append] at hin
  have hsz : (slotDigits l es ix d g).map (·.1) = T.map (·.1) := by
    unfold slotDigits
    rw [cells_sizes, hTs, pcs, List.map_map]
    apply List.map_congr_left; intro x _; simp [mkPiece_dim]
  have heq := mix_inj _ _ (inR_append hin).2 hTr hsz hs.symm
  -- the position of the padding within the slot side
  have hj' : l.post[j - ctLen l.dims l.n]? = some dj := by
    unfold Layout.post
    rw [List.getElem?_drop, show ctLen l.dims l.n + (j - ctLen l.dims l.n) = j by omega]
    exact hj
  have hz := cells_ZG (rolledGap l.dims l.rolls) d g (es.map (Expr.eval ix d g)) (pcs l l.post)
    (nGap (pcs l l.pre)) (nRepl (pcs l l.pre))
  have hpd := (padding_iff hj).mp hpad
  have := ZG_pos hz (j - ctLen l.dims l.n) (mkPiece l.dims dj) (dj.size, 1)
    (by unfold pcs; rw [List.getElem?_map, hj']; rfl)
    (by
      have e : (slotDigits l es ix d g)[j - ctLen l.dims l.n]? = T[j - ctLen l.dims l.n]? := by rw [heq]
      unfold slotDigits at e
      rw [e]
      simp only [T]
      rw [List.getElem?_map, hj']
      simp [h2])
    ((kind_gap_iff _ _).mpr hpd.1)
    (by
      rw [gapIndex_pcs, nGap_pcs]
      rw [← hpd.2]
      congr 1
      unfold gapIndex Layout.pre Layout.post
      rw [← List.length_append, ← List.filter_append]
      congr 2
      have : j = ctLen l.dims l.n + (j - ctLen l.dims l.n) := by omega
      conv_rhs => rw [this, List.take_add])
  simp at this

example : (⟨[⟨0, 4, 1⟩, ⟨-2, 2, 1⟩, ⟨1, 4, 1⟩], 8, []⟩ : Layout).verify = true := by decide +kernel

end Heir.Rotom
