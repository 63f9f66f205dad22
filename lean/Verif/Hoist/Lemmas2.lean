import Verif.Hoist.Lemmas

/-!
# Lemmas on dropping and inserting unit dimensions
-/

namespace Heir.Hoist

open Heir.Layout

/-- Insert zeros at the positions, one after the other. -/
def insAll (ps idx : List Nat) : List Nat := ps.foldl (fun a p => a.insertIdx p 0) idx

theorem foldl_setElim (ps : List Nat) (rel : Rel) (idx : List Nat) (ct slot : Nat) :
    ps.foldl setElim rel idx ct slot = rel (insAll ps.reverse idx) ct slot := by
  induction ps generalizing rel with
  | nil => rfl
  | cons p ps ih =>
    rw [List.foldl_cons, ih, setElim, List.reverse_cons, insAll, insAll, List.foldl_append]
    rfl

/-- The unit dimensions of a group that begins at `start`. -/
def units (start : Nat) (g : List Nat) : List Nat :=
  ((g.zipIdx start).filter fun x => x.1 == 1).map (·.2)

theorem units_cons_one (start : Nat) (g : List Nat) :
    units start (1 :: g) = start :: units (start + 1) g := by
  simp [units, List.zipIdx_cons]

theorem units_cons_ne {d : Nat} (h : d ≠ 1) (start : Nat) (g : List Nat) :
    units start (d :: g) = units (start + 1) g := by
  simp [units, List.zipIdx_cons, h]

theorem insertIdx_length (pre post : List Nat) (x : Nat) :
    (pre ++ post).insertIdx pre.length x = pre ++ x :: post := by
  induction pre with
  | nil => rfl
  | cons a pre ih => simp [List.insertIdx_succ_cons, ih]

theorem insAll_cons (p : Nat) (ps idx : List Nat) :
    insAll (p :: ps) idx = insAll ps (idx.insertIdx p 0) := rfl

theorem insAll_append (ps qs idx : List Nat) :
    insAll (ps ++ qs) idx = insAll qs (insAll ps idx) := by
  simp [insAll, List.foldl_append]

theorem insAll_ones {g : List Nat} (h : ∀ x ∈ g, x = 1) (pre post : List Nat) :
    insAll (units pre.length g) (pre ++ post) = pre ++ (List.replicate g.length 0 ++ post) := by
  induction g generalizing pre with
  | nil => rfl
  | cons d g ih =>
    have : d = 1 := h d (by simp)
    subst this
    rw [units_cons_one, insAll_cons, insertIdx_length]
    have := ih (fun x hx => h x (List.mem_cons_of_mem _ hx)) (pre ++ [0])
    simp only [List.length_append, List.length_singleton, List.append_assoc, List.singleton_append]
      at this
    rw [this, List.length_cons, List.replicate_succ, List.cons_append]

theorem keepsOne_cons {g : List Nat} (h : KeepsOne (1 :: g)) : KeepsOne g ∧ ∃ x ∈ g, x ≠ 1 := by
  have hg : KeepsOne g := by simpa [KeepsOne] using h
  refine ⟨hg, ?_⟩
  by_contra hc
  have : g.filter (· ≠ 1) = [] := by
    rw [List.filter_eq_nil_iff]
    intro x hx
    have : x = 1 := by
      by_contra hne
      exact hc ⟨x, hx, hne⟩
    simp [this]
  rw [KeepsOne, this] at hg
  simp at hg

theorem keepsOne_ne {d : Nat} {g : List Nat} (hd : d ≠ 1) (h : KeepsOne (d :: g)) :
    ∀ x ∈ g, x = 1 := by
  apply ones_of_filter
  rw [KeepsOne, List.filter_cons_of_pos (by simpa using hd), List.length_cons] at h
  omega

theorem insAll_group {g : List Nat} (h : KeepsOne g) (pre post : List Nat) (o : Nat) :
    insAll (units pre.length g) (pre ++ o :: post) = pre ++ (spreadG g o ++ post) := by
  induction g generalizing pre with
  | nil => simp [KeepsOne] at h
  | cons d g ih =>
    by_cases hd : d = 1
    · subst hd
      obtain ⟨hg, hex⟩ := keepsOne_cons h
      rw [units_cons_one, insAll_cons, insertIdx_length, spreadG_cons_succ (repDim_cons_one hex)]
      have := ih hg (pre ++ [0])
      simp only [List.length_append, List.length_singleton, List.append_assoc,
        List.singleton_append] at this
      rw [this, List.cons_append]
    · rw [units_cons_ne hd, spreadG_cons_zero (repDim_cons_ne g hd)]
      have := insAll_ones (keepsOne_ne hd h) (pre ++ [o]) post
      simp only [List.length_append, List.length_singleton, List.append_assoc,
        List.singleton_append] at this
      rw [this, List.cons_append]

theorem number_spreadG {g : List Nat} (h : KeepsOne g) (o : Nat) : number g (spreadG g o) = o := by
  induction g with
  | nil => simp [KeepsOne] at h
  | cons d g ih =>
    by_cases hd : d = 1
    · subst hd
      obtain ⟨hg, hex⟩ := keepsOne_cons h
      rw [spreadG_cons_succ (repDim_cons_one hex), number, ih hg]
      simp
    · rw [spreadG_cons_zero (repDim_cons_ne g hd), number, number_zeros,
        prod_ones (keepsOne_ne hd h)]
      simp

theorem spreadG_single (d o : Nat) : spreadG [d] o = [o] := by
  unfold spreadG
  have : repDim [d] = 0 := by
    by_cases h : d = 1
    · subst h; rfl
    · exact repDim_cons_ne _ h
  rw [this]
  rfl

/-- A group that the code handles: one dimension, or units and one other dimension. -/
def Fine (g : List Nat) : Prop := g.length = 1 ∨ KeepsOne g

theorem number_spreadG_fine {g : List Nat} (h : Fine g) (o : Nat) :
    number g (spreadG g o) = o := by
  rcases h with h | h
  · obtain ⟨d, rfl⟩ := List.length_eq_one_iff.1 h
    rw [spreadG_single]
    simp [number]
  · exact number_spreadG h o

theorem collapsedIdx_spread {gs : List (List Nat)} (h : ∀ g ∈ gs, Fine g) {out : List Nat}
    (hl : out.length = gs.length) : collapsedIdx gs (spread gs out) = out := by
  induction gs generalizing out with
  | nil => rw [List.eq_nil_of_length_eq_zero hl]; rfl
  | cons g gs ih =>
    cases out with
    | nil => simp at hl
    | cons o out =>
      rw [spread, collapsedIdx, List.take_left' (by simp), List.drop_left' (by simp),
        number_spreadG_fine (h g (by simp)),
        ih (fun g hg => h g (List.mem_cons_of_mem _ hg)) (by simpa using hl)]

theorem fine_trivial {gs : List (List Nat)} (h : ∀ g ∈ gs, Fine g) :
    isTrivialRankReduction gs = true := by
  rw [isTrivialRankReduction, List.all_eq_true]
  intro g hg
  rw [decide_eq_true_eq]
  rcases h g hg with h | h
  · exact (List.length_filter_le _ _).trans h.le
  · exact h.le

/-- If the zeros are inserted as in `spread`, the layouts agree. -/
theorem agree_of_spread {gs : List (List Nat)} (hf : ∀ g ∈ gs, Fine g) {full c : Rel}
    (hfull : LayoutOf gs.flatten full)
    (h : ∀ out, out.length = gs.length → ∀ ct slot, c out ct slot ↔ full (spread gs out) ct slot) :
    Agree gs full c := by
  intro out hl ct slot
  rw [h out hl]
  constructor
  · intro hr
    exact ⟨_, hfull _ _ _ hr, collapsedIdx_spread hf hl, hr⟩
  · rintro ⟨idx, hb, rfl, hr⟩
    have hc := collapsedIdx_inBounds hb
    obtain ⟨h1, h2⟩ := spread_ok (fine_trivial hf) hc
    rw [collapsedIdx_inj h1 hb h2]
    exact hr

/-! ### `collapseDimensions` -/

theorem elimGroup_reverse {g : List Nat} (h : g.length ≠ 1) (start : Nat) :
    (elimGroup start g).reverse = units start g := by
  rw [elimGroup, if_neg h, units, ← List.map_reverse, List.reverse_reverse]

theorem elims_single (start : Nat) {gs : List (List Nat)} (h : ∀ g ∈ gs, g.length = 1)
    (rest : List (List Nat)) : elims start (gs ++ rest) = elims (start + gs.length) rest := by
  induction gs generalizing start with
  | nil => rfl
  | cons g gs ih =>
    have hg := h g (by simp)
    rw [List.cons_append, elims, elimGroup, if_pos hg, List.nil_append,
      ih _ fun g hg => h g (List.mem_cons_of_mem _ hg), hg, List.length_cons]
    congr 1
    omega

theorem spread_single {gs : List (List Nat)} (h : ∀ g ∈ gs, g.length = 1) {out : List Nat}
    (hl : out.length = gs.length) : spread gs out = out := by
  induction gs generalizing out with
  | nil => rw [List.eq_nil_of_length_eq_zero hl]; rfl
  | cons g gs ih =>
    cases out with
    | nil => simp at hl
    | cons o out =>
      obtain ⟨d, rfl⟩ := List.length_eq_one_iff.1 (h g (by simp))
      rw [spread, spreadG_single, ih (fun g hg => h g (List.mem_cons_of_mem _ hg))
        (by simpa using hl)]
      rfl

theorem spread_append {gs : List (List Nat)} (rest : List (List Nat)) {a b : List Nat}
    (hl : a.length = gs.length) : spread (gs ++ rest) (a ++ b) = spread gs a ++ spread rest b := by
  induction gs generalizing a with
  | nil => rw [List.eq_nil_of_length_eq_zero hl]; rfl
  | cons g gs ih =>
    cases a with
    | nil => simp at hl
    | cons o a =>
      rw [List.cons_append, List.cons_append, spread, spread, ih (by simpa using hl),
        List.append_assoc]

theorem collapse_one {pre post : List (List Nat)} {g : List Nat}
    (hpre : ∀ g ∈ pre, g.length = 1) (hpost : ∀ g ∈ post, g.length = 1) (hg : Fine g)
    (full : Rel) {out : List Nat} (hl : out.length = (pre ++ g :: post).length) (ct slot : Nat) :
    collapseDimensions (pre ++ g :: post) full out ct slot
      = full (spread (pre ++ g :: post) out) ct slot := by
  obtain ⟨a, o, b, ha, hb, rfl⟩ :
      ∃ a o b, a.length = pre.length ∧ b.length = post.length ∧ out = a ++ o :: b := by
    rw [List.length_append, List.length_cons] at hl
    refine ⟨out.take pre.length, out[pre.length]'(by omega), out.drop (pre.length + 1),
      by simp; omega, by simp; omega, ?_⟩
    rw [List.getElem_cons_drop, List.take_append_drop]
  have hs : spread (pre ++ g :: post) (a ++ o :: b) = a ++ (spreadG g o ++ b) := by
    rw [spread_append _ ha, spread_single hpre ha, spread, spread_single hpost hb]
  have hend : elims (pre.length + g.length) post = [] := by
    have := elims_single (pre.length + g.length) hpost []
    rw [List.append_nil] at this
    rw [this]
    rfl
  rw [collapseDimensions, elims_single 0 hpre, Nat.zero_add, elims, hend, List.append_nil,
    foldl_setElim, hs]
  by_cases h1 : g.length = 1
  · obtain ⟨d, rfl⟩ := List.length_eq_one_iff.1 h1
    rw [elimGroup, if_pos h1, spreadG_single]
    rfl
  · rcases hg with hg | hg
    · exact absurd hg h1
    rw [elimGroup_reverse h1, ← ha, insAll_group hg]

/-! ### `expandDimensions` -/

/-- The positions exist when zeros are inserted into a list of length `n`. -/
def ValidAt : Nat → List Nat → Prop
  | _, [] => True
  | n, p :: ps => p ≤ n ∧ ValidAt (n + 1) ps

theorem validAt_append {n : Nat} {ps qs : List Nat} :
    ValidAt n (ps ++ qs) ↔ ValidAt n ps ∧ ValidAt (n + ps.length) qs := by
  induction ps generalizing n with
  | nil => simp [ValidAt]
  | cons p ps ih =>
    rw [List.cons_append, ValidAt, ValidAt, ih, List.length_cons]
    constructor
    · rintro ⟨h1, h2, h3⟩
      exact ⟨⟨h1, h2⟩, by rw [show n + (ps.length + 1) = n + 1 + ps.length by omega]; exact h3⟩
    · rintro ⟨⟨h1, h2⟩, h3⟩
      exact ⟨h1, h2, by rw [show n + (ps.length + 1) = n + 1 + ps.length by omega] at h3; exact h3⟩

theorem insAll_length {ps out : List Nat} (h : ValidAt out.length ps) :
    (insAll ps out).length = out.length + ps.length := by
  induction ps generalizing out with
  | nil => rfl
  | cons p ps ih =>
    have hl : (out.insertIdx p 0).length = out.length + 1 := List.length_insertIdx_of_le_length h.1 0
    rw [insAll_cons, ih (by rw [hl]; exact h.2), hl, List.length_cons]
    omega

theorem erase_insert {l : List Nat} {p : Nat} (h : l[p]? = some 0) :
    (l.eraseIdx p).insertIdx p 0 = l := by
  induction l generalizing p with
  | nil => simp at h
  | cons a l ih =>
    cases p with
    | zero => simp at h; simp [h]
    | succ p =>
      rw [List.eraseIdx_cons_succ, List.insertIdx_succ_cons, ih (by simpa using h)]

theorem insert_get {l : List Nat} {p : Nat} (h : p ≤ l.length) :
    (l.insertIdx p 0)[p]? = some 0 ∧ (l.insertIdx p 0).eraseIdx p = l := by
  induction l generalizing p with
  | nil =>
    have : p = 0 := by simpa using h
    subst this
    simp
  | cons a l ih =>
    cases p with
    | zero => simp
    | succ p =>
      obtain ⟨h1, h2⟩ := ih (p := p) (by simpa using h)
      rw [List.insertIdx_succ_cons, List.eraseIdx_cons_succ, h2]
      exact ⟨by simpa using h1, rfl⟩

theorem foldl_insertZero {rel : Rel} {n : Nat} (hrel : ∀ out ct slot, rel out ct slot → out.length = n)
    (ps : List Nat) (hv : ValidAt n ps) (idx : List Nat) (ct slot : Nat) :
    ps.foldl insertZero rel idx ct slot ↔
      ∃ out, idx = insAll ps out ∧ rel out ct slot := by
  induction ps using List.reverseRecOn generalizing idx with
  | nil => simp [insAll]
  | append_singleton ps p ih =>
    obtain ⟨hv1, hv2⟩ := validAt_append.1 hv
    rw [List.foldl_append]
    simp only [List.foldl_cons, List.foldl_nil, insertZero, insAll_append, insAll_cons]
    rw [ih hv1]
    constructor
    · rintro ⟨h0, out, he, hr⟩
      refine ⟨out, ?_, hr⟩
      rw [← he, erase_insert h0]
      rfl
    · rintro ⟨out, rfl, hr⟩
      have hl := insAll_length (ps := ps) (out := out) (by rw [hrel _ _ _ hr]; exact hv1)
      have hp : p ≤ (insAll ps out).length := by
        rw [hl, hrel _ _ _ hr]; exact hv2.1
      obtain ⟨h1, h2⟩ := insert_get hp
      exact ⟨h1, out, h2, hr⟩

theorem inserts_cons {g : List Nat} (hpos : ∀ d ∈ g, 1 ≤ d) (gs : List (List Nat)) (s : Nat) :
    inserts s (g :: gs) = (if g.length = 1 then [] else units s g) ++ inserts (s + g.length) gs := by
  rw [inserts]
  congr 1
  split
  · rfl
  · unfold units
    congr 1
    apply List.filter_congr
    intro x hx
    have : x.1 ∈ g := List.fst_mem_of_mem_zipIdx hx
    have := hpos _ this
    by_cases h1 : x.1 = 1
    · simp [h1]
    · have : 1 < x.1 := by omega
      simp [h1, this]

theorem units_length {g : List Nat} (s : Nat) :
    (units s g).length + (g.filter (· ≠ 1)).length = g.length := by
  induction g generalizing s with
  | nil => rfl
  | cons d g ih =>
    by_cases hd : d = 1
    · subst hd
      rw [units_cons_one, List.filter_cons_of_neg (by simp), List.length_cons, List.length_cons,
        ← ih (s + 1)]
      omega
    · rw [units_cons_ne hd, List.filter_cons_of_pos (by simpa using hd), List.length_cons,
        List.length_cons, ← ih (s + 1)]
      omega

theorem units_valid {g : List Nat} (s n : Nat)
    (h : s + (g.filter (· ≠ 1)).length ≤ n) : ValidAt n (units s g) := by
  induction g generalizing s n with
  | nil => trivial
  | cons d g ih =>
    by_cases hd : d = 1
    · subst hd
      rw [List.filter_cons_of_neg (by simp)] at h
      rw [units_cons_one]
      exact ⟨by omega, ih _ _ (by omega)⟩
    · rw [List.filter_cons_of_pos (by simpa using hd), List.length_cons] at h
      rw [units_cons_ne hd]
      exact ih _ _ (by omega)

theorem inserts_ok {gs : List (List Nat)} (hf : ∀ g ∈ gs, Fine g)
    (hpos : ∀ g ∈ gs, ∀ d ∈ g, 1 ≤ d) (pre out : List Nat) (hl : out.length = gs.length) :
    insAll (inserts pre.length gs) (pre ++ out) = pre ++ spread gs out ∧
      ValidAt (pre.length + gs.length) (inserts pre.length gs) ∧
      gs.length + (inserts pre.length gs).length = gs.flatten.length := by
  induction gs generalizing pre out with
  | nil =>
    rw [List.eq_nil_of_length_eq_zero hl]
    exact ⟨rfl, trivial, rfl⟩
  | cons g gs ih =>
    cases out with
    | nil => simp at hl
    | cons o out =>
      have hg := hf g (by simp)
      have hrec := fun pre => ih (fun g hg => hf g (List.mem_cons_of_mem _ hg))
        (fun g hg => hpos g (List.mem_cons_of_mem _ hg)) pre out (by simpa using hl)
      rw [inserts_cons (hpos g (by simp))]
      by_cases h1 : g.length = 1
      · obtain ⟨d, rfl⟩ := List.length_eq_one_iff.1 h1
        obtain ⟨a1, a2, a3⟩ := hrec (pre ++ [o])
        simp only [List.length_append, List.length_singleton, List.append_assoc,
          List.singleton_append] at a1 a2 a3
        rw [if_pos h1, List.nil_append, spread, spreadG_single]
        refine ⟨a1, ?_, ?_⟩
        · rw [List.length_cons, show pre.length + (gs.length + 1) = pre.length + 1 + gs.length by omega]
          exact a2
        · rw [List.length_cons, List.flatten_cons, List.length_append, ← a3, h1]
          omega
      · rcases hg with hg | hg
        · exact absurd hg h1
        obtain ⟨a1, a2, a3⟩ := hrec (pre ++ spreadG g o)
        simp only [List.length_append, spreadG_length, List.append_assoc] at a1 a2 a3
        rw [if_neg h1, insAll_append, insAll_group hg, spread]
        have hu := units_length (g := g) pre.length
        rw [show (g.filter (· ≠ 1)).length = 1 from hg] at hu
        refine ⟨a1, ?_, ?_⟩
        · rw [validAt_append]
          refine ⟨units_valid _ _ ?_, ?_⟩
          · rw [show (g.filter (· ≠ 1)).length = 1 from hg, List.length_cons]
            omega
          · rw [List.length_cons]
            rw [show pre.length + (gs.length + 1) + (units pre.length g).length
              = pre.length + g.length + gs.length by omega]
            exact a2
        · rw [List.length_cons, List.flatten_cons, List.length_append, List.length_append, ← a3]
          omega

end Heir.Hoist
