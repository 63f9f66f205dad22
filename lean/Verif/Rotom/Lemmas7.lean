/- Helper lemmas: the number of ciphertexts and the gaps. -/
import Verif.Rotom.Lemmas6
import Verif.Rotom.Spec

namespace Heir.Rotom

/-- Padding of more than one value does not occur. -/
def OnesG (rolled : Nat → Bool) : List Piece → Nat → Prop
  | [], _ => True
  | p :: ps, gi => (p.kind = .gap → rolled gi = false → p.dim.size = 1) ∧ OnesG rolled ps (bumpGap p gi)

/-- Padding of more than one value does not follow a piece in use. -/
def NB (rolled : Nat → Bool) : List Piece → Nat → Prop
  | [], _ => True
  | p :: ps, gi =>
    (¬ (p.kind = .gap ∧ rolled gi = false) → 2 ≤ p.dim.size → OnesG rolled ps (bumpGap p gi))
      ∧ NB rolled ps (bumpGap p gi)

/-- The pieces have values. -/
def PosP (ps : List Piece) : Prop := ∀ p ∈ ps, 0 < p.dim.size

theorem spans_cons (p : Piece) (ps : List Piece) : spans (p :: ps) = p.dim.size * spans ps := by
  simp [spans]

theorem PosP.tail {p : Piece} {ps : List Piece} (h : PosP (p :: ps)) : PosP ps :=
  fun q hq => h q (by simp [hq])

theorem numCt_pos (rolled : Nat → Bool) (ps : List Piece) (gi : Nat) (h : PosP ps) :
    0 < numCt rolled ps gi := by
  induction ps generalizing gi with
  | nil => simp [numCt]
  | cons p ps ih =>
    rw [numCt]
    refine Nat.mul_pos ?_ (ih _ h.tail)
    split_ifs
    · exact Nat.one_pos
    · exact h p (by simp)

theorem numCt_le (rolled : Nat → Bool) (ps : List Piece) (gi : Nat) (h : PosP ps) :
    numCt rolled ps gi ≤ spans ps := by
  induction ps generalizing gi with
  | nil => simp [numCt, spans]
  | cons p ps ih =>
    rw [numCt, spans_cons]
    refine Nat.mul_le_mul ?_ (ih _ h.tail)
    split_ifs
    · exact h p (by simp)
    · exact Nat.le_refl _

theorem numCt_eq (rolled : Nat → Bool) (ps : List Piece) (gi : Nat) (h : OnesG rolled ps gi) :
    numCt rolled ps gi = spans ps := by
  induction ps generalizing gi with
  | nil => simp [numCt, spans]
  | cons p ps ih =>
    rw [numCt, spans_cons, ih _ h.2]
    congr 1
    split_ifs with hc
    · exact (h.1 hc.1 hc.2).symm
    · rfl

theorem numCt_lt (rolled : Nat → Bool) (ps : List Piece) (gi : Nat) (hp : PosP ps)
    (h : ¬ OnesG rolled ps gi) : numCt rolled ps gi < spans ps := by
  induction ps generalizing gi with
  | nil => exact absurd trivial h
  | cons p ps ih =>
    rw [numCt, spans_cons]
    have hs := hp p (by simp)
    have hc := numCt_pos rolled ps (bumpGap p gi) hp.tail
    by_cases h2 : OnesG rolled ps (bumpGap p gi)
    · have h1 : ¬ (p.kind = .gap → rolled gi = false → p.dim.size = 1) := fun hh => h ⟨hh, h2⟩
      simp only [not_forall] at h1
      obtain ⟨a, b, c⟩ := h1
      rw [if_pos ⟨a, b⟩, numCt_eq _ _ _ h2, ← numCt_eq _ _ _ h2]
      exact Nat.mul_lt_mul_of_pos_right (by omega) hc
    · have := ih (bumpGap p gi) hp.tail h2
      split_ifs
      · rw [Nat.one_mul]
        exact Nat.lt_of_lt_of_le this (Nat.le_mul_of_pos_left _ hs)
      · exact Nat.mul_lt_mul_of_pos_left this hs

theorem mix_lt_numCt (rolled : Nat → Bool) (ps : List Piece) (gi : Nat) (T : List (Nat × Int))
    (hT : T.map (·.1) = ps.map (·.dim.size)) (hr : InR T) (hz : ZG rolled ps gi T)
    (hp : PosP ps) (h : NB rolled ps gi) : mix T < numCt rolled ps gi := by
  induction ps generalizing gi T with
  | nil => cases T with
    | nil => simp [mix, numCt]
    | cons c T => simp at hT
  | cons p ps ih =>
    cases T with
    | nil => simp at hT
    | cons c T =>
      obtain ⟨s, v⟩ := c
      have hT2 := hT
      simp only [List.map_cons, List.cons.injEq] at hT2
      obtain ⟨hs, ht⟩ := hT2
      have hb := ih (bumpGap p gi) T ht hr.tail hz.2 hp.tail h.2
      obtain ⟨v0, v1⟩ := hr (s, v) (by simp)
      simp only at v0 v1
      rw [mix, numCt]
      by_cases hc : p.kind = .gap ∧ rolled gi = false
      · rw [if_pos hc]
        have : v = 0 := hz.1 hc.1 hc.2
        rw [this]; push_cast; omega
      · rw [if_neg hc]
        by_cases h2 : 2 ≤ p.dim.size
        · have hall := mix_bounds ((s, v) :: T) hr
          rw [mix, prodS_cons] at hall
          rw [numCt_eq _ _ _ (h.1 hc h2)]
          have hsp : prodS T = spans ps := by unfold prodS spans; rw [ht]
          rw [← hsp, ← hs]
          exact hall.2
        · have h1 : p.dim.size = 1 := by have := hp p (by simp); omega
          have : v = 0 := by rw [hs, h1] at v1; push_cast at v1; omega
          rw [this, h1]; push_cast; omega

/-- The largest digits. -/
def maxT (rolled : Nat → Bool) : List Piece → Nat → List (Nat × Int)
  | [], _ => []
  | p :: ps, gi =>
    (p.dim.size, if p.kind = .gap ∧ rolled gi = false then 0 else (p.dim.size : Int) - 1)
      :: maxT rolled ps (bumpGap p gi)

theorem maxT_sizes (rolled : Nat → Bool) (ps : List Piece) (gi : Nat) :
    (maxT rolled ps gi).map (·.1) = ps.map (·.dim.size) := by
  induction ps generalizing gi with
  | nil => rfl
  | cons p ps ih => simp [maxT, ih]

theorem maxT_inR (rolled : Nat → Bool) (ps : List Piece) (gi : Nat) (hp : PosP ps) :
    InR (maxT rolled ps gi) := by
  induction ps generalizing gi with
  | nil => intro c hc; simp [maxT] at hc
  | cons p ps ih =>
    intro c hc
    rw [maxT] at hc
    rcases List.mem_cons.mp hc with rfl | hc
    · have := hp p (by simp)
      simp only
      split_ifs <;> omega
    · exact ih _ hp.tail c hc

theorem maxT_ZG (rolled : Nat → Bool) (ps : List Piece) (gi : Nat) :
    ZG rolled ps gi (maxT rolled ps gi) := by
  induction ps generalizing gi with
  | nil => trivial
  | cons p ps ih =>
    rw [maxT, ZG]
    refine ⟨?_, ih _⟩
    intro h1 h2
    simp [h1, h2]

theorem maxT_ge (rolled : Nat → Bool) (ps : List Piece) (gi : Nat) (hp : PosP ps) :
    (numCt rolled ps gi : Int) - 1 ≤ mix (maxT rolled ps gi) ∧
      (¬ NB rolled ps gi → (numCt rolled ps gi : Int) ≤ mix (maxT rolled ps gi)) := by
  induction ps generalizing gi with
  | nil => exact ⟨by simp [numCt, maxT, mix], fun h => absurd trivial h⟩
  | cons p ps ih =>
    obtain ⟨i1, i2⟩ := ih (bumpGap p gi) hp.tail
    have hs := hp p (by simp)
    have hsp : prodS (maxT rolled ps (bumpGap p gi)) = spans ps := by
      unfold prodS spans; rw [maxT_sizes]
    have hle : (numCt rolled ps (bumpGap p gi) : Int) ≤ spans ps := by
      exact_mod_cast numCt_le rolled ps (bumpGap p gi) hp.tail
    rw [maxT, mix, numCt, hsp]
    by_cases hc : p.kind = .gap ∧ rolled gi = false
    · rw [if_pos hc, if_pos hc]
      push_cast
      refine ⟨by omega, ?_⟩
      intro h
      have : ¬ NB rolled ps (bumpGap p gi) := fun hh => h ⟨fun hn => absurd hc hn, hh⟩
      have := i2 this
      omega
    · rw [if_neg hc, if_neg hc]
      push_cast
      have hs1 : (0 : Int) ≤ (p.dim.size : Int) - 1 := by omega
      have hm := mul_le_mul_of_nonneg_left hle hs1
      have e : (p.dim.size : Int) * numCt rolled ps (bumpGap p gi)
          = ((p.dim.size : Int) - 1) * numCt rolled ps (bumpGap p gi) + numCt rolled ps (bumpGap p gi) := by
        ring
      rw [e]
      refine ⟨by omega, ?_⟩
      intro h
      by_cases hnb : NB rolled ps (bumpGap p gi)
      · have h1 : ¬ (¬ (p.kind = .gap ∧ rolled gi = false) → 2 ≤ p.dim.size →
            OnesG rolled ps (bumpGap p gi)) := fun hh => h ⟨hh, hnb⟩
        simp only [not_forall] at h1
        obtain ⟨_, h2, h3⟩ := h1
        have hlt : (numCt rolled ps (bumpGap p gi) : Int) < spans ps := by
          exact_mod_cast numCt_lt rolled ps (bumpGap p gi) hp.tail h3
        have := mul_lt_mul_of_pos_left hlt (by omega : (0 : Int) < (p.dim.size : Int) - 1)
        omega
      · have := i2 hnb
        omega

theorem cells_ZG (rolled : Nat → Bool) (d g : Nat → Int) (vs : List Int) (ps : List Piece)
    (gi ri : Nat) : ZG rolled ps gi (cells rolled d g vs ps gi ri) := by
  induction ps generalizing gi ri with
  | nil => trivial
  | cons p ps ih =>
    rw [cells, ZG]
    refine ⟨?_, ih _ _⟩
    intro h1 h2
    simp [cellVal, h1, h2]

theorem ZG_append (rolled : Nat → Bool) (a b : List Piece) (gi : Nat) (T U : List (Nat × Int))
    (hT : T.length = a.length) (h1 : ZG rolled a gi T) (h2 : ZG rolled b (gi + nGap a) U) :
    ZG rolled (a ++ b) gi (T ++ U) := by
  induction a generalizing gi T with
  | nil => cases T with
    | nil => simpa [nGap] using h2
    | cons c T => simp at hT
  | cons p a ih =>
    cases T with
    | nil => simp at hT
    | cons c T =>
      rw [List.cons_append, List.cons_append, ZG]
      refine ⟨h1.1, ih (bumpGap p gi) T (by simpa using hT) h1.2 ?_⟩
      rw [← nGap_cons]; exact h2

/-- Digits for pieces without padding of more than one value. -/
theorem OnesG_ZG (rolled : Nat → Bool) (ps : List Piece) (gi : Nat) (T : List (Nat × Int))
    (hT : T.map (·.1) = ps.map (·.dim.size)) (hr : InR T) (h : OnesG rolled ps gi) :
    ZG rolled ps gi T := by
  induction ps generalizing gi T with
  | nil => trivial
  | cons p ps ih =>
    cases T with
    | nil => trivial
    | cons c T =>
      simp only [List.map_cons, List.cons.injEq] at hT
      refine ⟨?_, ih _ T hT.2 hr.tail h.2⟩
      intro h1 h2
      have hs := h.1 h1 h2
      have := hr c (by simp)
      rw [hT.1, hs] at this
      push_cast at this
      omega

/-! ### Positions -/

theorem OnesG_pos (rolled : Nat → Bool) (ps : List Piece) (gi : Nat) :
    OnesG rolled ps gi ↔ ∀ j p, ps[j]? = some p → p.kind = .gap →
      rolled (gi + nGap (ps.take j)) = false → p.dim.size = 1 := by
  induction ps generalizing gi with
  | nil => simp [OnesG]
  | cons p ps ih =>
    rw [OnesG, ih]
    constructor
    · rintro ⟨h1, h2⟩ j q hj hk hr
      cases j with
      | zero =>
        rw [List.getElem?_cons_zero, Option.some.injEq] at hj
        subst hj
        exact h1 hk (by simpa [nGap] using hr)
      | succ j =>
        rw [List.getElem?_cons_succ] at hj
        rw [List.take_succ_cons, nGap_cons] at hr
        exact h2 j q hj hk hr
    · intro h
      refine ⟨fun hk hr => h 0 p rfl hk (by simpa [nGap] using hr), ?_⟩
      intro j q hj hk hr
      refine h (j + 1) q (by simpa using hj) hk ?_
      rw [List.take_succ_cons, nGap_cons]; exact hr

theorem NB_pos (rolled : Nat → Bool) (ps : List Piece) (gi : Nat) :
    NB rolled ps gi ↔ ∀ i j p q, i < j → ps[i]? = some p → ps[j]? = some q →
      ¬ (p.kind = .gap ∧ rolled (gi + nGap (ps.take i)) = false) → 2 ≤ p.dim.size →
      q.kind = .gap → rolled (gi + nGap (ps.take j)) = false → q.dim.size = 1 := by
  induction ps generalizing gi with
  | nil => simp [NB]
  | cons x ps ih =>
    rw [NB, ih, OnesG_pos]
    constructor
    · rintro ⟨h1, h2⟩ i j p q hij hi hj hp hp2 hk hr
      cases j with
      | zero => omega
      | succ j =>
        rw [List.getElem?_cons_succ] at hj
        rw [List.take_succ_cons, nGap_cons] at hr
        cases i with
        | zero =>
          rw [List.getElem?_cons_zero, Option.some.injEq] at hi
          subst hi
          exact h1 (by simpa [nGap] using hp) hp2 j q hj hk hr
        | succ i =>
          rw [List.getElem?_cons_succ] at hi
          rw [List.take_succ_cons, nGap_cons] at hp
          exact h2 i j p q (by omega) hi hj hp hp2 hk hr
    · intro h
      refine ⟨?_, ?_⟩
      · intro hp hp2 j q hj hk hr
        refine h 0 (j + 1) x q (by omega) rfl (by simpa using hj) (by simpa [nGap] using hp) hp2 hk ?_
        rw [List.take_succ_cons, nGap_cons]; exact hr
      · intro i j p q hij hi hj hp hp2 hk hr
        refine h (i + 1) (j + 1) p q (by omega) (by simpa using hi) (by simpa using hj) ?_ hp2 hk ?_
        · rw [List.take_succ_cons, nGap_cons]; exact hp
        · rw [List.take_succ_cons, nGap_cons]; exact hr

theorem gapIndex_inj {ds : List Dim} {i j : Nat} {a b : Dim} (hi : ds[i]? = some a)
    (hj : ds[j]? = some b) (ha : a.isGap = true) (hb : b.isGap = true)
    (h : gapIndex ds i = gapIndex ds j) : i = j := by
  induction ds generalizing i j with
  | nil => simp at hi
  | cons x ds ih =>
    have key : ∀ k, gapIndex (x :: ds) (k + 1) = (if x.isGap then 1 else 0) + gapIndex ds k := by
      intro k
      unfold gapIndex
      rw [List.take_succ_cons]
      by_cases hx : x.isGap = true
      · rw [List.filter_cons_of_pos hx, if_pos hx, List.length_cons]; omega
      · rw [List.filter_cons_of_neg hx, if_neg hx]; omega
    have k0 : gapIndex (x :: ds) 0 = 0 := by simp [gapIndex]
    cases i with
    | zero =>
      rw [List.getElem?_cons_zero, Option.some.injEq] at hi
      subst hi
      cases j with
      | zero => rfl
      | succ j => rw [k0, key, if_pos ha] at h; omega
    | succ i =>
      rw [List.getElem?_cons_succ] at hi
      cases j with
      | zero =>
        rw [List.getElem?_cons_zero, Option.some.injEq] at hj
        subst hj
        rw [k0, key, if_pos hb] at h; omega
      | succ j =>
        rw [List.getElem?_cons_succ] at hj
        rw [key, key] at h
        rw [ih hi hj (by omega)]

theorem usedBy_cons (i j' : Int) (rest : List Int) (j : Nat) :
    UsedBy (i :: j' :: rest) j ↔ j' = j ∨ UsedBy rest j := by
  constructor
  · rintro ⟨p, a, q, h, hp⟩
    cases p with
    | nil =>
      simp only [List.nil_append, List.cons.injEq] at h
      exact Or.inl h.2.1
    | cons x p =>
      cases p with
      | nil => simp at hp
      | cons y p =>
        simp only [List.cons_append, List.cons.injEq] at h
        refine Or.inr ⟨p, a, q, h.2.2, ?_⟩
        simp only [List.length_cons] at hp
        omega
  · rintro (h | ⟨p, a, q, h, hp⟩)
    · exact ⟨[], i, rest, by simp [h], by simp⟩
    · refine ⟨i :: j' :: p, a, q, by simp [h], ?_⟩
      simp only [List.length_cons]
      omega

theorem rolledGap_iff {ds : List Dim} {j : Nat} {dj : Dim} (hj : ds[j]? = some dj)
    (hg : dj.isGap = true) : ∀ rolls : List Int,
    rolledGap ds rolls (gapIndex ds j) = true ↔ UsedBy rolls j
  | [] => by
    simp only [rolledGap, UsedBy]
    constructor
    · intro h; simp at h
    · rintro ⟨p, i, q, h, _⟩; simp at h
  | [x] => by
    simp only [rolledGap, UsedBy]
    constructor
    · intro h; simp at h
    · rintro ⟨p, i, q, h, _⟩
      have := congrArg List.length h
      simp at this
      omega
  | i :: j' :: rest => by
    rw [usedBy_cons, ← rolledGap_iff hj hg rest, rolledGap, Bool.or_eq_true]
    apply or_congr_left
    by_cases h0 : j' < 0
    · rw [if_pos h0]
      constructor
      · intro h; simp at h
      · intro h; omega
    · rw [if_neg h0]
      cases hd : ds[j'.toNat]? with
      | none =>
        simp only [Bool.false_eq_true, false_iff]
        intro h
        rw [h, Int.toNat_natCast, hj] at hd
        simp at hd
      | some x =>
        simp only [Bool.and_eq_true, beq_iff_eq]
        constructor
        · rintro ⟨h1, h2⟩
          have := gapIndex_inj hd hj h1 hg h2
          omega
        · intro h
          rw [h, Int.toNat_natCast] at hd
          rw [hj, Option.some.injEq] at hd
          subst hd
          rw [h, Int.toNat_natCast]
          exact ⟨hg, rfl⟩

theorem padding_iff {l : Layout} {j : Nat} {dj : Dim} (hj : l.dims[j]? = some dj) :
    Padding l j ↔ dj.isGap = true ∧ rolledGap l.dims l.rolls (gapIndex l.dims j) = false := by
  unfold Padding
  constructor
  · rintro ⟨⟨d, h1, h2⟩, h3⟩
    rw [hj, Option.some.injEq] at h1
    subst h1
    have hg : dj.isGap = true := by simp [Dim.isGap, h2]
    refine ⟨hg, ?_⟩
    rw [← Bool.not_eq_true, rolledGap_iff hj hg]
    exact h3
  · rintro ⟨h1, h2⟩
    refine ⟨⟨dj, hj, by simpa [Dim.isGap] using h1⟩, ?_⟩
    rw [← rolledGap_iff hj h1, h2]
    simp

theorem split_iff {l : Layout} (hp : Pos l.dims) (hn : 0 < l.n) (k : Nat) :
    Split l.dims l.n k ↔ k = ctLen l.dims l.n := by
  have hs : ∀ d ∈ l.dims, 0 < d.size := fun d hd => (hp d hd).1
  constructor
  · rintro ⟨_, h2, h3⟩
    exact ctLen_unique _ _ _ hn hs h2 h3
  · rintro rfl
    exact ctLen_split _ _ hn hs

theorem kind_gap_iff (ds : List Dim) (d : Dim) : (mkPiece ds d).kind = .gap ↔ d.isGap = true := by
  rw [← mkPiece_gap ds d]; simp

theorem gapIndex_pcs (ds l : List Dim) (j : Nat) :
    nGap ((l.map (mkPiece ds)).take j) = gapIndex l j := by
  rw [← List.map_take, nGap_pcs]; rfl

theorem gapIndex_take (ds : List Dim) (k j : Nat) (h : j ≤ k) : gapIndex (ds.take k) j = gapIndex ds j := by
  unfold gapIndex
  rw [List.take_take, Nat.min_eq_left h]

theorem NB_iff {l : Layout} (hp : Pos l.dims) (hn : 0 < l.n) :
    NB (rolledGap l.dims l.rolls) (pcs l l.pre) 0 ↔ ¬ PaddingInside l := by
  rw [NB_pos]
  have hk := (ctLen_split l.dims l.n hn (fun d hd => (hp d hd).1)).1
  have hget : ∀ i p, (pcs l l.pre)[i]? = some p ↔
      i < ctLen l.dims l.n ∧ ∃ d, l.dims[i]? = some d ∧ p = mkPiece l.dims d := by
    intro i p
    unfold pcs Layout.pre
    rw [List.getElem?_map, List.getElem?_take]
    by_cases hi : i < ctLen l.dims l.n
    · simp only [hi, if_true, true_and]
      rw [Option.map_eq_some_iff]
      constructor
      · rintro ⟨d, h1, h2⟩; exact ⟨d, h1, h2.symm⟩
      · rintro ⟨d, h1, h2⟩; exact ⟨d, h1, h2.symm⟩
    · simp [hi]
  have hroll : ∀ i, i < ctLen l.dims l.n →
      rolledGap l.dims l.rolls (0 + nGap ((pcs l l.pre).take i))
        = rolledGap l.dims l.rolls (gapIndex l.dims i) := by
    intro i hi
    rw [Nat.zero_add, gapIndex_pcs, gapIndex_take _ _ _ (Nat.le_of_lt hi)]
  constructor
  · rintro h ⟨k, i, j, di, dj, hs, hij, hjk, hi, hj, hpi, hi2, hpj, hj2⟩
    rw [split_iff hp hn] at hs
    subst hs
    rw [padding_iff hi] at hpi
    rw [padding_iff hj] at hpj
    have hik : i < ctLen l.dims l.n := by omega
    have := h i j _ _ hij ((hget i _).mpr ⟨hik, di, hi, rfl⟩) ((hget j _).mpr ⟨hjk, dj, hj, rfl⟩)
      (by rw [hroll i hik, kind_gap_iff]; exact hpi)
      (by rw [mkPiece_dim]; exact hi2) (by rw [kind_gap_iff]; exact hpj.1)
      (by rw [hroll j hjk]; exact hpj.2)
    rw [mkPiece_dim] at this
    omega
  · intro h i j p q hij hi hj hp1 hp2 hk1 hr
    obtain ⟨hik, di, hdi, rfl⟩ := (hget i p).mp hi
    obtain ⟨hjk, dj, hdj, rfl⟩ := (hget j q).mp hj
    rw [hroll i hik, kind_gap_iff] at hp1
    rw [hroll j hjk] at hr
    rw [kind_gap_iff] at hk1
    rw [mkPiece_dim] at hp2 ⊢
    by_contra hne
    apply h
    have hpos := (hp dj (List.mem_of_getElem? hdj)).1
    refine ⟨ctLen l.dims l.n, i, j, di, dj, (split_iff hp hn _).mpr rfl, hij, hjk, hdi, hdj, ?_, hp2, ?_, by omega⟩
    · rw [padding_iff hdi]; exact hp1
    · rw [padding_iff hdj]; exact ⟨hk1, hr⟩

end Heir.Rotom
