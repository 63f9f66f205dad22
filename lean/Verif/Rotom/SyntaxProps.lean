/-
Properties of the textual form of the layouts.
-/
import Verif.Rotom.SyntaxModel
import Verif.Rotom.LowerProps

namespace Heir.Rotom

theorem parse_triple (d : Dim) (h : d.verify = true) (ts : List Tok) :
    parseTriple ([printId d, .colon, .int d.size, .colon, .int d.stride, .rsq] ++ ts) = some (d, ts) := by
  unfold Dim.verify at h
  simp only [Bool.and_eq_true, decide_eq_true_eq] at h
  have hm : mkDim d.dim d.size d.stride = some d := by
    unfold mkDim
    rw [if_pos ⟨h.1.1, by omega, by omega⟩]
    simp
  have hid : ∀ us, parseId (printId d :: us) = some (d.dim, us) := by
    intro us
    unfold printId
    by_cases h1 : d.isReplicate = true
    · rw [if_pos h1]
      have : d.dim = -1 := by simpa [Dim.isReplicate] using h1
      rw [parseId, this]
    · rw [if_neg h1]
      by_cases h2 : d.isGap = true
      · rw [if_pos h2]
        have : d.dim = -2 := by simpa [Dim.isGap] using h2
        rw [parseId, this]
      · rw [if_neg h2, parseId]
  unfold parseTriple
  rw [List.cons_append, hid, Option.bind_some]
  simp only [List.cons_append, List.nil_append, parseTail]
  rw [hm]; rfl

theorem parse_dim (d : Dim) (h : d.verify = true) (ts : List Tok) :
    parseDim (printTriple d ++ ts) = some (d, ts) := by
  unfold printTriple
  rw [List.cons_append, parseDim]
  exact parse_triple d h ts

/-- The boundary that the loop returns. -/
def boundary (k i len : Nat) (w : Option Nat) : Option Nat := if i < k ∧ k < i + len then some k else w

theorem loop_dims (k : Nat) : ∀ (ds : List Dim) (d : Dim) (fuel : Nat) (acc : List Dim) (w : Option Nat)
    (ts : List Tok), d.verify = true → (∀ x ∈ ds, x.verify = true) → ds.length < fuel →
    (acc.length < k → w = none) →
    dimsLoop fuel acc w (printTriple d ++ printDims k (acc.length + 1) ds ++ .rsq :: ts)
      = some (acc ++ d :: ds, boundary k acc.length (ds.length + 1) w, ts)
  | [], d, fuel, acc, w, ts, hd, _, hf, _ => by
    obtain ⟨fuel, rfl⟩ : ∃ f, fuel = f + 1 := ⟨fuel - 1, by omega⟩
    rw [dimsLoop, printDims, List.append_nil, parse_dim d hd, Option.bind_some]
    simp only [after]
    unfold boundary
    rw [if_neg (by simp; omega)]
  | x :: ds, d, fuel, acc, w, ts, hd, hds, hf, hw => by
    obtain ⟨fuel, rfl⟩ : ∃ f, fuel = f + 1 := ⟨fuel - 1, by omega⟩
    have hx := hds x (by simp)
    have hds' : ∀ y ∈ ds, y.verify = true := fun y hy => hds y (List.mem_cons_of_mem x hy)
    have hlen : (acc ++ [d]).length = acc.length + 1 := by simp
    have hf' : ds.length < fuel := by simp at hf; omega
    rw [dimsLoop, printDims, if_neg (by omega)]
    simp only [List.append_assoc]
    rw [parse_dim d hd, Option.bind_some]
    by_cases hk : acc.length + 1 = k
    · rw [if_pos hk]
      simp only [List.singleton_append, after]
      rw [hw (by omega)]
      simp only [Option.isSome_none, Bool.false_eq_true, if_false]
      have := loop_dims k ds x fuel (acc ++ [d]) (some (acc.length + 1)) ts hx hds' hf' (by
        rw [hlen]; omega)
      rw [hlen] at this
      rw [List.append_assoc] at this
      rw [this]
      unfold boundary
      rw [if_neg (by omega), if_pos (by simp; omega), hk]
      simp
    · rw [if_neg hk]
      simp only [List.singleton_append, after]
      have := loop_dims k ds x fuel (acc ++ [d]) w ts hx hds' hf' (by
        rw [hlen]; intro h; exact hw (by omega))
      rw [hlen, List.append_assoc] at this
      rw [this]
      unfold boundary
      have e : (acc.length + 1 < k ∧ k < acc.length + 1 + (ds.length + 1))
          ↔ (acc.length < k ∧ k < acc.length + ((x :: ds).length + 1)) := by
        simp only [List.length_cons]; omega
      simp only [e]
      simp

theorem loop_rolls : ∀ (rest : List Int) (rs : List Tok) (i j : Int) (fuel : Nat) (acc : List Int)
    (ts : List Tok), printRolls false rest = some rs → rest.length < fuel →
    rollsLoop fuel acc ([.lpar, .int i, .comma, .int j, .rpar] ++ rs ++ .rsq :: ts)
      = some (acc ++ i :: j :: rest, ts)
  | [], rs, i, j, fuel, acc, ts, h, hf => by
    obtain ⟨fuel, rfl⟩ : ∃ f, fuel = f + 1 := ⟨fuel - 1, by omega⟩
    simp only [printRolls, Option.some.injEq] at h
    subst h
    rw [rollsLoop]
    simp [parseRoll, after]
  | [_], rs, i, j, fuel, acc, ts, h, hf => by simp [printRolls] at h
  | i' :: j' :: rest, rs, i, j, fuel, acc, ts, h, hf => by
    obtain ⟨fuel, rfl⟩ : ∃ f, fuel = f + 1 := ⟨fuel - 1, by omega⟩
    rw [printRolls] at h
    obtain ⟨us, hu, rfl⟩ := Option.map_eq_some_iff.mp h
    rw [rollsLoop]
    simp only [List.cons_append, List.nil_append, parseRoll, Option.bind_some, after,
      Bool.false_eq_true, if_false]
    have := loop_rolls rest us i' j' fuel (acc ++ [i, j]) ts hu (by simp at hf; omega)
    simp only [List.cons_append, List.nil_append] at this
    rw [this]
    simp

theorem parse_rolls (rolls : List Int) (hne : rolls ≠ []) (rs : List Tok)
    (h : printRolls true rolls = some rs) (ts : List Tok) :
    parseRolls (.lsq :: (rs ++ .rsq :: ts)) = some (rolls, ts) := by
  match rolls, hne, h with
  | [], hne, _ => exact absurd rfl hne
  | [_], _, h => simp [printRolls] at h
  | i :: j :: rest, _, h =>
    rw [printRolls] at h
    obtain ⟨us, hu, rfl⟩ := Option.map_eq_some_iff.mp h
    simp only [if_true, List.nil_append, List.cons_append]
    rw [parseRolls]
    · have hlen : ∀ (l : List Int) (vs : List Tok), printRolls false l = some vs → l.length ≤ vs.length := by
        intro l
        match l with
        | [] => intro vs _; simp
        | [_] => intro vs hv; simp [printRolls] at hv
        | a :: b :: l =>
          intro vs hv
          have hrec : ∀ (l : List Int) (vs : List Tok), printRolls false l = some vs →
              l.length ≤ vs.length := by
            intro l
            induction l using List.twoStepInduction with
            | nil => intro vs _; simp
            | singleton _ => intro vs hv; simp [printRolls] at hv
            | cons_cons a b l ih _ =>
              intro vs hv
              rw [printRolls] at hv
              obtain ⟨ws, hw, rfl⟩ := Option.map_eq_some_iff.mp hv
              have := ih ws hw
              simp; omega
          exact hrec _ _ hv
      have := loop_rolls rest us i j (([Tok.lpar, .int i, .comma, .int j, .rpar] ++ us ++ .rsq :: ts).length)
        [] ts hu (by have := hlen rest us hu; simp; omega)
      simpa using this
    · intro ts' hc
      simp at hc

theorem parse_dims (k : Nat) (ds : List Dim) (hd : ∀ d ∈ ds, d.verify = true) (ts : List Tok) :
    parseDims (.lsq :: (printDims k 0 ds ++ .rsq :: ts)) = some (ds, boundary k 0 ds.length none, ts) := by
  cases ds with
  | nil =>
    rw [printDims, List.nil_append, parseDims]
    unfold boundary
    rw [if_neg (by simp)]
  | cons d ds =>
    have hv := hd d (by simp)
    have hvs : ∀ x ∈ ds, x.verify = true := fun x hx => hd x (List.mem_cons_of_mem d hx)
    have hlen : ∀ (l : List Dim) (i : Nat), l.length ≤ (printDims k i l).length := by
      intro l
      induction l with
      | nil => intro i; simp
      | cons x l ih =>
        intro i
        rw [printDims]
        have := ih (i + 1)
        simp [printTriple]; omega
    rw [printDims, if_pos rfl, List.nil_append]
    have h := loop_dims k ds d ((printTriple d ++ printDims k 1 ds ++ .rsq :: ts).length) [] none ts hv hvs
      (by have := hlen ds 1; simp; omega) (fun _ => rfl)
    simp only [List.length_nil, Nat.zero_add, List.nil_append] at h
    rw [parseDims]
    · rw [Nat.zero_add]
      exact h
    · intro ts' hc
      simp [printTriple] at hc

theorem printRolls_some (ds : List Dim) : ∀ (rolls : List Int) (b : Bool), rollsOk ds rolls = true →
    ∃ rs, printRolls b rolls = some rs
  | [], _, _ => ⟨[], rfl⟩
  | [_], _, h => by simp [rollsOk] at h
  | i :: j :: rest, b, h => by
    rw [rollsOk, Bool.and_eq_true] at h
    obtain ⟨rs, hr⟩ := printRolls_some ds rest false h.2
    exact ⟨_, by rw [printRolls, hr]; rfl⟩

theorem parse_print (l : Layout) (h : l.verify = true) :
    ∃ ts, printLayout l = some ts ∧
      parseLayout ts = finish l.n l.rolls l.dims (boundary (ctLen l.dims l.n) 0 l.dims.length none) := by
  have hv := h
  unfold Layout.verify at hv
  simp only [Bool.and_eq_true, decide_eq_true_eq] at hv
  have hd := List.all_eq_true.mp hv.1.1.1.1.1
  obtain ⟨_, _, hn, _, hro, _, _⟩ := verify_unpack h
  obtain ⟨rs, hrs⟩ := printRolls_some l.dims l.rolls true hro
  unfold printLayout
  rw [hrs]
  refine ⟨_, rfl, ?_⟩
  have hnd : ∀ rolls : List Int, parseNDims l.n rolls
      (.kdims :: .eq :: .lsq :: (printDims (ctLen l.dims l.n) 0 l.dims ++ [.rsq, .gt]))
      = finish l.n rolls l.dims (boundary (ctLen l.dims l.n) 0 l.dims.length none) := by
    intro rolls
    rw [parseNDims, parse_dims _ _ hd, Option.bind_some]
  by_cases hr : l.rolls = []
  · rw [hr]
    simp only [List.isEmpty_nil, if_true, List.append_nil, List.cons_append, List.nil_append, parseLayout]
    rw [parseNRolls]
    · exact hnd []
    · intro ts hc; simp at hc
  · have he : l.rolls.isEmpty = false := by simpa using hr
    simp only [he, Bool.false_eq_true, if_false, List.cons_append, List.nil_append,
      List.append_assoc, parseLayout]
    rw [parseNRolls, parse_rolls _ hr _ hrs, Option.bind_some]
    exact hnd l.rolls

/-- The split of an accepted layout is at the end exactly when there is one slot
and the last dim has several values. -/
theorem split_at_end {l : Layout} (h : l.verify = true) :
    (0 < ctLen l.dims l.n ∧ ¬ ctLen l.dims l.n < l.dims.length) ↔
      (l.n = 1 ∧ ∃ d, l.dims.getLast? = some d ∧ 2 ≤ d.size) := by
  obtain ⟨hp, _, hn, _, _, _, hex⟩ := verify_unpack h
  obtain ⟨hk, hdv, hmin⟩ := ctLen_split l.dims l.n hn (fun d hd => (hp d hd).1)
  constructor
  · rintro ⟨h1, h2⟩
    have he : ctLen l.dims l.n = l.dims.length := by omega
    unfold Layout.post at hex
    rw [he, List.drop_length, extent_nil] at hex
    refine ⟨hex.symm, ?_⟩
    have hlast : l.dims.length - 1 < l.dims.length := by omega
    refine ⟨l.dims[l.dims.length - 1], by rw [List.getLast?_eq_getElem?, List.getElem?_eq_getElem hlast], ?_⟩
    have hm := hmin (l.dims.length - 1) (by omega)
    rw [List.drop_eq_getElem_cons hlast, show l.dims.length - 1 + 1 = l.dims.length by omega,
      List.drop_length, extent_cons, extent_nil, Nat.mul_one] at hm
    have hs := (hp _ (List.getElem_mem hlast)).1
    by_contra hc
    apply hm
    have : l.dims[l.dims.length - 1].size = 1 := by omega
    rw [this]; exact Nat.one_dvd _
  · rintro ⟨h1, d, hd, h2⟩
    obtain ⟨ys, hys⟩ := List.getLast?_eq_some_iff.mp hd
    have he : ctLen l.dims l.n = l.dims.length := by
      by_contra hc
      have hlt : ctLen l.dims l.n < l.dims.length := by omega
      have hdd : d.size ∣ extent (l.dims.drop (ctLen l.dims l.n)) := by
        apply size_dvd_extent
        rw [hys] at hlt ⊢
        rw [List.drop_append_of_le_length (by simp at hlt ⊢; rw [← hys]; rw [← hys] at hlt; omega)]
        simp
      have := Nat.le_of_dvd (by omega) (hdd.trans hdv)
      omega
    have : 0 < l.dims.length := by rw [hys]; simp
    omega

/-! ### C167: text -/

/-- A dim that is printed and parsed is the same dim. -/
theorem C167_dim (d : Dim) (h : d.verify = true) : parseDimAttr (printDim d) = some d := by
  unfold printDim printTriple
  simp only [List.cons_append, List.nil_append, parseDimAttr]
  have := parse_triple d h [.gt]
  simp only [List.cons_append, List.nil_append] at this
  rw [this]
  rfl

/-- A layout that is printed and parsed is the same layout, unless it has one
slot and its last dim has several values. -/
theorem C167_round_trip_partial (l : Layout) (h : l.verify = true)
    (hne : ¬ (l.n = 1 ∧ ∃ d, l.dims.getLast? = some d ∧ 2 ≤ d.size)) :
    ∃ ts, printLayout l = some ts ∧ parseLayout ts = some l := by
  obtain ⟨ts, h1, h2⟩ := parse_print l h
  refine ⟨ts, h1, ?_⟩
  rw [h2]
  rw [← split_at_end h] at hne
  obtain ⟨_, _, hn, _⟩ := verify_unpack h
  unfold finish
  rw [if_neg (by omega), Int.toNat_natCast, if_neg, if_pos h]
  rw [not_not]
  unfold boundary
  split_ifs with hb
  · rfl
  · simp only [Option.getD_none]
    omega

theorem loop_bound : ∀ (fuel : Nat) (acc : List Dim) (w : Option Nat) (ts : List Tok) (ds : List Dim)
    (w' : Option Nat) (ts' : List Tok), dimsLoop fuel acc w ts = some (ds, w', ts') →
    (∀ k, w = some k → k ≤ acc.length) → acc.length < ds.length ∧ ∀ k, w' = some k → k < ds.length
  | 0, acc, w, ts, ds, w', ts', h, _ => by simp [dimsLoop] at h
  | fuel + 1, acc, w, ts, ds, w', ts', h, hw => by
    rw [dimsLoop] at h
    obtain ⟨p, _, h2⟩ := Option.bind_eq_some_iff.mp h
    have hlen : (acc ++ [p.1]).length = acc.length + 1 := by simp
    cases ha : after p.2 with
    | more us =>
      rw [ha] at h2
      have := loop_bound fuel _ _ _ _ _ _ h2 (fun k hk => by have := hw k hk; omega)
      exact ⟨by omega, this.2⟩
    | split us =>
      rw [ha] at h2
      simp only at h2
      split_ifs at h2
      have := loop_bound fuel _ _ _ _ _ _ h2 (fun k hk => by
        simp only [Option.some.injEq] at hk; omega)
      exact ⟨by omega, this.2⟩
    | done us =>
      rw [ha] at h2
      simp only [Option.some.injEq, Prod.mk.injEq] at h2
      obtain ⟨rfl, rfl, _⟩ := h2
      exact ⟨by omega, fun k hk => by have := hw k hk; omega⟩
    | bad => rw [ha] at h2; simp at h2

theorem dims_bound {ts ts' : List Tok} {ds : List Dim} {w : Option Nat}
    (h : parseDims ts = some (ds, w, ts')) : w.getD 0 = 0 ∨ w.getD 0 < ds.length := by
  unfold parseDims at h
  split at h
  · simp only [Option.some.injEq, Prod.mk.injEq] at h
    obtain ⟨_, rfl, _⟩ := h
    exact Or.inl rfl
  · have := loop_bound _ _ _ _ _ _ _ h (fun k hk => by simp at hk)
    cases w with
    | none => exact Or.inl rfl
    | some k => exact Or.inr (this.2 k rfl)
  · simp at h

theorem finish_some {n : Int} {rolls : List Int} {ds : List Dim} {w : Option Nat} {l : Layout}
    (h : finish n rolls ds w = some l) :
    l.dims = ds ∧ l.verify = true ∧ w.getD 0 = ctLen l.dims l.n := by
  unfold finish at h
  split_ifs at h with h1 h2 h3
  simp only [Option.some.injEq] at h
  subst h
  exact ⟨rfl, h3, not_not.mp h2⟩

theorem parse_bound {ts : List Tok} {l : Layout} (h : parseLayout ts = some l) :
    l.verify = true ∧ (ctLen l.dims l.n = 0 ∨ ctLen l.dims l.n < l.dims.length) := by
  have key : ∀ {n : Int} {rolls : List Int} {us us' : List Tok} {ds : List Dim} {w : Option Nat},
      parseDims us = some (ds, w, us') → finish n rolls ds w = some l →
      l.verify = true ∧ (ctLen l.dims l.n = 0 ∨ ctLen l.dims l.n < l.dims.length) := by
    intro n rolls us us' ds w h1 h2
    obtain ⟨e1, e2, e3⟩ := finish_some h2
    refine ⟨e2, ?_⟩
    rw [← e3, e1]
    exact dims_bound h1
  have knd : ∀ {n : Int} {rolls : List Int} {us : List Tok}, parseNDims n rolls us = some l →
      l.verify = true ∧ (ctLen l.dims l.n = 0 ∨ ctLen l.dims l.n < l.dims.length) := by
    intro n rolls us hh
    unfold parseNDims at hh
    split at hh
    · obtain ⟨⟨ds, w, us'⟩, h1, h2⟩ := Option.bind_eq_some_iff.mp hh
      simp only at h2
      split at h2
      · exact key h1 h2
      · simp at h2
    · simp at hh
  unfold parseLayout at h
  split at h
  · unfold parseNRolls at h
    split at h
    · obtain ⟨p, _, h2⟩ := Option.bind_eq_some_iff.mp h
      split at h2
      · exact knd h2
      · simp at h2
    · exact knd h
  · obtain ⟨⟨ds, w, us'⟩, h1, h2⟩ := Option.bind_eq_some_iff.mp h
    unfold parseDimsN at h2
    simp only at h2
    split at h2
    · exact key h1 h2
    · obtain ⟨p, _, h3⟩ := Option.bind_eq_some_iff.mp h2
      split at h3
      · exact key h1 h3
      · simp at h3
    · simp at h2
  · simp at h

/-- What parses is accepted. -/
theorem C167_parsed_accepted (ts : List Tok) (l : Layout) (h : parseLayout ts = some l) :
    l.verify = true := (parse_bound h).1

/-- A layout with one slot whose last dim has several values is printed, and
neither this nor any other text parses to it. -/
theorem C167_no_text (l : Layout) (h : l.verify = true)
    (he : l.n = 1 ∧ ∃ d, l.dims.getLast? = some d ∧ 2 ≤ d.size) (ts : List Tok) :
    parseLayout ts ≠ some l := by
  intro hc
  have := (parse_bound hc).2
  rw [← split_at_end h] at he
  omega

/-- Such a layout exists. -/
theorem C167_violated_no_text : ∃ l : Layout, l.verify = true ∧ ∀ ts, parseLayout ts ≠ some l := by
  refine ⟨⟨[⟨0, 4, 1⟩], 1, []⟩, by decide +kernel, ?_⟩
  intro ts
  exact C167_no_text _ (by decide +kernel) ⟨rfl, ⟨0, 4, 1⟩, rfl, by decide⟩ ts

/-- A layout with rolls and both sides of the bar is printed and parsed. -/
example : let l : Layout := ⟨[⟨0, 4, 1⟩, ⟨-2, 2, 1⟩, ⟨1, 4, 1⟩, ⟨-1, 2, 1⟩], 16, [0, 2, 2, 3]⟩
    l.verify = true ∧ l.n ≠ 1 ∧ (printLayout l).bind parseLayout = some l ∧
      (printLayout l).map (·.count .bar) = some 1 := by
  decide +kernel

end Heir.Rotom
