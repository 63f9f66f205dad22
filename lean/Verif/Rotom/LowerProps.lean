/-
Which layouts the canonical form makes acceptable, and which layouts lower.
-/
import Verif.Rotom.CanonProps
import Mathlib.Data.Nat.Prime.Basic

namespace Heir.Rotom

theorem isPow2_iff (x : Nat) : isPow2 x = true ↔ ∃ a, x = 2 ^ a := by
  unfold isPow2
  simp only [Bool.and_eq_true, decide_eq_true_eq]
  constructor
  · rintro ⟨_, h⟩; exact ⟨_, h⟩
  · rintro ⟨a, rfl⟩
    exact ⟨Nat.two_pow_pos a, by rw [Nat.log2_two_pow]⟩

theorem extent_pow2 (ds : List Dim) (h : ∀ d ∈ ds, isPow2 d.size = true) : ∃ a, extent ds = 2 ^ a := by
  induction ds with
  | nil => exact ⟨0, rfl⟩
  | cons d ds ih =>
    obtain ⟨a, ha⟩ := ih (fun x hx => h x (List.mem_cons_of_mem d hx))
    obtain ⟨b, hb⟩ := (isPow2_iff _).mp (h d (by simp))
    exact ⟨b + a, by rw [extent_cons, ha, hb, pow_add]⟩

theorem pos_of_verify {ds : List Dim} (hd : ∀ d ∈ ds, d.verify = true) : Pos ds := by
  intro d hdd
  have := hd d hdd
  unfold Dim.verify at this
  simp only [Bool.and_eq_true, decide_eq_true_eq] at this
  exact ⟨this.1.2, this.2⟩

theorem preprocess_withGap (pre post : List Dim) (f n : Nat) :
    (preprocess (withGap pre post f) n).isSome = (preprocess (pre ++ post) n).isSome := by
  unfold preprocess
  have e1 : (withGap pre post f).any (fun d => d.isTrav && decide (d.dim < 0))
      = (pre ++ post).any (fun d => d.isTrav && decide (d.dim < 0)) := by
    rw [withGap, List.any_append, List.any_cons, gapDim_trav, Bool.false_and, Bool.false_or,
      List.any_append]
  have e2 : (axisIds (withGap pre post f)).all (radixOk (withGap pre post f))
      = (axisIds (pre ++ post)).all (radixOk (pre ++ post)) := by
    rw [axisIds_withGap]
    congr 1
    funext id
    rw [radixOk_withGap]
  rw [e1, e2]
  split_ifs <;> rfl

theorem rollOk_shift (pre post : List Dim) (f : Nat) (i j : Int) :
    rollOk (withGap pre post f) (shiftPos pre.length i) (shiftPos pre.length j)
      = rollOk (pre ++ post) i j := by
  have hl : (withGap pre post f).length = (pre ++ post).length + 1 := by
    simp [withGap]; omega
  have hpl : pre.length ≤ (pre ++ post).length := by simp
  have hneg : ∀ x : Int, (shiftPos pre.length x < 0 ↔ x < 0) := by
    intro x; unfold shiftPos; split_ifs <;> omega
  have hge : ∀ x : Int, (((withGap pre post f).length : Int) ≤ shiftPos pre.length x
      ↔ ((pre ++ post).length : Int) ≤ x) := by
    intro x; unfold shiftPos; rw [hl]; split_ifs <;> push_cast <;> omega
  have heq : shiftPos pre.length i = shiftPos pre.length j ↔ i = j := by
    unfold shiftPos; split_ifs <;> omega
  unfold rollOk
  by_cases h1 : i = j
  · rw [if_pos h1, if_pos (heq.mpr h1)]
  · rw [if_neg h1, if_neg (fun h => h1 (heq.mp h))]
    by_cases h2 : i < 0 ∨ j < 0 ∨ ((pre ++ post).length : Int) ≤ i ∨ ((pre ++ post).length : Int) ≤ j
    · rw [if_pos h2, if_pos]
      rw [hneg, hneg, hge, hge]; exact h2
    · rw [if_neg h2, if_neg (by rw [hneg, hneg, hge, hge]; exact h2)]
      rw [toNat_shift (by omega), toNat_shift (by omega), get_shift, get_shift]

theorem rollsOk_shift (pre post : List Dim) (f : Nat) : ∀ rolls : List Int,
    rollsOk (withGap pre post f) (rolls.map (shiftPos pre.length)) = rollsOk (pre ++ post) rolls
  | [] => rfl
  | [_] => rfl
  | i :: j :: rest => by
    rw [List.map_cons, List.map_cons, rollsOk, rollsOk, rollOk_shift, rollsOk_shift pre post f rest]

/-- The canonical form of a layout is accepted exactly when the number of slots
is a power of two and the layout passes every check but the one that its slot
dims fill the slots. -/
theorem C166_accepted (l : Layout) (hd : ∀ d ∈ l.dims, d.verify = true) (hn : 0 < l.n) :
    (canonical l).verify = true ↔
      (∃ a, l.n = 2 ^ a) ∧ (preprocess l.dims l.n).isSome = true ∧ rollsOk l.dims l.rolls = true ∧
        ∀ k, Split l.dims l.n k → ∀ d ∈ l.dims.drop k, (∃ a, d.size = 2 ^ a) ∧ ∃ a, d.stride = 2 ^ a := by
  have hp := pos_of_verify hd
  have hsp : (∀ k, Split l.dims l.n k → ∀ d ∈ l.dims.drop k, (∃ a, d.size = 2 ^ a) ∧ ∃ a, d.stride = 2 ^ a)
      ↔ ∀ d ∈ l.post, isPow2 d.size = true ∧ isPow2 d.stride = true := by
    constructor
    · intro h d hd'
      rw [isPow2_iff, isPow2_iff]
      exact h _ ((split_iff hp hn _).mpr rfl) d hd'
    · intro h k hk d hd'
      rw [split_iff hp hn] at hk
      subst hk
      rw [← isPow2_iff, ← isPow2_iff]
      exact h d hd'
  rw [hsp]
  have hdall : l.dims.all Dim.verify = true := List.all_eq_true.mpr hd
  have happ : l.pre ++ l.post = l.dims := by
    unfold Layout.pre Layout.post; rw [List.take_append_drop]
  obtain ⟨hk, _, _⟩ := ctLen_split l.dims l.n hn (fun d hd => (hp d hd).1)
  have hlen : l.pre.length = ctLen l.dims l.n := by simp [Layout.pre]; exact hk
  have hcl := ctLen_canonical hp hn
  have hpowpost : (∀ d ∈ l.post, isPow2 d.size = true ∧ isPow2 d.stride = true) →
      ∃ a, extent l.post = 2 ^ a := fun h => extent_pow2 _ (fun d hd => (h d hd).1)
  rcases canonical_cases l hp hn with ⟨h, he⟩ | ⟨h1, h2, h⟩
  · rw [h]
    have he' : extent l.post = l.n := he
    unfold Layout.verify
    simp only [Bool.and_eq_true, decide_eq_true_eq]
    rw [List.all_eq_true (l := List.drop _ _)]
    simp only [Bool.and_eq_true]
    constructor
    · rintro ⟨⟨⟨⟨⟨_, _⟩, a3⟩, a4⟩, a5⟩, _⟩
      obtain ⟨a, ha⟩ := hpowpost a5
      exact ⟨⟨a, he' ▸ ha⟩, a3, a4, a5⟩
    · rintro ⟨_, a3, a4, a5⟩
      exact ⟨⟨⟨⟨⟨hdall, hn⟩, a3⟩, a4⟩, a5⟩, he'⟩
  · generalize hf : l.n / extent l.post = f at *
    rw [h] at hcl ⊢
    simp only at hcl
    have hpost : (withGap l.pre l.post f).drop (ctLen (withGap l.pre l.post f) l.n)
        = gapDim f :: l.post := by
      rw [hcl, withGap, List.drop_append, ← hlen, List.drop_length, List.nil_append, Nat.sub_self,
        List.drop_zero]
    unfold Layout.verify
    simp only [Bool.and_eq_true, decide_eq_true_eq]
    rw [hpost, preprocess_withGap, rollsOk_shift, happ, extent_cons, List.all_cons,
      Bool.and_eq_true, List.all_eq_true (l := l.post)]
    have hs1 : isPow2 1 = true := by decide
    simp only [Bool.and_eq_true, gapDim, hs1, and_true]
    rw [show f * extent l.post = l.n by rw [Nat.mul_comm]; exact h2]
    have hall : (withGap l.pre l.post f).all Dim.verify = true := by
      rw [List.all_eq_true]
      intro d hd'
      simp only [withGap, List.mem_append, List.mem_cons] at hd'
      rcases hd' with hd' | rfl | hd'
      · exact hd d (List.mem_of_mem_take hd')
      · have : 0 < f := by omega
        simp [Dim.verify, gapDim, this]
      · exact hd d (List.mem_of_mem_drop hd')
    constructor
    · rintro ⟨⟨⟨⟨_, a3⟩, a4⟩, a5, a6⟩, _⟩
      obtain ⟨a, ha⟩ := hpowpost a6
      obtain ⟨b, hb⟩ := (isPow2_iff _).mp a5
      exact ⟨⟨a + b, by rw [← h2, ha, hb, pow_add]⟩, a3, a4, a6⟩
    · rintro ⟨⟨a, ha⟩, a3, a4, a6⟩
      refine ⟨⟨⟨⟨⟨hall, hn⟩, a3⟩, a4⟩, ?_, a6⟩, rfl⟩
      rw [isPow2_iff]
      have hdv : f ∣ 2 ^ a := ⟨extent l.post, by rw [← ha, ← h2, Nat.mul_comm]⟩
      obtain ⟨b, _, hb⟩ := (Nat.dvd_prime_pow Nat.prime_two).mp hdv
      exact ⟨b, hb⟩

/-- An accepted layout is its own canonical form. -/
theorem C166_stable (l : Layout) (h : l.verify = true) : canonical l = l := by
  obtain ⟨hp, _, hn, _, _, _, hex⟩ := verify_unpack h
  rcases canonical_cases l hp hn with ⟨h, _⟩ | ⟨h1, h2, _⟩
  · exact h
  · rw [hex, Nat.div_self hn] at h1
    omega

/-- A layout with unused slots and a roll past the place of the new gap. -/
example : let l : Layout := ⟨[⟨0, 6, 1⟩, ⟨1, 4, 1⟩, ⟨2, 4, 1⟩], 32, [1, 2]⟩
    l.verify = false ∧ (canonical l).verify = true ∧
      canonical l = ⟨[⟨0, 6, 1⟩, ⟨-2, 2, 1⟩, ⟨1, 4, 1⟩, ⟨2, 4, 1⟩], 32, [2, 3]⟩ := by
  decide +kernel

/-! ### C168: which layouts lower -/

theorem mem_axesOf {ds : List Dim} {d : Dim} (h : d ∈ ds) (h0 : ∀ x ∈ ds, -2 ≤ x.dim)
    : d ∈ axesOf ds ↔ Whole ds d := by
  have hfull : 0 ≤ d.dim → fullExtent ds d.dim = ((ds.filter (fun x => x.dim = d.dim)).map (·.size)).prod := by
    intro hd
    unfold fullExtent extent
    congr 2
    apply List.filter_congr
    intro x hx
    by_cases he : x.dim = d.dim
    · have : x.isTrav = true := by
        simp [Dim.isTrav, Dim.isGap, Dim.isReplicate]; omega
      simp [he, this]
    · simp [he]
  unfold axesOf Whole
  rw [List.mem_map]
  constructor
  · rintro ⟨id, hid, rfl⟩
    have h1 := (mem_axisIds ds id).mp hid
    obtain ⟨x, hx, ht, he⟩ := h1
    have : 0 ≤ id := by
      obtain ⟨t1, t2⟩ := trav_flags ht
      have := h0 x hx
      simp [Dim.isGap, Dim.isReplicate] at t1 t2
      omega
    exact ⟨this, rfl, (hfull this).symm⟩
  · rintro ⟨h1, h2, h3⟩
    refine ⟨d.dim, ?_, ?_⟩
    · rw [mem_axisIds]
      exact ⟨d, h, by simp [Dim.isTrav, Dim.isGap, Dim.isReplicate]; omega, rfl⟩
    · rw [hfull h1, h3, ← h2]

theorem varIndex_isSome (axes : List Dim) (d : Dim) : (varIndex axes d).isSome = true ↔ d ∈ axes := by
  unfold varIndex
  rw [List.isSome_idxOf?]

/-- One roll can be written. -/
theorem rollStep_isSome {axes ds : List Dim} {es : List Expr} (hes : es.length = axes.length)
    {i j : Int} {di dj : Dim} (hi0 : 0 ≤ i) (hj0 : 0 ≤ j) (hi : ds[i.toNat]? = some di)
    (hj : ds[j.toNat]? = some dj) :
    ((rollStep axes ds es i j).isSome = true ↔
      di ∈ axes ∧ (dj.isGap = true ∨ dj.isReplicate = true ∨ dj ∈ axes)) ∧
    ∀ es', rollStep axes ds es i j = some es' → es'.length = axes.length := by
  have hget : ∀ {d : Dim} {f : Nat}, varIndex axes d = some f → ∃ e, es[f]? = some e := by
    intro d f hf
    obtain ⟨hlt, _⟩ := List.getElem?_eq_some_iff.mp (varIndex_some hf)
    exact ⟨_, List.getElem?_eq_getElem (by omega)⟩
  unfold rollStep
  rw [if_neg (by omega), hi, hj]
  simp only
  constructor
  · constructor
    · intro h
      obtain ⟨es', hes'⟩ := Option.isSome_iff_exists.mp h
      obtain ⟨f, h1, h2⟩ := Option.bind_eq_some_iff.mp hes'
      obtain ⟨b, h3, _⟩ := Option.bind_eq_some_iff.mp h2
      refine ⟨(varIndex_isSome _ _).mp (by rw [h1]; rfl), ?_⟩
      unfold byExpr at h3
      by_cases hg : dj.isGap = true
      · exact Or.inl hg
      · by_cases hr : dj.isReplicate = true
        · exact Or.inr (Or.inl hr)
        · rw [if_neg hg, if_neg hr] at h3
          obtain ⟨v, h4, _⟩ := Option.bind_eq_some_iff.mp h3
          exact Or.inr (Or.inr ((varIndex_isSome _ _).mp (by rw [h4]; rfl)))
    · rintro ⟨h1, h2⟩
      obtain ⟨f, hf⟩ := Option.isSome_iff_exists.mp ((varIndex_isSome _ _).mpr h1)
      obtain ⟨e, he⟩ := hget hf
      have hb : ∃ b, byExpr axes ds es j.toNat dj = some b := by
        unfold byExpr
        by_cases hg : dj.isGap = true
        · rw [if_pos hg]; exact ⟨_, rfl⟩
        · by_cases hr : dj.isReplicate = true
          · rw [if_neg hg, if_pos hr]; exact ⟨_, rfl⟩
          · rw [if_neg hg, if_neg hr]
            have h3 : dj ∈ axes := by
              rcases h2 with h | h | h
              · exact absurd h hg
              · exact absurd h hr
              · exact h
            obtain ⟨v, hv⟩ := Option.isSome_iff_exists.mp ((varIndex_isSome _ _).mpr h3)
            obtain ⟨b, hb⟩ := hget hv
            exact ⟨b, by rw [hv, Option.bind_some, hb]⟩
      obtain ⟨b, hb⟩ := hb
      rw [hf, Option.bind_some, hb, Option.bind_some, he]
      rfl
  · intro es' h
    obtain ⟨f, _, h2⟩ := Option.bind_eq_some_iff.mp h
    obtain ⟨b, _, h4⟩ := Option.bind_eq_some_iff.mp h2
    obtain ⟨e, _, rfl⟩ := Option.map_eq_some_iff.mp h4
    rw [List.length_set, hes]

theorem rollPair_cons (i j i' j' : Int) (rest : List Int) :
    RollPair (i :: j :: rest) i' j' ↔ (i' = i ∧ j' = j) ∨ RollPair rest i' j' := by
  constructor
  · rintro ⟨p, q, h, hp⟩
    match p, h, hp with
    | [], h, _ =>
      simp only [List.nil_append, List.cons.injEq] at h
      exact Or.inl ⟨h.1.symm, h.2.1.symm⟩
    | [_], _, hp => simp at hp
    | a :: b :: p, h, hp =>
      simp only [List.cons_append, List.cons.injEq] at h
      exact Or.inr ⟨p, q, h.2.2, by simp at hp; omega⟩
  · rintro (⟨rfl, rfl⟩ | ⟨p, q, h, hp⟩)
    · exact ⟨[], rest, rfl, rfl⟩
    · exact ⟨i :: j :: p, q, by rw [h]; rfl, by simp; omega⟩

/-- Every roll of the list can be written. -/
theorem rollAll_isSome {axes ds : List Dim} : ∀ (rolls : List Int) (es : List Expr),
    es.length = axes.length → rollsOk ds rolls = true →
    ((rollAll axes ds rolls es).isSome = true ↔
      ∀ i j di dj, RollPair rolls i j → ds[i.toNat]? = some di → ds[j.toNat]? = some dj →
        di ∈ axes ∧ (dj.isGap = true ∨ dj.isReplicate = true ∨ dj ∈ axes))
  | [], es, _, _ => by
    simp only [rollAll, Option.isSome_some, true_iff]
    rintro i j di dj ⟨p, q, h, _⟩
    simp at h
  | [_], _, _, h => by simp [rollsOk] at h
  | i :: j :: rest, es, hes, h => by
    rw [rollsOk, Bool.and_eq_true] at h
    obtain ⟨hne, hi0, hj0, hil, hjl⟩ : i ≠ j ∧ 0 ≤ i ∧ 0 ≤ j ∧ i < ds.length ∧ j < ds.length := by
      have := h.1
      unfold rollOk at this
      split_ifs at this with h1 h2
      exact ⟨h1, by omega, by omega, by omega, by omega⟩
    have hi : ds[i.toNat]? = some (ds[i.toNat]'(by omega)) := List.getElem?_eq_getElem _
    have hj : ds[j.toNat]? = some (ds[j.toNat]'(by omega)) := List.getElem?_eq_getElem _
    obtain ⟨h1, h2⟩ := rollStep_isSome (axes := axes) hes hi0 hj0 hi hj
    rw [rollAll]
    constructor
    · intro hs i' j' di dj hpair hdi hdj
      obtain ⟨es', hes'⟩ := Option.isSome_iff_exists.mp hs
      obtain ⟨es1, hs1, hs2⟩ := Option.bind_eq_some_iff.mp hes'
      rw [rollPair_cons] at hpair
      rcases hpair with ⟨rfl, rfl⟩ | hpair
      · have := h1.mp (by rw [hs1]; rfl)
        rw [hi, Option.some.injEq] at hdi
        rw [hj, Option.some.injEq] at hdj
        rw [← hdi, ← hdj]; exact this
      · exact (rollAll_isSome rest es1 (h2 es1 hs1) h.2).mp (by rw [hs2]; rfl) i' j' di dj hpair hdi hdj
    · intro H
      obtain ⟨es1, hs1⟩ := Option.isSome_iff_exists.mp
        (h1.mpr (H i j _ _ ((rollPair_cons ..).mpr (Or.inl ⟨rfl, rfl⟩)) hi hj))
      rw [hs1, Option.bind_some]
      exact (rollAll_isSome rest es1 (h2 es1 hs1) h.2).mpr
        (fun i' j' di dj hp => H i' j' di dj ((rollPair_cons ..).mpr (Or.inr hp)))

/-- An accepted layout lowers exactly when each of its rolls moves a dim that is
a whole axis, by a gap, a replication or a dim that is a whole axis. -/
theorem C168_lowers_iff (l : Layout) (h : l.verify = true) :
    (∃ r, lower l = some r) ↔
      ∀ i j di dj, RollPair l.rolls i j → l.dims[i.toNat]? = some di → l.dims[j.toNat]? = some dj →
        Whole l.dims di ∧ (dj.dim = -2 ∨ dj.dim = -1 ∨ Whole l.dims dj) := by
  obtain ⟨hp, h2, hn, hs, hro, _, _⟩ := verify_unpack h
  have key := rollAll_isSome (axes := axesOf l.dims) l.rolls (es0 l.dims)
    (by simp [es0]) hro
  have hconv : (∀ i j di dj, RollPair l.rolls i j → l.dims[i.toNat]? = some di →
        l.dims[j.toNat]? = some dj →
        di ∈ axesOf l.dims ∧ (dj.isGap = true ∨ dj.isReplicate = true ∨ dj ∈ axesOf l.dims)) ↔
      ∀ i j di dj, RollPair l.rolls i j → l.dims[i.toNat]? = some di → l.dims[j.toNat]? = some dj →
        Whole l.dims di ∧ (dj.dim = -2 ∨ dj.dim = -1 ∨ Whole l.dims dj) := by
    refine forall_congr' fun i => forall_congr' fun j => forall_congr' fun di =>
      forall_congr' fun dj => imp_congr_right fun _ => ?_
    constructor
    · intro H hi hj
      have := H hi hj
      rw [mem_axesOf (List.mem_of_getElem? hi) h2, mem_axesOf (List.mem_of_getElem? hj) h2] at this
      simpa [Dim.isGap, Dim.isReplicate] using this
    · intro H hi hj
      have := H hi hj
      rw [mem_axesOf (List.mem_of_getElem? hi) h2, mem_axesOf (List.mem_of_getElem? hj) h2]
      simpa [Dim.isGap, Dim.isReplicate] using this
  rw [← hconv, ← key]
  constructor
  · rintro ⟨r, hr⟩
    obtain ⟨es, he, _⟩ := lower_unpack hr
    rw [he]; rfl
  · intro hsome
    obtain ⟨es, he⟩ := Option.isSome_iff_exists.mp hsome
    exact ⟨_, lower_of h he⟩

/-- An accepted layout lowers if its rolls move whole axes.  Missing: accepted
layouts with other rolls, which have no lowering. -/
theorem C168_lowers_partial (l : Layout) (h : l.verify = true)
    (hr : ∀ i j di dj, RollPair l.rolls i j → l.dims[i.toNat]? = some di → l.dims[j.toNat]? = some dj →
      Whole l.dims di ∧ (dj.dim = -2 ∨ dj.dim = -1 ∨ Whole l.dims dj)) : ∃ r, lower l = some r :=
  (C168_lowers_iff l h).mpr hr

/-- A layout without rolls that is accepted lowers. -/
theorem C168_no_rolls (l : Layout) (h : l.verify = true) (hr : l.rolls = []) : ∃ r, lower l = some r := by
  rw [C168_lowers_iff l h]
  rintro i j di dj ⟨p, q, hpq, _⟩
  rw [hr] at hpq
  simp at hpq

/-- An accepted layout that has no lowering: it rolls a part of a split axis. -/
theorem C168_violated_split : ∃ l : Layout, l.verify = true ∧ lower l = none := by
  refine ⟨⟨[⟨0, 2, 2⟩, ⟨0, 2, 1⟩, ⟨1, 4, 1⟩], 16, [1, 2]⟩, by decide +kernel, by rfl⟩

/-- An accepted layout that has no lowering: it rolls by a dim whose stride is
not one. -/
theorem C168_violated_stride : ∃ l : Layout, l.verify = true ∧ lower l = none := by
  refine ⟨⟨[⟨0, 4, 1⟩, ⟨1, 4, 2⟩], 16, [0, 1]⟩, by decide +kernel, by rfl⟩

/-- A layout with three kinds of rolls that is accepted and lowers. -/
example : let l : Layout := ⟨[⟨0, 4, 1⟩, ⟨-2, 2, 1⟩, ⟨1, 4, 1⟩, ⟨-1, 2, 1⟩], 16, [0, 2, 2, 3, 0, 1]⟩
    l.verify = true ∧ (lower l).isSome = true := by
  decide +kernel

end Heir.Rotom
