/-
Properties of the canonical form of a layout: unused slots become a gap.
-/
import Verif.Rotom.Lemmas8
import Verif.Rotom.Props

namespace Heir.Rotom

theorem lower_eq {l : Layout} (hp : Pos l.dims) :
    lower l = (preprocess l.dims l.n).bind (fun _ =>
      (rollAll (axesOf l.dims) l.dims l.rolls (es0 l.dims)).map (relOf l)) := by
  cases hd : preprocess l.dims l.n with
  | none => unfold lower; rw [hd]; rfl
  | some data =>
    obtain ⟨_, _, he⟩ := preprocess_some hd
    unfold lower
    rw [hd, Option.bind_some, Option.bind_some, he]
    simp only
    cases h : rollAll (axesOf l.dims) l.dims l.rolls (es0 l.dims) with
    | none =>
      unfold es0 at h
      rw [h]; rfl
    | some es =>
      unfold es0 at h
      rw [h, Option.bind_some, if_neg]
      · simp only [relOf, List.map_take, List.map_drop, nGap, nRepl, pcs, Layout.pre, Layout.post,
          Option.map_some]
      · simp only [List.any_eq_true, not_exists, not_and, beq_iff_eq]
        intro t ht
        rw [List.mem_append] at ht
        rcases ht with ht | ht
        · rw [← List.map_take] at ht
          exact segTerms_coeff hp _ _ _ _ (fun x hx => List.mem_of_mem_take hx) _ _ t ht
        · rw [← List.map_drop] at ht
          exact segTerms_coeff hp _ _ _ _ (fun x hx => List.mem_of_mem_drop hx) _ _ t ht

/-- The two shapes of the canonical form. -/
theorem canonical_cases (l : Layout) (hp : Pos l.dims) (hn : 0 < l.n) :
    (canonical l = l ∧ extent l.post = l.n) ∨
    (1 < l.n / extent l.post ∧ extent l.post * (l.n / extent l.post) = l.n ∧
      canonical l = ⟨withGap l.pre l.post (l.n / extent l.post), l.n,
        l.rolls.map (shiftPos l.pre.length)⟩) := by
  obtain ⟨hk, hdv, _⟩ := ctLen_split l.dims l.n hn (fun d hd => (hp d hd).1)
  have he : 0 < extent l.post := extent_pos _ (fun d hd => (hp d (List.mem_of_mem_drop hd)).1)
  have hmul : extent l.post * (l.n / extent l.post) = l.n := Nat.mul_div_cancel' hdv
  have hlen : l.pre.length = ctLen l.dims l.n := by simp [Layout.pre]; exact hk
  have h1 : ¬ (extent l.post = 0 ∨ l.n % extent l.post ≠ 0) := by
    rw [not_or]
    exact ⟨by omega, not_not.mpr (Nat.mod_eq_zero_of_dvd hdv)⟩
  by_cases h2 : l.n / extent l.post ≤ 1
  · left
    refine ⟨?_, ?_⟩
    · unfold canonical
      simp only
      rw [if_neg h1, if_pos h2]
    · have h3 : l.n / extent l.post ≠ 0 := by
        intro h0; rw [h0, Nat.mul_zero] at hmul; omega
      have h4 : l.n / extent l.post = 1 := Nat.le_antisymm h2 (Nat.one_le_iff_ne_zero.mpr h3)
      rw [h4, Nat.mul_one] at hmul
      exact hmul
  · right
    refine ⟨by omega, hmul, ?_⟩
    unfold canonical
    simp only
    rw [if_neg h1, if_neg h2]
    simp only [withGap, gapDim, Layout.mk.injEq, true_and]
    apply List.map_congr_left
    intro x _
    unfold shiftPos
    rw [hlen]

theorem pos_canonical {l : Layout} (hp : Pos l.dims) (hn : 0 < l.n) : Pos (canonical l).dims := by
  rcases canonical_cases l hp hn with ⟨h, _⟩ | ⟨h1, _, h⟩
  · rw [h]; exact hp
  · rw [h]
    intro d hd
    simp only [withGap, List.mem_append, List.mem_cons] at hd
    rcases hd with hd | rfl | hd
    · exact hp d (List.mem_of_mem_take hd)
    · exact ⟨Nat.lt_trans Nat.zero_lt_one h1, Nat.one_pos⟩
    · exact hp d (List.mem_of_mem_drop hd)

/-- The ciphertext side stays as it is. -/
theorem ctLen_canonical {l : Layout} (hp : Pos l.dims) (hn : 0 < l.n) :
    ctLen (canonical l).dims (canonical l).n = ctLen l.dims l.n := by
  obtain ⟨hk, hdv, hmin⟩ := ctLen_split l.dims l.n hn (fun d hd => (hp d hd).1)
  rcases canonical_cases l hp hn with ⟨h, _⟩ | ⟨h1, h2, h⟩
  · rw [h]
  · have hlen : l.pre.length = ctLen l.dims l.n := by simp [Layout.pre]; exact hk
    have hp' := pos_canonical hp hn
    rw [h] at hp' ⊢
    simp only at hp' ⊢
    symm
    apply ctLen_unique _ _ _ hn (fun d hd => (hp' d hd).1)
    · rw [withGap, List.drop_append, ← hlen, List.drop_length, List.nil_append, Nat.sub_self,
        List.drop_zero, extent_cons]
      simp only [gapDim]
      rw [Nat.mul_comm, h2]
    · intro i hi hc
      apply hmin i hi
      have e1 : (withGap l.pre l.post (l.n / extent l.post)).drop i
          = l.pre.drop i ++ gapDim (l.n / extent l.post) :: l.post := by
        rw [withGap, List.drop_append_of_le_length (by omega)]
      have e2 : l.dims.drop i = l.pre.drop i ++ l.post := by
        conv_lhs => rw [← List.take_append_drop (ctLen l.dims l.n) l.dims]
        rw [List.drop_append_of_le_length (by
          have : (List.take (ctLen l.dims l.n) l.dims).length = ctLen l.dims l.n := hlen
          omega)]
      rw [e1, extent_append, extent_cons] at hc
      simp only [gapDim] at hc
      rw [Nat.mul_comm (l.n / extent l.post), h2] at hc
      have h3 : extent (l.pre.drop i) = 1 := by
        have hle := Nat.le_of_dvd hn hc
        have hpos : 0 < extent (l.pre.drop i) :=
          extent_pos _ (fun d hd => (hp d (List.mem_of_mem_take (List.mem_of_mem_drop hd))).1)
        by_contra hne
        have h22 : 2 ≤ extent (l.pre.drop i) := by omega
        have := Nat.mul_le_mul_right l.n h22
        omega
      rw [e2, extent_append, h3, Nat.one_mul]
      exact hdv

theorem pre_canonical {l : Layout} (hp : Pos l.dims) (hn : 0 < l.n) :
    (canonical l).pre = l.pre := by
  have hc := ctLen_canonical hp hn
  obtain ⟨hk, _, _⟩ := ctLen_split l.dims l.n hn (fun d hd => (hp d hd).1)
  have hlen : l.pre.length = ctLen l.dims l.n := by simp [Layout.pre]; exact hk
  have : (canonical l).pre = (canonical l).dims.take (ctLen l.dims l.n) := by
    unfold Layout.pre; rw [hc]
  rw [this]
  rcases canonical_cases l hp hn with ⟨h, _⟩ | ⟨_, _, h⟩
  · rw [h]
  · rw [h]
    simp only
    rw [withGap, ← hlen, List.take_append_of_le_length (Nat.le_refl _), List.take_length]

/-! ### C166: canonical layouts -/

/-- The slot dims of the canonical form fill the slots of a ciphertext, and the
ciphertext dims are the ones of the layout. -/
theorem C166_fills (l : Layout) (hd : ∀ d ∈ l.dims, d.verify = true) (hn : 0 < l.n) (k : Nat)
    (hk : Split l.dims l.n k) :
    Split (canonical l).dims l.n k ∧ (canonical l).n = l.n ∧
      (canonical l).dims.take k = l.dims.take k ∧
      (((canonical l).dims.drop k).map (·.size)).prod = l.n ∧
      ((canonical l).dims.drop k = l.dims.drop k ∨
        ∃ f, 2 ≤ f ∧ (canonical l).dims.drop k = ⟨-2, f, 1⟩ :: l.dims.drop k) := by
  have hp : Pos l.dims := by
    intro d hdd
    have := hd d hdd
    unfold Dim.verify at this
    simp only [Bool.and_eq_true, decide_eq_true_eq] at this
    exact ⟨this.1.2, this.2⟩
  rw [split_iff hp hn] at hk
  subst hk
  have hp' := pos_canonical hp hn
  have hnn : (canonical l).n = l.n := by
    rcases canonical_cases l hp hn with ⟨h, _⟩ | ⟨_, _, h⟩ <;> rw [h]
  have hs : Split (canonical l).dims l.n (ctLen l.dims l.n) := by
    have := (split_iff (l := canonical l) hp' (by rw [hnn]; exact hn) (ctLen l.dims l.n)).mpr
      (ctLen_canonical hp hn).symm
    rwa [hnn] at this
  have hpre := pre_canonical hp hn
  have hc := ctLen_canonical hp hn
  unfold Layout.pre at hpre
  rw [hc] at hpre
  refine ⟨hs, hnn, hpre, ?_⟩
  obtain ⟨hk, _, _⟩ := ctLen_split l.dims l.n hn (fun d hd => (hp d hd).1)
  have hlen : l.pre.length = ctLen l.dims l.n := by simp [Layout.pre]; exact hk
  rcases canonical_cases l hp hn with ⟨h, he⟩ | ⟨h1, h2, h⟩
  · rw [h]
    exact ⟨he, Or.inl rfl⟩
  · rw [h]
    simp only
    have e : (withGap l.pre l.post (l.n / extent l.post)).drop (ctLen l.dims l.n)
        = gapDim (l.n / extent l.post) :: l.post := by
      rw [withGap, List.drop_append, ← hlen, List.drop_length, List.nil_append, Nat.sub_self,
        List.drop_zero]
    rw [e]
    refine ⟨?_, Or.inr ⟨_, h1, rfl⟩⟩
    have : extent (gapDim (l.n / extent l.post) :: l.post) = l.n := by
      rw [extent_cons]; simp only [gapDim]; rw [Nat.mul_comm, h2]
    exact this

/-- The rolls of the canonical form name the same dims. -/
theorem C166_rolls (l : Layout) (hd : ∀ d ∈ l.dims, d.verify = true) (hn : 0 < l.n) (m : Nat)
    (x : Int) (hx : l.rolls[m]? = some x) (h0 : 0 ≤ x) :
    ∃ y : Int, (canonical l).rolls[m]? = some y ∧ 0 ≤ y ∧
      (canonical l).dims[y.toNat]? = l.dims[x.toNat]? := by
  have hp : Pos l.dims := by
    intro d hdd
    have := hd d hdd
    unfold Dim.verify at this
    simp only [Bool.and_eq_true, decide_eq_true_eq] at this
    exact ⟨this.1.2, this.2⟩
  rcases canonical_cases l hp hn with ⟨h, _⟩ | ⟨h1, h2, h⟩
  · rw [h]; exact ⟨x, hx, h0, rfl⟩
  · rw [h]
    simp only
    refine ⟨shiftPos l.pre.length x, by rw [List.getElem?_map, hx]; rfl, ?_, ?_⟩
    · unfold shiftPos; split_ifs <;> omega
    · rw [toNat_shift h0, get_shift]
      unfold Layout.pre Layout.post
      rw [List.take_append_drop]

theorem gBounds_split (ds a b : List Dim) (x : Dim) (hx : x.isGap = true) :
    gBounds ((a ++ x :: b).map (mkPiece ds))
      = gBounds (a.map (mkPiece ds)) ++ x.size :: gBounds (b.map (mkPiece ds)) := by
  have hk : (mkPiece ds x).kind = .gap := (kind_gap_iff ds x).mpr hx
  unfold gBounds
  rw [List.map_append, List.map_cons, List.filter_append, List.map_append,
    List.filter_cons_of_pos (by simp [hk]), List.map_cons, mkPiece_dim]

/-- The canonical form lowers to the same relation. -/
theorem C166_relation (l : Layout) (hd : ∀ d ∈ l.dims, d.verify = true) (hn : 0 < l.n) :
    (lower l = none → lower (canonical l) = none) ∧
    ∀ r, lower l = some r → ∃ r', lower (canonical l) = some r' ∧ r'.axes = r.axes ∧
      r'.numCt = r.numCt ∧ r'.n = r.n ∧ ∀ ix ct slot, r'.Holds ix ct slot ↔ r.Holds ix ct slot := by
  have hp : Pos l.dims := by
    intro d hdd
    have := hd d hdd
    unfold Dim.verify at this
    simp only [Bool.and_eq_true, decide_eq_true_eq] at this
    exact ⟨this.1.2, this.2⟩
  have hcl := ctLen_canonical hp hn
  have hpc := pre_canonical hp hn
  have hp' := pos_canonical hp hn
  obtain ⟨hk, _, _⟩ := ctLen_split l.dims l.n hn (fun d hd => (hp d hd).1)
  have hlen : l.pre.length = ctLen l.dims l.n := by simp [Layout.pre]; exact hk
  have happ : l.pre ++ l.post = l.dims := by
    unfold Layout.pre Layout.post; rw [List.take_append_drop]
  rcases canonical_cases l hp hn with ⟨h, _⟩ | ⟨h1, h2, h⟩
  · rw [h]
    exact ⟨id, fun r hr => ⟨r, hr, rfl, rfl, rfl, fun _ _ _ => Iff.rfl⟩⟩
  · rw [lower_eq hp', lower_eq hp]
    generalize hf : l.n / extent l.post = f at *
    rw [h] at hcl hpc hp' ⊢
    simp only at hcl hp' ⊢
    have hax : axesOf (withGap l.pre l.post f) = axesOf l.dims := by
      rw [axesOf_withGap, happ]
    -- the checks are the same
    have hpp : (preprocess (withGap l.pre l.post f) l.n).isSome = (preprocess l.dims l.n).isSome := by
      unfold preprocess
      have e1 : (withGap l.pre l.post f).any (fun d => d.isTrav && decide (d.dim < 0))
          = l.dims.any (fun d => d.isTrav && decide (d.dim < 0)) := by
        conv_rhs => rw [← happ]
        rw [withGap, List.any_append, List.any_cons, gapDim_trav, Bool.false_and, Bool.false_or,
          List.any_append]
      have e2 : (axisIds (withGap l.pre l.post f)).all (radixOk (withGap l.pre l.post f))
          = (axisIds l.dims).all (radixOk l.dims) := by
        rw [axisIds_withGap, happ]
        congr 1
        funext id
        rw [radixOk_withGap, happ]
      rw [e1, e2]
      split_ifs <;> rfl
    have hroll := rollAll_shift l.pre l.post f (axesOf l.dims) l.rolls (es0 l.dims)
    rw [happ] at hroll
    have hes0 : (es0 l.dims).map (Expr.ren (g0of l.pre)) = es0 (withGap l.pre l.post f) := by
      unfold es0
      rw [hax, List.map_map]
      apply List.map_congr_left
      intro k _; rfl
    rw [hes0] at hroll
    rw [hax, hroll]
    -- the relations are the same up to the names of the gaps
    have hpieces : ∀ ds : List Dim,
        ds.map (mkPiece (withGap l.pre l.post f)) = ds.map (mkPiece l.dims) := by
      intro ds
      apply List.map_congr_left
      intro x _
      rw [mkPiece_withGap, happ]
    have hrg : ∀ o, rolledGap (withGap l.pre l.post f) (l.rolls.map (shiftPos l.pre.length))
        (rho (g0of l.pre) o) = rolledGap l.dims l.rolls o := by
      intro o
      rw [rolledGap_shift, happ]
    have hnew := rolledGap_new l.pre l.post f l.rolls
    have hpost : (withGap l.pre l.post f).drop (ctLen (withGap l.pre l.post f) l.n)
        = gapDim f :: l.post := by
      rw [hcl, withGap, List.drop_append, ← hlen, List.drop_length, List.nil_append, Nat.sub_self,
        List.drop_zero]
    have hpre : (withGap l.pre l.post f).take (ctLen (withGap l.pre l.post f) l.n) = l.pre := by
      rw [hcl, withGap, ← hlen, List.take_append_of_le_length (Nat.le_refl _), List.take_length]
    have hg0 : nGap (l.pre.map (mkPiece l.dims)) = g0of l.pre := by rw [nGap_pcs]; rfl
    have hlow : ∀ k, k < nGap (l.pre.map (mkPiece l.dims)) →
        0 + k = rho (g0of l.pre) (0 + k) ∧
        rolledGap (withGap l.pre l.post f) (l.rolls.map (shiftPos l.pre.length)) (0 + k)
          = rolledGap l.dims l.rolls (0 + k) := by
      intro k hk
      rw [hg0] at hk
      have e : rho (g0of l.pre) (0 + k) = 0 + k := by
        unfold rho; rw [if_pos (by omega)]
      refine ⟨e.symm, ?_⟩
      rw [← hrg, e]
    have hnumr : ∀ es : List Expr,
        (relOf ⟨withGap l.pre l.post f, l.n, l.rolls.map (shiftPos l.pre.length)⟩
          (es.map (Expr.ren (g0of l.pre)))).numCt = (relOf l es).numCt := by
      intro es
      simp only [relOf, pcs, Layout.pre]
      rw [hpre, hpieces]
      exact numCt_ren _ _ _ _ _ (fun k hk => (hlow k hk).2)
    have hrel : ∀ es : List Expr, ∀ ix d g ct slot,
        (relOf ⟨withGap l.pre l.post f, l.n, l.rolls.map (shiftPos l.pre.length)⟩
          (es.map (Expr.ren (g0of l.pre)))).At ix d g ct slot
        ↔ (relOf l es).At ix d (fun k => g (rho (g0of l.pre) k)) ct slot := by
      intro es ix d g ct slot
      have hsplit : l.dims.map (mkPiece l.dims)
          = l.pre.map (mkPiece l.dims) ++ l.post.map (mkPiece l.dims) := by
        rw [← List.map_append, happ]
      have hhigh : ∀ k, rolledGap (withGap l.pre l.post f) (l.rolls.map (shiftPos l.pre.length))
          (g0of l.pre + 1 + k) = rolledGap l.dims l.rolls (g0of l.pre + k) ∧
          g0of l.pre + 1 + k = rho (g0of l.pre) (g0of l.pre + k) := by
        intro k
        have e : rho (g0of l.pre) (g0of l.pre + k) = g0of l.pre + 1 + k := by
          unfold rho; rw [if_neg (by omega)]; omega
        exact ⟨by rw [← e, hrg], e.symm⟩
      -- addresses
      have hct : (relOf ⟨withGap l.pre l.post f, l.n, l.rolls.map (shiftPos l.pre.length)⟩
          (es.map (Expr.ren (g0of l.pre)))).ct
          = (relOf l es).ct.map (fun t => (t.1, t.2.ren (g0of l.pre))) := by
        simp only [relOf, pcs, Layout.pre]
        rw [hpre, hpieces, hax]
        exact segTerms_ren _ _ _ _ _ _ _ _ _ hlow
      have hgap : mkPiece l.dims (gapDim f) = ⟨gapDim f, .gap, 0, 1, 0⟩ := by
        unfold mkPiece; rw [if_pos (gapDim_gap f)]
      have hslot : (relOf ⟨withGap l.pre l.post f, l.n, l.rolls.map (shiftPos l.pre.length)⟩
          (es.map (Expr.ren (g0of l.pre)))).slot
          = (relOf l es).slot.map (fun t => (t.1, t.2.ren (g0of l.pre))) := by
        simp only [relOf, pcs, Layout.pre, Layout.post]
        rw [hpre, hpost, hpieces, hpieces, hax]
        show segTerms _ _ _ ((gapDim f :: l.post).map (mkPiece l.dims)) (nGap (l.pre.map (mkPiece l.dims)))
          (nRepl (l.pre.map (mkPiece l.dims))) = _
        rw [List.map_cons, segTerms, hgap, hg0]
        have ht : term (rolledGap (withGap l.pre l.post f) (l.rolls.map (shiftPos l.pre.length)))
            (axesOf l.dims) (es.map (Expr.ren (g0of l.pre))) ⟨gapDim f, .gap, 0, 1, 0⟩ (g0of l.pre)
            (nRepl (l.pre.map (mkPiece l.dims))) = none := by
          simp only [term]
          rw [hnew]; rfl
        rw [ht]
        simp only [Option.map_none, Option.toList_none, List.nil_append, bumpGap, bumpRepl, if_true,
          reduceCtorEq, if_false]
        refine (segTerms_ren (g0of l.pre) (rolledGap l.dims l.rolls) _ _ _ _ (g0of l.pre)
          (g0of l.pre + 1) _ ?_).trans ?_
        · intro k _
          exact ⟨(hhigh k).2, (hhigh k).1⟩
        · rfl
      have hnum := hnumr es
      have hdb : (relOf ⟨withGap l.pre l.post f, l.n, l.rolls.map (shiftPos l.pre.length)⟩
          (es.map (Expr.ren (g0of l.pre)))).dB = (relOf l es).dB := by
        simp only [relOf, pcs, dBounds]
        rw [hpieces, hsplit, withGap, List.map_append, List.map_cons, List.filter_append, hgap,
          List.filter_cons_of_neg (by simp), List.filter_append]
      have hgb : (relOf ⟨withGap l.pre l.post f, l.n, l.rolls.map (shiftPos l.pre.length)⟩
          (es.map (Expr.ren (g0of l.pre)))).gB
          = gBounds (l.pre.map (mkPiece l.dims)) ++ f :: gBounds (l.post.map (mkPiece l.dims)) := by
        simp only [relOf, pcs]
        rw [hpieces, withGap, gBounds_split _ _ _ _ (gapDim_gap f)]
        rfl
      have hgb' : (relOf l es).gB
          = gBounds (l.pre.map (mkPiece l.dims)) ++ gBounds (l.post.map (mkPiece l.dims)) := by
        simp only [relOf, pcs]
        rw [hsplit]
        unfold gBounds
        rw [List.filter_append, List.map_append]
      have hgl : (gBounds (l.pre.map (mkPiece l.dims))).length = g0of l.pre := by
        rw [← hg0]; simp [gBounds, nGap]
      unfold Rel.At
      rw [hct, hslot, addr_ren, addr_ren, hnum, hdb, hgb, hgb']
      have haxr : (relOf ⟨withGap l.pre l.post f, l.n, l.rolls.map (shiftPos l.pre.length)⟩
          (es.map (Expr.ren (g0of l.pre)))).axes = (relOf l es).axes := by
        simp only [relOf]; rw [hax]
      rw [haxr]
      have hgcond : (∀ (k b : Nat), (gBounds (l.pre.map (mkPiece l.dims))
            ++ f :: gBounds (l.post.map (mkPiece l.dims)))[k]? = some b →
          rolledGap (withGap l.pre l.post f) (l.rolls.map (shiftPos l.pre.length)) k = true →
          0 ≤ g k ∧ g k < b)
        ↔ (∀ (k b : Nat), (gBounds (l.pre.map (mkPiece l.dims))
            ++ gBounds (l.post.map (mkPiece l.dims)))[k]? = some b →
          rolledGap l.dims l.rolls k = true →
          0 ≤ g (rho (g0of l.pre) k) ∧ g (rho (g0of l.pre) k) < b) := by
        constructor
        · intro H k b hkb hr
          refine H (rho (g0of l.pre) k) b ?_ (by rw [hrg]; exact hr)
          unfold rho
          by_cases hlt : k < g0of l.pre
          · rw [if_pos hlt, List.getElem?_append_left (by omega)]
            rwa [List.getElem?_append_left (by omega)] at hkb
          · rw [if_neg hlt, List.getElem?_append_right (by omega),
              show k + 1 - (gBounds (l.pre.map (mkPiece l.dims))).length
                = (k - (gBounds (l.pre.map (mkPiece l.dims))).length) + 1 by omega,
              List.getElem?_cons_succ]
            rwa [List.getElem?_append_right (by omega)] at hkb
        · intro H k b hkb hr
          rcases Nat.lt_trichotomy k (g0of l.pre) with hlt | heq | hgt
          · have e : rho (g0of l.pre) k = k := by unfold rho; rw [if_pos hlt]
            have := H k b (by
              rw [List.getElem?_append_left (by omega)] at hkb ⊢; exact hkb)
              (by rw [← hrg, e]; exact hr)
            rwa [e] at this
          · rw [heq, hnew] at hr; simp at hr
          · have e : rho (g0of l.pre) (k - 1) = k := by unfold rho; rw [if_neg (by omega)]; omega
            have := H (k - 1) b (by
              rw [List.getElem?_append_right (by omega),
                show k - (gBounds (l.pre.map (mkPiece l.dims))).length
                  = (k - 1 - (gBounds (l.pre.map (mkPiece l.dims))).length) + 1 by omega,
                List.getElem?_cons_succ] at hkb
              rw [List.getElem?_append_right (by omega)]; exact hkb)
              (by rw [← hrg, e]; exact hr)
            rwa [e] at this
      constructor
      · rintro ⟨a1, a2, a3, a4, a5, a6, a7⟩
        exact ⟨a1, a2, a3, a4, hgcond.mp a5, a6, a7⟩
      · rintro ⟨a1, a2, a3, a4, a5, a6, a7⟩
        exact ⟨a1, a2, a3, a4, hgcond.mpr a5, a6, a7⟩
    cases hpl : preprocess l.dims l.n with
    | none =>
      rw [hpl] at hpp
      have : preprocess (withGap l.pre l.post f) l.n = none := by
        simpa using hpp
      rw [this]
      exact ⟨fun _ => rfl, fun r hr => by simp at hr⟩
    | some data =>
      rw [hpl] at hpp
      obtain ⟨data', hd'⟩ := Option.isSome_iff_exists.mp hpp
      rw [hd', Option.bind_some, Option.bind_some]
      cases hes : rollAll (axesOf l.dims) l.dims l.rolls (es0 l.dims) with
      | none => exact ⟨fun _ => rfl, fun r hr => by simp at hr⟩
      | some es =>
        refine ⟨fun hc => by simp at hc, ?_⟩
        intro r hr
        simp only [Option.map_some, Option.some.injEq] at hr
        subst hr
        refine ⟨_, rfl, ?_, hnumr es, rfl, ?_⟩
        · simp only [relOf]; rw [hax]
        · intro ix ct slot
          constructor
          · rintro ⟨d, g, hat⟩
            exact ⟨d, _, (hrel es ix d g ct slot).mp hat⟩
          · rintro ⟨d, g, hat⟩
            refine ⟨d, fun k => if k < g0of l.pre then g k else g (k - 1), ?_⟩
            rw [hrel]
            have : (fun k => (fun k => if k < g0of l.pre then g k else g (k - 1)) (rho (g0of l.pre) k)) = g := by
              funext k
              unfold rho
              by_cases hk : k < g0of l.pre
              · simp [hk]
              · simp only [hk, if_false]
                rw [if_neg (by omega)]; rfl
            rw [this]; exact hat

end Heir.Rotom
