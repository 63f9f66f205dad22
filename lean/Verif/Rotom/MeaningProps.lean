/-
What the relation that a layout lowers to says.
-/
import Verif.Rotom.Props

namespace Heir.Rotom

theorem rowMajor_acc (cs : List (Nat × Int)) (a : Int) :
    cs.foldl (fun acc c => acc * (c.1 : Int) + c.2) a = a * (prodS cs : Int) + mix cs := by
  induction cs generalizing a with
  | nil => simp [prodS, mix]
  | cons c cs ih =>
    rw [List.foldl_cons, ih, prodS_cons, mix]
    push_cast
    ring

theorem rowMajor_mix (cs : List (Nat × Int)) : rowMajor cs = mix cs := by
  unfold rowMajor
  rw [rowMajor_acc, Int.zero_mul, Int.zero_add]

theorem idxOf_sorted : ∀ (l : List Int) (x : Int), l.Pairwise (· < ·) → x ∈ l →
    l.idxOf x = (l.filter (fun y => decide (y < x))).length
  | [], _, _, h => by simp at h
  | y :: l, x, hs, h => by
    rw [List.pairwise_cons] at hs
    by_cases hxy : y = x
    · subst hxy
      rw [List.idxOf_cons_self, List.filter_cons_of_neg (by simp)]
      rw [List.filter_eq_nil_iff.mpr]
      · rfl
      · intro z hz; have := hs.1 z hz; simp; omega
    · have hx : x ∈ l := by simpa [Ne.symm hxy] using h
      have := hs.1 x hx
      rw [List.idxOf_cons_ne _ hxy, List.filter_cons_of_pos (by simpa using this), List.length_cons,
        idxOf_sorted l x hs.2 hx]

theorem trav_iff {ds : List Dim} (h2 : ∀ d ∈ ds, -2 ≤ d.dim) {d : Dim} (hd : d ∈ ds) :
    d.isTrav = true ↔ 0 ≤ d.dim := by
  have := h2 d hd
  simp [Dim.isTrav, Dim.isGap, Dim.isReplicate]; omega

theorem axisNo_eq {ds : List Dim} (h2 : ∀ d ∈ ds, -2 ≤ d.dim) {x : Int} (hx : x ∈ axisIds ds) :
    axisNo ds x = (axisIds ds).idxOf x := by
  rw [idxOf_sorted _ _ (axisIds_sorted ds) hx]
  unfold axisNo
  apply List.Perm.length_eq
  rw [List.perm_ext_iff_of_nodup (List.nodup_dedup _) ((axisIds_nodup ds).filter _)]
  intro a
  rw [List.mem_dedup, List.mem_filter, List.mem_filter, mem_axisIds, List.mem_map]
  constructor
  · rintro ⟨⟨d, hd, rfl⟩, hc⟩
    simp only [decide_eq_true_eq] at hc
    exact ⟨⟨d, hd, (trav_iff h2 hd).mpr hc.1, rfl⟩, by simpa using hc.2⟩
  · rintro ⟨⟨d, hd, ht, rfl⟩, hc⟩
    exact ⟨⟨d, hd, rfl⟩, by simp at hc ⊢; exact ⟨(trav_iff h2 hd).mp ht, hc⟩⟩

theorem var_axisNo {ds : List Dim} (h2 : ∀ d ∈ ds, -2 ≤ d.dim) {x : Dim} {f : Nat}
    (h : varIndex (axesOf ds) x = some f) : f = axisNo ds x.dim ∧ f < (axesOf ds).length := by
  have hf := varIndex_some h
  have hlt := (List.getElem?_eq_some_iff.mp hf).1
  unfold axesOf at hf
  rw [List.getElem?_map] at hf
  obtain ⟨id, hid, rfl⟩ := Option.map_eq_some_iff.mp hf
  have hm := List.mem_of_getElem? hid
  refine ⟨?_, hlt⟩
  rw [axisNo_eq h2 hm]
  obtain ⟨h3, h4⟩ := List.getElem?_eq_some_iff.mp hid
  rw [← h4]
  exact ((axisIds_nodup ds).idxOf_getElem f h3).symm

theorem before_gap (ds : List Dim) (p : Nat) : before ds (-2) p = gapIndex ds p := by
  unfold before gapIndex
  congr 1

theorem before_repl (ds : List Dim) (p : Nat) : before ds (-1) p = replIndex ds p := by
  unfold before replIndex
  congr 1

theorem gap_dim {d : Dim} : d.isGap = true ↔ d.dim = -2 := by simp [Dim.isGap]
theorem repl_dim {d : Dim} : d.isReplicate = true ↔ d.dim = -1 := by simp [Dim.isReplicate]

/-- A list of values and a function agree on the axes. -/
def AgreeV (ds : List Dim) (vs : List Int) (v : Nat → Int) : Prop :=
  ∀ k, k < (axesOf ds).length → vs[k]? = some (v k)

theorem by_index {ds : List Dim} (h2 : ∀ d ∈ ds, -2 ≤ d.dim) {d g v : Nat → Int} {vs : List Int}
    (ha : AgreeV ds vs v) {j : Nat} {dj : Dim} {b : Int} (hb : By (axesOf ds) ds d g j dj vs b) :
    b = indexAt ds d g v j dj := by
  unfold indexAt
  cases hb with
  | gap h => rw [if_pos (gap_dim.mp h), before_gap]
  | repl h hg =>
    have := repl_dim.mp h
    rw [if_neg (by omega), if_pos this, before_repl]
  | trav t b ht hv hb =>
    obtain ⟨t1, t2⟩ := trav_flags ht
    rw [if_neg (by rw [← gap_dim]; simp [t1]), if_neg (by rw [← repl_dim]; simp [t2])]
    obtain ⟨rfl, hlt⟩ := var_axisNo h2 hv
    rw [ha _ hlt, Option.some.injEq] at hb
    exact hb.symm

theorem rolls_agree {ds : List Dim} (h2 : ∀ d ∈ ds, -2 ≤ d.dim) (d g : Nat → Int) :
    ∀ (rolls : List Int) (vs vs' : List Int) (v : Nat → Int), AgreeV ds vs v →
    rollAllV (axesOf ds) ds d g rolls vs = some vs' → AgreeV ds vs' (rollsIx ds d g rolls v)
  | [], vs, vs', v, ha, h => by
    simp only [rollAllV, Option.some.injEq] at h
    subst h; exact ha
  | [_], vs, vs', v, ha, h => by simp [rollAllV] at h
  | i :: j :: rest, vs, vs', v, ha, h => by
    rw [rollAllV] at h
    obtain ⟨vs1, h1, h3⟩ := Option.bind_eq_some_iff.mp h
    rw [rollsIx]
    refine rolls_agree h2 d g rest vs1 vs' _ ?_ h3
    obtain ⟨_, di, dj, f, b, x, hi, hj, hf, hb, hx, rfl⟩ := rollStepV_iff.mp h1
    obtain ⟨rfl, hlt⟩ := var_axisNo h2 hf
    rw [ha _ hlt, Option.some.injEq] at hx
    subst hx
    intro k hk
    unfold rollIx
    rw [hi, hj]
    simp only
    by_cases hkf : k = axisNo ds di.dim
    · subst hkf
      rw [if_pos rfl, List.getElem?_set_self (by
        exact (List.getElem?_eq_some_iff.mp (ha _ hlt)).1), by_index h2 ha hb]
    · rw [if_neg hkf, List.getElem?_set_ne (Ne.symm hkf)]
      exact ha k hk

theorem entry_eq {l : Layout} (hv : l.verify = true) {d g v : Nat → Int} {vs : List Int}
    (ha : AgreeV l.dims vs v) (hin : InAx (axesOf l.dims) vs) {p : Nat} {x : Dim}
    (hx : l.dims[p]? = some x) :
    cellVal (rolledGap l.dims l.rolls) d g vs (mkPiece l.dims x) (gapIndex l.dims p) (replIndex l.dims p)
      = entry l d g v p x := by
  obtain ⟨hp, h2, _, _, _, _, _⟩ := verify_unpack hv
  have hm := List.mem_of_getElem? hx
  have hm2 := h2 x hm
  unfold cellVal entry
  by_cases hneg : x.dim < 0
  · rw [if_pos hneg]
    unfold indexAt
    by_cases hg : x.isGap = true
    · have hk : (mkPiece l.dims x).kind = .gap := (kind_gap_iff _ _).mpr hg
      rw [hk]
      simp only
      have hpi := padding_iff (l := l) hx
      rw [if_pos (gap_dim.mp hg), before_gap]
      by_cases hr : rolledGap l.dims l.rolls (gapIndex l.dims p) = true
      · rw [if_pos hr, if_neg (by rw [hpi]; simp [hr])]
      · rw [if_neg hr, if_pos (by rw [hpi]; simp [hg, hr])]
    · have hd : x.dim = -1 := by
        have : x.dim ≠ -2 := fun h => hg (gap_dim.mpr h)
        omega
      have hrep := repl_dim.mpr hd
      have hk : (mkPiece l.dims x).kind = .repl := by
        have := mkPiece_repl l.dims x
        rw [hrep] at this
        simpa using this
      rw [hk]
      simp only
      rw [if_neg, if_neg (by omega), if_pos hd, before_repl]
      rintro ⟨⟨y, hy, hy2⟩, _⟩
      rw [hx, Option.some.injEq] at hy
      subst hy
      omega
  · rw [if_neg hneg]
    have ht : x.isTrav = true := (trav_iff h2 hm).mpr (by omega)
    rw [(mkPiece_trav ht).1]
    simp only
    have hid : x.dim ∈ axisIds l.dims := (mem_axisIds _ _).mpr ⟨x, hm, ht, rfl⟩
    have hax : (mkPiece l.dims x).axis = axisNo l.dims x.dim := by
      rw [(mkPiece_trav ht).2.2, axisNo_eq h2 hid]
    have hat := axis_at hm ht
    obtain ⟨h3, h4, h5⟩ := getD_of_inAx hin hat
    have hlt : (mkPiece l.dims x).axis < (axesOf l.dims).length := (List.getElem?_eq_some_iff.mp hat).1
    have hval : vs.getD (mkPiece l.dims x).axis 0 = v (axisNo l.dims x.dim) := by
      rw [ha _ hlt, Option.some.injEq] at h3
      rw [← h3, hax]
    rw [hval] at h4 h5 ⊢
    simp only at h5
    obtain ⟨a, hva⟩ := Int.eq_ofNat_of_zero_le h4
    rw [hva] at h5 ⊢
    rw [dig_nat hm ht (hp x hm).1 (hp x hm).2 a (by exact_mod_cast h5)]
    have hcnt : pieceCount l.dims x.dim = (l.dims.filter (fun y => decide (y.dim = x.dim))).length := by
      unfold pieceCount
      congr 1
      apply List.filter_congr
      intro y hy
      by_cases hyx : y.dim = x.dim
      · have : y.isTrav = true := (trav_iff h2 hy).mpr (by omega)
        simp [this, hyx]
      · simp [hyx]
    rw [← hcnt]
    split_ifs with hc
    · rw [full_single hm ht hc] at h5
      rw [Nat.mod_eq_of_lt (by exact_mod_cast h5)]
    · push_cast; rfl

theorem cells_entries {l : Layout} (hv : l.verify = true) {d g v : Nat → Int} {vs : List Int}
    (ha : AgreeV l.dims vs v) (hin : InAx (axesOf l.dims) vs) : ∀ (b a : List Dim), l.dims.take (a.length + b.length) = a ++ b →
    cells (rolledGap l.dims l.rolls) d g vs (b.map (mkPiece l.dims)) (gapIndex l.dims a.length)
      (replIndex l.dims a.length) = entries l d g v a.length b
  | [], _, _ => rfl
  | x :: b, a, h => by
    have hx : l.dims[a.length]? = some x := by
      have : (l.dims.take (a.length + (x :: b).length))[a.length]? = some x := by
        rw [h]; simp
      rwa [List.getElem?_take_of_lt (by simp)] at this
    have htake : l.dims.take a.length = a := by
      have := congrArg (List.take a.length) h
      rwa [List.take_take, Nat.min_eq_left (by omega), List.take_left] at this
    have htake1 : l.dims.take (a.length + 1) = a ++ [x] := by
      rw [List.take_add_one, htake, hx]; rfl
    rw [List.map_cons, cells, entries, mkPiece_dim, entry_eq hv ha hin hx]
    have e1 : bumpGap (mkPiece l.dims x) (gapIndex l.dims a.length) = gapIndex l.dims (a ++ [x]).length := by
      unfold bumpGap gapIndex
      rw [List.length_append, List.length_singleton, htake1, htake, List.filter_append, List.length_append]
      by_cases hg : x.isGap = true
      · rw [if_pos ((kind_gap_iff _ _).mpr hg), List.filter_cons_of_pos hg]; rfl
      · rw [if_neg (fun hh => hg ((kind_gap_iff _ _).mp hh)), List.filter_cons_of_neg hg]; rfl
    have e2 : bumpRepl (mkPiece l.dims x) (replIndex l.dims a.length) = replIndex l.dims (a ++ [x]).length := by
      unfold bumpRepl replIndex
      rw [List.length_append, List.length_singleton, htake1, htake, List.filter_append, List.length_append]
      have hk := mkPiece_repl l.dims x
      by_cases hg : x.isReplicate = true
      · rw [if_pos (by rw [hg] at hk; simpa using hk), List.filter_cons_of_pos hg]; rfl
      · rw [if_neg (by
          intro hh; rw [hh] at hk; exact hg (by simpa using hk.symm)), List.filter_cons_of_neg hg]; rfl
    have := cells_entries (d := d) (g := g) hv ha hin b (a ++ [x]) (by
      rw [List.append_assoc, List.singleton_append, ← h]
      congr 1
      simp; omega)
    rw [e1, e2, this, List.length_append, List.length_singleton]

/-! ### C170: meaning -/

/-- The axes are the tensor dims in ascending order, each with the product of
the sizes of its parts. -/
theorem C170_axes (l : Layout) (h : l.verify = true) (r : Rel) (hr : lower l = some r) (x : Dim)
    (hx : x ∈ l.dims) (h0 : 0 ≤ x.dim) :
    r.axes[axisNo l.dims x.dim]?
      = some ((l.dims.filter (fun y => y.dim = x.dim)).map (·.size)).prod := by
  obtain ⟨hp, h2, _, _, _, _, _⟩ := verify_unpack h
  obtain ⟨es, hes, _, hok, rfl⟩ := lower_unpack hr
  have ht : x.isTrav = true := (trav_iff h2 hx).mpr h0
  have hid : x.dim ∈ axisIds l.dims := (mem_axisIds _ _).mpr ⟨x, hx, ht, rfl⟩
  have := axis_at hx ht
  rw [(mkPiece_trav ht).2.2, ← axisNo_eq h2 hid] at this
  show ((axesOf l.dims).map (·.size))[axisNo l.dims x.dim]? = _
  rw [List.getElem?_map, this]
  simp only [Option.map_some, fullExtent, extent]
  congr 3
  apply List.filter_congr
  intro y hy
  by_cases hyx : y.dim = x.dim
  · have : y.isTrav = true := (trav_iff h2 hy).mpr (by omega)
    simp [this, hyx]
  · simp [hyx]

/-- A copy of an element is in the ciphertext and in the slot that are the
row-major positions of the digits of the ciphertext dims and of the slot dims,
read from the indices after the rolls. -/
theorem C170_meaning (l : Layout) (h : l.verify = true) (r : Rel) (hr : lower l = some r) (k : Nat)
    (hk : Split l.dims l.n k) (ix d g : Nat → Int) (hc : r.Copy ix d g) (ct slot : Int) :
    r.At ix d g ct slot ↔
      ct < r.numCt ∧
      ct = rowMajor (entries l d g (rollsIx l.dims d g l.rolls ix) 0 (l.dims.take k)) ∧
      slot = rowMajor (entries l d g (rollsIx l.dims d g l.rolls ix) k (l.dims.drop k)) := by
  obtain ⟨hp, h2, hn, _, hro, _, hex⟩ := verify_unpack h
  obtain ⟨es, hes, _, hok, rfl⟩ := lower_unpack hr
  rw [split_iff hp hn] at hk
  subst hk
  have he : Env l ix d g := hc
  have hin := env_inAx hp hes he
  have ha : AgreeV l.dims (es.map (Expr.eval ix d g)) (rollsIx l.dims d g l.rolls ix) :=
    rolls_agree h2 d g l.rolls _ _ ix (fun k hk => ixs_getElem? hk) (rolled_vals hes ix d g)
  obtain ⟨hkl, _, _⟩ := ctLen_split l.dims l.n hn (fun d hd => (hp d hd).1)
  have hlen : l.pre.length = ctLen l.dims l.n := by simp [Layout.pre]; exact hkl
  have ec : ctDigits l es ix d g = entries l d g (rollsIx l.dims d g l.rolls ix) 0 l.pre := by
    have := cells_entries (d := d) (g := g) h ha hin l.pre [] (by
      simp only [List.length_nil, Nat.zero_add, List.nil_append, hlen])
    exact this
  have esl : slotDigits l es ix d g
      = entries l d g (rollsIx l.dims d g l.rolls ix) (ctLen l.dims l.n) l.post := by
    have := cells_entries (d := d) (g := g) h ha hin l.post l.pre (by
      rw [show l.pre.length + l.post.length = l.dims.length by
        rw [← List.length_append, List.take_append_drop]]
      rw [List.take_length, List.take_append_drop])
    rw [hlen] at this
    unfold slotDigits
    rw [nGap_pcs, nRepl_pcs]
    exact this
  have hdin := digits_inR hp hes he
  rw [digits_append] at hdin
  obtain ⟨i1, i2⟩ := inR_append hdin
  have b1 := mix_bounds _ i1
  have b2 := mix_bounds _ i2
  have hps : prodS (slotDigits l es ix d g) = l.n := by
    unfold slotDigits
    rw [prodS_cells]
    rw [spans_pcs]; exact hex
  rw [hps] at b2
  rw [at_iff hp hes, rowMajor_mix, rowMajor_mix, ← ec, ← esl]
  constructor
  · rintro ⟨_, h3, _, h5, h6⟩; exact ⟨h3.2, h5, h6⟩
  · rintro ⟨h3, h5, h6⟩
    exact ⟨he, ⟨by rw [h5]; exact b1.1, h3⟩, ⟨by rw [h6]; exact b2.1, by rw [h6]; exact b2.2⟩, h5, h6⟩

/-- Row five, column two of an eight by four tensor in column-major order, with
the rows rolled by the columns: row three, in the second ciphertext. -/
example : let l : Layout := ⟨[⟨1, 2, 2⟩, ⟨1, 2, 1⟩, ⟨0, 8, 1⟩], 16, []⟩
    let m : Layout := ⟨[⟨1, 4, 1⟩, ⟨0, 8, 1⟩], 8, [1, 0]⟩
    l.verify = true ∧ (lower l).isSome = true ∧ m.verify = true ∧ (lower m).isSome = true ∧
      rollsIx m.dims (fun _ => 0) (fun _ => 0) m.rolls (fun a => if a = 0 then 5 else 2) 0 = 3 := by
  decide +kernel

end Heir.Rotom
