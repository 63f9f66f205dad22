/- Helper lemmas: the lowered relation. -/
import Verif.Rotom.Lemmas5

namespace Heir.Rotom

/-- The pieces of some dims of a layout. -/
abbrev pcs (l : Layout) (ds : List Dim) : List Piece := ds.map (mkPiece l.dims)

/-- The ciphertext dims and the slot dims. -/
abbrev Layout.pre (l : Layout) : List Dim := l.dims.take (ctLen l.dims l.n)

/-- See `Layout.pre`. -/
abbrev Layout.post (l : Layout) : List Dim := l.dims.drop (ctLen l.dims l.n)

theorem verify_unpack {l : Layout} (h : l.verify = true) :
    Pos l.dims ∧ (∀ d ∈ l.dims, -2 ≤ d.dim) ∧ 0 < l.n ∧ (preprocess l.dims l.n).isSome = true ∧
      rollsOk l.dims l.rolls = true ∧
      (∀ d ∈ l.post, isPow2 d.size = true ∧ isPow2 d.stride = true) ∧ extent l.post = l.n := by
  unfold Layout.verify at h
  simp only [Bool.and_eq_true, decide_eq_true_eq, List.all_eq_true] at h
  obtain ⟨⟨⟨⟨⟨h1, h2⟩, h3⟩, h4⟩, h5⟩, h6⟩ := h
  have hv : ∀ d ∈ l.dims, -2 ≤ d.dim ∧ 0 < d.size ∧ 0 < d.stride := by
    intro d hd
    have := h1 d hd
    unfold Dim.verify at this
    simp only [Bool.and_eq_true, decide_eq_true_eq] at this
    exact ⟨this.1.1, this.1.2, this.2⟩
  exact ⟨fun d hd => (hv d hd).2, fun d hd => (hv d hd).1, h2, h3, h4, h5, h6⟩

theorem preprocess_some {ds : List Dim} {n : Nat} {data : Data} (h : preprocess ds n = some data) :
    0 < n ∧ (∀ id ∈ axisIds ds, radixOk ds id = true) ∧
    data = { n := n, ctPrefixLen := ctLen ds n, axes := axesOf ds, pieces := ds.map (mkPiece ds) } := by
  unfold preprocess at h
  split_ifs at h with h1 h2 h3
  simp only [Option.some.injEq] at h
  refine ⟨by omega, by simpa [List.all_eq_true] using h3, h.symm⟩

/-- The relation that a layout lowers to, given the expressions of its axes. -/
def relOf (l : Layout) (es : List Expr) : Rel :=
  { axes := (axesOf l.dims).map (·.size)
    numCt := numCt (rolledGap l.dims l.rolls) (pcs l l.pre) 0
    n := l.n
    ct := segTerms (rolledGap l.dims l.rolls) (axesOf l.dims) es (pcs l l.pre) 0 0
    slot := segTerms (rolledGap l.dims l.rolls) (axesOf l.dims) es (pcs l l.post)
      (nGap (pcs l l.pre)) (nRepl (pcs l l.pre))
    dB := dBounds (pcs l l.dims)
    gB := gBounds (pcs l l.dims)
    rolled := rolledGap l.dims l.rolls }

/-- The expressions before the rolls. -/
def es0 (ds : List Dim) : List Expr := (List.range (axesOf ds).length).map Expr.i

theorem lower_unpack {l : Layout} {r : Rel} (h : lower l = some r) :
    ∃ es, rollAll (axesOf l.dims) l.dims l.rolls (es0 l.dims) = some es ∧ 0 < l.n ∧
      (∀ id ∈ axisIds l.dims, radixOk l.dims id = true) ∧ r = relOf l es := by
  unfold lower at h
  obtain ⟨data, h1, h2⟩ := Option.bind_eq_some_iff.mp h
  obtain ⟨hn, hok, rfl⟩ := preprocess_some h1
  obtain ⟨es, h3, h4⟩ := Option.bind_eq_some_iff.mp h2
  simp only at h3 h4
  split_ifs at h4 with h5
  simp only [Option.some.injEq] at h4
  refine ⟨es, h3, hn, hok, ?_⟩
  rw [← h4]
  simp only [relOf, List.map_take, List.map_drop, nGap, nRepl, pcs, Layout.pre, Layout.post]

theorem spans_pos {ds l : List Dim} (hp : Pos ds) (hl : ∀ x ∈ l, x ∈ ds) :
    0 < spans (l.map (mkPiece ds)) := by
  induction l with
  | nil => simp [spans]
  | cons x l ih =>
    have := ih (fun y hy => hl y (by simp [hy]))
    unfold spans at *
    simp only [List.map_cons, List.prod_cons, mkPiece_dim]
    exact Nat.mul_pos (hp x (hl x (by simp))).1 this

theorem segTerms_coeff {ds : List Dim} (hp : Pos ds) (rolled : Nat → Bool) (axes : List Dim)
    (es : List Expr) (l : List Dim) (hl : ∀ x ∈ l, x ∈ ds) (gi ri : Nat) :
    ∀ t ∈ segTerms rolled axes es (l.map (mkPiece ds)) gi ri, t.1 ≠ 0 := by
  induction l generalizing gi ri with
  | nil => intro t ht; simp [segTerms] at ht
  | cons x l ih =>
    intro t ht
    rw [List.map_cons, segTerms, List.mem_append] at ht
    rcases ht with ht | ht
    · rw [Option.mem_toList, Option.map_eq_some_iff] at ht
      obtain ⟨e, _, rfl⟩ := ht
      have := spans_pos hp (fun y hy => hl y (List.mem_cons_of_mem x hy))
      simp only
      omega
    · exact ih (fun y hy => hl y (List.mem_cons_of_mem x hy)) _ _ t ht

/-- A layout whose rolls have expressions lowers. -/
theorem lower_of {l : Layout} (hv : l.verify = true) {es : List Expr}
    (h : rollAll (axesOf l.dims) l.dims l.rolls (es0 l.dims) = some es) :
    lower l = some (relOf l es) := by
  obtain ⟨hp, _, hn, hs, _, _, _⟩ := verify_unpack hv
  obtain ⟨data, hd⟩ := Option.isSome_iff_exists.mp hs
  obtain ⟨_, _, he⟩ := preprocess_some hd
  unfold lower
  rw [hd, Option.bind_some, he]
  simp only
  unfold es0 at h
  rw [h, Option.bind_some]
  rw [if_neg]
  · simp only [relOf, List.map_take, List.map_drop, nGap, nRepl, pcs, Layout.pre, Layout.post]
  · simp only [List.any_eq_true, not_exists, not_and, beq_iff_eq]
    intro t ht
    rw [List.mem_append] at ht
    rcases ht with ht | ht
    · rw [← List.map_take] at ht
      exact segTerms_coeff hp _ _ _ _ (fun x hx => List.mem_of_mem_take hx) _ _ t ht
    · rw [← List.map_drop] at ht
      exact segTerms_coeff hp _ _ _ _ (fun x hx => List.mem_of_mem_drop hx) _ _ t ht

/-- The values of the axes before the rolls. -/
def ixs (ds : List Dim) (ix : Nat → Int) : List Int := (List.range (axesOf ds).length).map ix

theorem es0_eval (ds : List Dim) (ix d g : Nat → Int) :
    (es0 ds).map (Expr.eval ix d g) = ixs ds ix := by
  simp [es0, ixs, Expr.eval, Function.comp_def]

theorem ixs_getElem? {ds : List Dim} {ix : Nat → Int} {k : Nat} (h : k < (axesOf ds).length) :
    (ixs ds ix)[k]? = some (ix k) := by
  simp [ixs, h]

theorem ixs_inAx {ds : List Dim} {ix : Nat → Int} (h : Within ix ((axesOf ds).map (·.size))) :
    InAx (axesOf ds) (ixs ds ix) := by
  refine ⟨by simp [ixs], ?_⟩
  intro k a v hk hv
  rw [ixs_getElem? (List.getElem?_eq_some_iff.mp hk).1, Option.some.injEq] at hv
  subst hv
  exact h k a.size (by rw [List.getElem?_map, hk]; rfl)

/-- The values of the axes after the rolls. -/
theorem rolled_vals {l : Layout} {es : List Expr}
    (h : rollAll (axesOf l.dims) l.dims l.rolls (es0 l.dims) = some es) (ix d g : Nat → Int) :
    rollAllV (axesOf l.dims) l.dims d g l.rolls (ixs l.dims ix)
      = some (es.map (Expr.eval ix d g)) := by
  have := rollAll_eval (axesOf l.dims) l.dims ix d g l.rolls (es0 l.dims)
  rw [h, es0_eval, Option.map_some] at this
  exact this.symm

/-- The digits of a layout. -/
def digitsOf (l : Layout) (es : List Expr) (ix d g : Nat → Int) : List (Nat × Int) :=
  cells (rolledGap l.dims l.rolls) d g (es.map (Expr.eval ix d g)) (pcs l l.dims) 0 0

/-- The digits of the ciphertext dims. -/
def ctDigits (l : Layout) (es : List Expr) (ix d g : Nat → Int) : List (Nat × Int) :=
  cells (rolledGap l.dims l.rolls) d g (es.map (Expr.eval ix d g)) (pcs l l.pre) 0 0

/-- The digits of the slot dims. -/
def slotDigits (l : Layout) (es : List Expr) (ix d g : Nat → Int) : List (Nat × Int) :=
  cells (rolledGap l.dims l.rolls) d g (es.map (Expr.eval ix d g)) (pcs l l.post)
    (nGap (pcs l l.pre)) (nRepl (pcs l l.pre))

theorem digits_append (l : Layout) (es : List Expr) (ix d g : Nat → Int) :
    digitsOf l es ix d g = ctDigits l es ix d g ++ slotDigits l es ix d g := by
  unfold digitsOf ctDigits slotDigits
  have : pcs l l.dims = pcs l l.pre ++ pcs l l.post := by
    unfold pcs; rw [← List.map_append, List.take_append_drop]
  rw [this, cells_append, Nat.zero_add, Nat.zero_add]

/-- The variables are within their bounds. -/
def Env (l : Layout) (ix d g : Nat → Int) : Prop :=
  Within ix ((axesOf l.dims).map (·.size)) ∧ Within d (dBounds (pcs l l.dims)) ∧
  ∀ (k b : Nat), (gBounds (pcs l l.dims))[k]? = some b → rolledGap l.dims l.rolls k = true →
    0 ≤ g k ∧ g k < b

theorem env_inAx {l : Layout} {es : List Expr} (hp : Pos l.dims)
    (h : rollAll (axesOf l.dims) l.dims l.rolls (es0 l.dims) = some es) {ix d g : Nat → Int}
    (he : Env l ix d g) : InAx (axesOf l.dims) (es.map (Expr.eval ix d g)) :=
  all_inAx hp l.rolls _ _ (rolled_vals h ix d g) (ixs_inAx he.1)

theorem digits_inR {l : Layout} {es : List Expr} (hp : Pos l.dims)
    (h : rollAll (axesOf l.dims) l.dims l.rolls (es0 l.dims) = some es) {ix d g : Nat → Int}
    (he : Env l ix d g) : InR (digitsOf l es ix d g) := by
  apply cells_inR hp _ _ _ _ (env_inAx hp h he) _ (fun x hx => hx)
  · intro k b hk
    rw [Nat.zero_add]; exact he.2.1 k b hk
  · intro k b hk hr
    rw [Nat.zero_add] at hr ⊢; exact he.2.2 k b hk hr

theorem inR_append {a b : List (Nat × Int)} (h : InR (a ++ b)) : InR a ∧ InR b :=
  ⟨fun c hc => h c (by simp [hc]), fun c hc => h c (by simp [hc])⟩

theorem at_iff {l : Layout} {es : List Expr} (hp : Pos l.dims)
    (h : rollAll (axesOf l.dims) l.dims l.rolls (es0 l.dims) = some es) {ix d g : Nat → Int}
    {ct slot : Int} : (relOf l es).At ix d g ct slot ↔
      Env l ix d g ∧ (0 ≤ ct ∧ ct < (relOf l es).numCt) ∧ (0 ≤ slot ∧ slot < l.n) ∧
      ct = mix (ctDigits l es ix d g) ∧ slot = mix (slotDigits l es ix d g) := by
  have key : Env l ix d g →
      addr ix d g (relOf l es).ct = mix (ctDigits l es ix d g) ∧
      addr ix d g (relOf l es).slot = mix (slotDigits l es ix d g) := by
    intro he
    have hin := env_inAx hp h he
    exact ⟨addr_segTerms hp _ ix d g es hin _ (fun x hx => List.mem_of_mem_take hx) _ _,
      addr_segTerms hp _ ix d g es hin _ (fun x hx => List.mem_of_mem_drop hx) _ _⟩
  constructor
  · rintro ⟨h1, h2, h3, h4, h5, h6, h7⟩
    have he : Env l ix d g := ⟨h1, h4, h5⟩
    obtain ⟨k1, k2⟩ := key he
    exact ⟨he, h2, h3, by rw [h6, k1], by rw [h7, k2]⟩
  · rintro ⟨he, h2, h3, h6, h7⟩
    obtain ⟨k1, k2⟩ := key he
    exact ⟨he.1, h2, h3, he.2.1, he.2.2, by rw [h6, k1], by rw [h7, k2]⟩

theorem mkPiece_repl (ds : List Dim) (d : Dim) :
    ((mkPiece ds d).kind == Kind.repl) = d.isReplicate := by
  unfold mkPiece
  by_cases h1 : d.isGap = true
  · have : d.isReplicate = false := by
      unfold Dim.isGap at h1; unfold Dim.isReplicate
      simp only [beq_iff_eq] at h1
      rw [h1]; rfl
    simp [h1, this]
  · by_cases h2 : d.isReplicate = true
    · simp [h1, h2]
    · split_ifs <;> simp_all

theorem mkPiece_gap (ds : List Dim) (d : Dim) :
    ((mkPiece ds d).kind == Kind.gap) = d.isGap := by
  unfold mkPiece
  by_cases h1 : d.isGap = true
  · simp [h1]
  · by_cases h2 : d.isReplicate = true
    · simp [h1, h2]
    · split_ifs <;> simp_all

theorem nRepl_pcs (ds l : List Dim) : nRepl (l.map (mkPiece ds)) = (l.filter Dim.isReplicate).length := by
  unfold nRepl
  rw [List.filter_map, List.length_map]
  congr 2
  funext d
  exact mkPiece_repl ds d

theorem nGap_pcs (ds l : List Dim) : nGap (l.map (mkPiece ds)) = (l.filter Dim.isGap).length := by
  unfold nGap
  rw [List.filter_map, List.length_map]
  congr 2
  funext d
  exact mkPiece_gap ds d

theorem rolledGap_lt {ds : List Dim} : ∀ {rolls : List Int} {o : Nat},
    rolledGap ds rolls o = true → o < (ds.filter Dim.isGap).length
  | [], o, h => by simp [rolledGap] at h
  | [_], o, h => by simp [rolledGap] at h
  | i :: j :: rest, o, h => by
    unfold rolledGap at h
    rw [Bool.or_eq_true] at h
    rcases h with h | h
    · split_ifs at h
      cases hj : ds[j.toNat]? with
      | none => rw [hj] at h; simp at h
      | some dj =>
        rw [hj] at h
        simp only [Bool.and_eq_true, beq_iff_eq] at h
        rw [← h.2]
        exact gapIndex_lt hj h.1
    · exact rolledGap_lt h

theorem nodup_axis {ds : List Dim} {k : Nat} {id : Int} (h : (axisIds ds)[k]? = some id) :
    (axisIds ds).idxOf id = k := by
  obtain ⟨hl, he⟩ := List.getElem?_eq_some_iff.mp h
  rw [← he]
  exact List.Nodup.idxOf_getElem (axisIds_nodup ds) k hl

/-- Equal digits come from equal variables. -/
theorem digits_inj {l : Layout} {es : List Expr} (hp : Pos l.dims)
    (hr : rollsOk l.dims l.rolls = true) (hok : ∀ id ∈ axisIds l.dims, radixOk l.dims id = true)
    (h : rollAll (axesOf l.dims) l.dims l.rolls (es0 l.dims) = some es)
    {ix d g ix' d' g' : Nat → Int} (he : Env l ix d g) (he' : Env l ix' d' g')
    (heq : digitsOf l es ix d g = digitsOf l es ix' d' g') :
    (∀ k, k < (axesOf l.dims).length → ix k = ix' k) ∧
    (∀ k, k < nRepl (pcs l l.dims) → d k = d' k) ∧
    (∀ k, rolledGap l.dims l.rolls k = true → g k = g' k) := by
  obtain ⟨c1, c2, c3⟩ := cells_read _ _ _ _ _ _ _ _ _ _ heq
  simp only [Nat.zero_add] at c1 c2
  have hg : ∀ k, rolledGap l.dims l.rolls k = true → g k = g' k := by
    intro k hk
    exact c2 k (by rw [pcs, nGap_pcs]; exact rolledGap_lt hk) hk
  refine ⟨?_, c1, hg⟩
  have hv := env_inAx hp h he
  have hv' := env_inAx hp h he'
  -- the values after the rolls agree
  have hvs : es.map (Expr.eval ix d g) = es.map (Expr.eval ix' d' g') := by
    apply List.ext_getElem?
    intro k
    by_cases hk : k < (axesOf l.dims).length
    · have hax : (axesOf l.dims)[k]? = some (axesOf l.dims)[k] := List.getElem?_eq_getElem hk
      obtain ⟨id, hid, hida⟩ := getElem?_axesOf hax
      obtain ⟨e1, e2, e3⟩ := getD_of_inAx hv hax
      obtain ⟨f1, f2, f3⟩ := getD_of_inAx hv' hax
      rw [e1, f1]
      congr 1
      rw [hida] at e3 f3
      refine dig_inj (List.mem_of_getElem? hid) hp (hok id (List.mem_of_getElem? hid)) _ _ e2 e3 f2 f3 ?_
      intro x hx ht hxd
      have := c3 (mkPiece l.dims x) (List.mem_map_of_mem hx) (mkPiece_trav ht).1
      rw [(mkPiece_trav ht).2.2, hxd, nodup_axis hid] at this
      exact this
    · rw [List.getElem?_eq_none (by rw [hv.1]; omega), List.getElem?_eq_none (by rw [hv'.1]; omega)]
  have hixs : ixs l.dims ix = ixs l.dims ix' := by
    refine all_inj hp l.rolls _ _ _ hr ⟨?_, hg⟩ (rolled_vals h ix d g)
      (hvs ▸ rolled_vals h ix' d' g') (ixs_inAx he.1) (ixs_inAx he'.1)
    intro k hk
    exact c1 k (by rw [pcs, nRepl_pcs]; exact hk)
  intro k hk
  have := congrArg (fun t : List Int => t[k]?) hixs
  simp only [ixs_getElem? hk, Option.some.injEq] at this
  exact this

/-- Any digits come from some variables. -/
theorem digits_onto {l : Layout} {es : List Expr} (hp : Pos l.dims)
    (hr : rollsOk l.dims l.rolls = true) (hok : ∀ id ∈ axisIds l.dims, radixOk l.dims id = true)
    (h : rollAll (axesOf l.dims) l.dims l.rolls (es0 l.dims) = some es)
    (T : List (Nat × Int)) (hT : T.map (·.1) = l.dims.map (·.size)) (hT' : InR T)
    (hz : ZG (rolledGap l.dims l.rolls) (pcs l l.dims) 0 T) :
    ∃ ix d g, Env l ix d g ∧ digitsOf l es ix d g = T := by
  have hTs : T.map (·.1) = (pcs l l.dims).map (·.dim.size) := by
    rw [hT, pcs, List.map_map]
    apply List.map_congr_left
    intro x _
    simp [mkPiece_dim]
  have hlen : T.length = l.dims.length := by
    have := congrArg List.length hT
    simpa using this
  let zs : List (Dim × Int) := l.dims.zip (T.map (·.2))
  have hzs : zs.map (·.1) = l.dims := by
    simp only [zs]
    rw [List.map_fst_zip]
    simp [hlen]
  have hzr : ∀ z ∈ zs, 0 ≤ z.2 ∧ z.2 < z.1.size := by
    intro z hzm
    obtain ⟨k, hk, he⟩ := List.mem_iff_getElem.mp hzm
    have hk1 : k < l.dims.length := by simp [zs] at hk; omega
    have hk2 : k < T.length := by omega
    have e1 : z = (l.dims[k], T[k].2) := by
      rw [← he]; simp [zs]
    have e2 : T[k].1 = l.dims[k].size := by
      have := congrArg (fun t : List Nat => t[k]?) hT
      simpa [hk1, hk2] using this
    rw [e1]
    simp only
    rw [← e2]
    exact hT' _ (List.getElem_mem hk2)
  -- the values of the axes after the rolls
  have hch : ∀ id : Int, ∃ a : Int, id ∈ axisIds l.dims → (0 ≤ a ∧ a < fullExtent l.dims id ∧
      ∀ z ∈ zs, z.1.isTrav = true → z.1.dim = id → dig (mkPiece l.dims z.1) a = z.2) := by
    intro id
    by_cases hid : id ∈ axisIds l.dims
    · obtain ⟨a, ha⟩ := dig_onto hid hp (hok id hid) zs hzs hzr
      exact ⟨a, fun _ => ha⟩
    · exact ⟨0, fun hc => absurd hc hid⟩
  choose av hav using hch
  let vs : List Int := (axisIds l.dims).map av
  have hvs : InAx (axesOf l.dims) vs := by
    refine ⟨by simp [vs, axesOf], ?_⟩
    intro k a v hk hkv
    obtain ⟨id, hid, rfl⟩ := getElem?_axesOf hk
    have : v = av id := by
      simp only [vs] at hkv
      rw [List.getElem?_map, hid, Option.map_some, Option.some.injEq] at hkv
      exact hkv.symm
    rw [this]
    have := hav id (List.mem_of_getElem? hid)
    exact ⟨this.1, this.2.1⟩
  let d : Nat → Int := fun k => (kindVals .repl (pcs l l.dims) T).getD k 0
  let g : Nat → Int := fun k => (kindVals .gap (pcs l l.dims) T).getD k 0
  obtain ⟨ws, hw1, hw2⟩ := all_onto (d := d) (g := g) hp l.rolls _ _ vs hr
    (rolled_vals h (fun _ => 0) d g) hvs
  let ix : Nat → Int := fun k => ws.getD k 0
  have hix : ixs l.dims ix = ws := by
    apply List.ext_getElem?
    intro k
    by_cases hk : k < (axesOf l.dims).length
    · rw [ixs_getElem? hk]
      exact (getD_of_inAx hw1 (List.getElem?_eq_getElem hk)).1.symm
    · rw [List.getElem?_eq_none (by simp [ixs]; omega), List.getElem?_eq_none (by rw [hw1.1]; omega)]
  have hev : es.map (Expr.eval ix d g) = vs := by
    have := rolled_vals h ix d g
    rw [hix, hw2, Option.some.injEq] at this
    exact this.symm
  refine ⟨ix, d, g, ⟨?_, ?_, ?_⟩, ?_⟩
  · intro k b hk
    rw [List.getElem?_map] at hk
    obtain ⟨a, ha1, rfl⟩ := Option.map_eq_some_iff.mp hk
    exact (getD_of_inAx hw1 ha1).2
  · intro k b hk
    exact kindVals_bounds .repl _ T hTs hT' k b hk
  · intro k b hk _
    exact kindVals_bounds .gap _ T hTs hT' k b hk
  · unfold digitsOf
    rw [hev]
    apply cells_write _ _ _ _ _ _ _ _ hTs hz
    · intro k; rw [Nat.zero_add]
    · intro k; rw [Nat.zero_add]
    · intro pc hpc hk
      obtain ⟨k, hk', he⟩ := List.mem_iff_getElem.mp hpc
      have hk1 : k < l.dims.length := by simp [pcs] at hk'; omega
      have hk2 : k < T.length := by omega
      have e1 : pc = (mkPiece l.dims l.dims[k], T[k]) := by
        rw [← he]; simp [pcs]
      rw [e1] at hk ⊢
      simp only at hk ⊢
      have ht := mkPiece_kind_trav hk
      have hmem : l.dims[k] ∈ l.dims := List.getElem_mem hk1
      have hidm : l.dims[k].dim ∈ axisIds l.dims := (mem_axisIds _ _).mpr ⟨_, hmem, ht, rfl⟩
      have hz1 : (l.dims[k], T[k].2) ∈ zs := by
        refine List.mem_iff_getElem.mpr ⟨k, by simp [zs]; omega, by simp [zs]⟩
      have := (hav _ hidm).2.2 _ hz1 ht rfl
      have hget : vs.getD (mkPiece l.dims l.dims[k]).axis 0 = av l.dims[k].dim := by
        rw [(mkPiece_trav ht).2.2, List.getD_eq_getElem?_getD]
        simp only [vs]
        rw [List.getElem?_map, List.getElem?_eq_getElem (List.idxOf_lt_length_iff.mpr hidm),
          List.getElem_idxOf]
        rfl
      rw [hget]; exact this

end Heir.Rotom
