/- Helper lemmas: the axes of a layout and the digits that its pieces read. -/
import Verif.Rotom.Lemmas
import Mathlib.Data.List.Nodup
import Mathlib.Tactic.NormNum

namespace Heir.Rotom

/-! ### The map of axes -/

theorem mem_insertAxis (d x : Int) (l : List Int) : x ∈ insertAxis d l ↔ x = d ∨ x ∈ l := by
  induction l with
  | nil => simp [insertAxis]
  | cons y ys ih =>
    simp only [insertAxis]
    by_cases h1 : d < y
    · simp [h1]
    · by_cases h2 : d = y
      · rw [if_neg h1, if_pos h2, h2]; simp
      · rw [if_neg h1, if_neg h2, List.mem_cons, ih, List.mem_cons]
        tauto

theorem sorted_insertAxis (d : Int) (l : List Int) (h : l.Pairwise (· < ·)) :
    (insertAxis d l).Pairwise (· < ·) := by
  induction l with
  | nil => simp [insertAxis]
  | cons y ys ih =>
    rw [List.pairwise_cons] at h
    simp only [insertAxis]
    by_cases h1 : d < y
    · rw [if_pos h1, List.pairwise_cons, List.pairwise_cons]
      refine ⟨?_, h.1, h.2⟩
      intro a ha
      rcases List.mem_cons.mp ha with rfl | ha
      · exact h1
      · exact lt_trans h1 (h.1 a ha)
    · by_cases h2 : d = y
      · rw [if_neg h1, if_pos h2, List.pairwise_cons]; exact h
      · rw [if_neg h1, if_neg h2, List.pairwise_cons]
        refine ⟨?_, ih h.2⟩
        intro a ha
        rcases (mem_insertAxis d a ys).mp ha with rfl | ha
        · omega
        · exact h.1 a ha

theorem axes_fold (l : List Dim) (acc : List Int) (h : acc.Pairwise (· < ·)) :
    (l.foldl (fun acc d => insertAxis d.dim acc) acc).Pairwise (· < ·) ∧
    ∀ x, x ∈ l.foldl (fun acc d => insertAxis d.dim acc) acc ↔ x ∈ acc ∨ ∃ d ∈ l, d.dim = x := by
  induction l generalizing acc with
  | nil => simpa using h
  | cons d l ih =>
    obtain ⟨h1, h2⟩ := ih (insertAxis d.dim acc) (sorted_insertAxis _ _ h)
    refine ⟨h1, ?_⟩
    intro x
    rw [List.foldl_cons, h2, mem_insertAxis]
    simp only [List.mem_cons, exists_eq_or_imp]
    constructor
    · rintro ((rfl | h) | h)
      · exact Or.inr (Or.inl rfl)
      · exact Or.inl h
      · exact Or.inr (Or.inr h)
    · rintro (h | rfl | h)
      · exact Or.inl (Or.inr h)
      · exact Or.inl (Or.inl rfl)
      · exact Or.inr h

theorem axisIds_sorted (ds : List Dim) : (axisIds ds).Pairwise (· < ·) :=
  (axes_fold _ [] List.Pairwise.nil).1

theorem axisIds_nodup (ds : List Dim) : (axisIds ds).Nodup :=
  (axisIds_sorted ds).imp (fun h => ne_of_lt h)

theorem mem_axisIds (ds : List Dim) (x : Int) :
    x ∈ axisIds ds ↔ ∃ d ∈ ds, d.isTrav = true ∧ d.dim = x := by
  unfold axisIds
  rw [(axes_fold (ds.filter Dim.isTrav) [] List.Pairwise.nil).2]
  simp [List.mem_filter, and_assoc]

/-! ### Parts of an axis -/

/-- The parts of an axis. -/
def parts (ds : List Dim) (id : Int) : List Dim := ds.filter (fun d => d.isTrav && d.dim == id)

theorem mem_parts {ds : List Dim} {id : Int} {d : Dim} :
    d ∈ parts ds id ↔ d ∈ ds ∧ d.isTrav = true ∧ d.dim = id := by
  simp [parts, List.mem_filter]

theorem size_dvd_extent {d : Dim} {l : List Dim} (h : d ∈ l) : d.size ∣ extent l := by
  induction l with
  | nil => simp at h
  | cons x l ih =>
    rw [extent_cons]
    rcases List.mem_cons.mp h with rfl | h
    · exact Nat.dvd_mul_right _ _
    · exact Dvd.dvd.mul_left (ih h) _

theorem size_dvd_full {ds : List Dim} {d : Dim} (h : d ∈ ds) (ht : d.isTrav = true) :
    d.size ∣ fullExtent ds d.dim := size_dvd_extent (mem_parts.mpr ⟨h, ht, rfl⟩)

theorem two_dvd_full {ds : List Dim} {d : Dim} (ht : d.isTrav = true) (i j : Nat) (hij : i < j)
    (hi : ds[i]? = some d) (hj : ds[j]? = some d) : d.size * d.size ∣ fullExtent ds d.dim := by
  induction ds generalizing i j with
  | nil => simp at hi
  | cons x ds ih =>
    have hp : fullExtent (x :: ds) d.dim
        = (if x.isTrav && x.dim == d.dim then x.size else 1) * fullExtent ds d.dim := by
      unfold fullExtent
      by_cases h : (x.isTrav && x.dim == d.dim) = true
      · rw [List.filter_cons_of_pos (by exact h), extent_cons, if_pos h]
      · rw [List.filter_cons_of_neg (by exact h), if_neg h, Nat.one_mul]
    rw [hp]
    cases j with
    | zero => omega
    | succ j =>
      rw [List.getElem?_cons_succ] at hj
      cases i with
      | zero =>
        rw [List.getElem?_cons_zero, Option.some.injEq] at hi
        subst hi
        rw [if_pos (by simp [ht])]
        exact Nat.mul_dvd_mul (Nat.dvd_refl _) (size_dvd_full (List.mem_of_getElem? hj) ht)
      | succ i =>
        rw [List.getElem?_cons_succ] at hi
        exact Dvd.dvd.mul_left (ih i j (by omega) hi hj) _

theorem full_pos {ds : List Dim} (id : Int) (hs : ∀ d ∈ ds, 0 < d.size) : 0 < fullExtent ds id :=
  extent_pos _ (fun d hd => hs d (List.mem_filter.mp hd).1)

/-! ### Digits -/

/-- The digit read by a piece from the value of its axis. -/
def dig (p : Piece) (a : Int) : Int :=
  let a' := if 1 < p.divBy then a / p.divBy else a
  if 0 < p.modBy then a' % p.modBy else a'

theorem digit_eval (ix d g : Nat → Int) (p : Piece) (e : Expr) :
    (digit p e).eval ix d g = dig p (e.eval ix d g) := by
  unfold digit dig
  by_cases h1 : 1 < p.divBy <;> by_cases h2 : 0 < p.modBy <;> simp [h1, h2, Expr.eval]

theorem trav_flags {d : Dim} (h : d.isTrav = true) : d.isGap = false ∧ d.isReplicate = false := by
  unfold Dim.isTrav at h
  simpa using h

theorem mkPiece_trav {ds : List Dim} {d : Dim} (h : d.isTrav = true) :
    (mkPiece ds d).kind = .trav ∧ (mkPiece ds d).dim = d ∧
      (mkPiece ds d).axis = (axisIds ds).idxOf d.dim := by
  obtain ⟨h1, h2⟩ := trav_flags h
  by_cases hc : pieceCount ds d.dim = 1 <;> simp [mkPiece, h1, h2, hc]

theorem mkPiece_dim (ds : List Dim) (d : Dim) : (mkPiece ds d).dim = d := by
  unfold mkPiece
  split_ifs <;> rfl

theorem mkPiece_kind_trav {ds : List Dim} {d : Dim} (h : (mkPiece ds d).kind = .trav) :
    d.isTrav = true := by
  unfold mkPiece at h
  by_cases h1 : d.isGap = true
  · simp [h1] at h
  · by_cases h2 : d.isReplicate = true
    · simp [h1, h2] at h
    · simp [Dim.isTrav, h1, h2]

/-- With one piece, the axis is the piece. -/
theorem parts_single {ds : List Dim} {d : Dim} (h : d ∈ ds) (ht : d.isTrav = true)
    (hc : pieceCount ds d.dim = 1) : parts ds d.dim = [d] := by
  have hm : d ∈ parts ds d.dim := mem_parts.mpr ⟨h, ht, rfl⟩
  have hl : (parts ds d.dim).length = 1 := hc
  obtain ⟨x, hx⟩ := List.length_eq_one_iff.mp hl
  rw [hx] at hm ⊢
  simp at hm
  rw [hm]

theorem full_single {ds : List Dim} {d : Dim} (h : d ∈ ds) (ht : d.isTrav = true)
    (hc : pieceCount ds d.dim = 1) : fullExtent ds d.dim = d.size := by
  have := parts_single h ht hc
  unfold fullExtent
  unfold parts at this
  rw [this, extent_cons, extent_nil, Nat.mul_one]

/-- In a sorted list that passes, every part divides what follows. -/
theorem radix_spec (l : List Dim) (e f : Nat) (h : radix e l = some f) :
    e ∣ f ∧ ∀ d ∈ l, e ∣ d.stride ∧ d.stride * d.size ∣ f ∧ 0 < d.size := by
  induction l generalizing e with
  | nil =>
    simp only [radix, Option.some.injEq] at h
    simp [h]
  | cons x l ih =>
    simp only [radix] at h
    by_cases hx : x.size = 0 ∨ x.stride ≠ e
    · simp [hx] at h
    · rw [if_neg hx] at h
      obtain ⟨h1, h2⟩ := ih _ h
      simp only [not_or, not_not] at hx
      refine ⟨Nat.dvd_trans (Nat.dvd_mul_right _ _) h1, ?_⟩
      intro d hd
      rcases List.mem_cons.mp hd with rfl | hd
      · refine ⟨by rw [hx.2], ?_, by omega⟩
        rw [hx.2]; exact h1
      · obtain ⟨a, b, c⟩ := h2 d hd
        exact ⟨Nat.dvd_trans (Nat.dvd_mul_right _ _) a, b, c⟩

theorem radix_inj (l : List Dim) (e f a b : Nat) (h : radix e l = some f) (hab : a % e = b % e)
    (hd : ∀ d ∈ l, (a / d.stride) % d.size = (b / d.stride) % d.size) : a % f = b % f := by
  induction l generalizing e with
  | nil =>
    simp only [radix, Option.some.injEq] at h
    rw [← h]; exact hab
  | cons x l ih =>
    simp only [radix] at h
    by_cases hx : x.size = 0 ∨ x.stride ≠ e
    · simp [hx] at h
    · rw [if_neg hx] at h
      simp only [not_or, not_not] at hx
      apply ih _ h
      · have := hd x (by simp)
        rw [hx.2] at this
        rw [Nat.mod_mul, Nat.mod_mul, hab, this]
      · intro d hdd
        exact hd d (by simp [hdd])

theorem radix_onto (l : List (Dim × Nat)) (e f : Nat) (h : radix e (l.map (·.1)) = some f)
    (he : 0 < e) (hv : ∀ z ∈ l, z.2 < z.1.size) :
    ∃ a : Nat, (a + 1) * e ≤ f ∧
      ∀ c, c < e → ∀ z ∈ l, ((a * e + c) / z.1.stride) % z.1.size = z.2 := by
  induction l generalizing e with
  | nil =>
    simp only [List.map_nil, radix, Option.some.injEq] at h
    exact ⟨0, by omega, by simp⟩
  | cons z l ih =>
    obtain ⟨x, v⟩ := z
    simp only [List.map_cons, radix] at h
    by_cases hx : x.size = 0 ∨ x.stride ≠ e
    · simp [hx] at h
    · rw [if_neg hx] at h
      simp only [not_or, not_not] at hx
      have hvx : v < x.size := hv (x, v) (by simp)
      obtain ⟨a, h1, h2⟩ := ih (e * x.size) h (Nat.mul_pos he (by omega))
        (fun z hz => hv z (by simp [hz]))
      refine ⟨v + x.size * a, ?_, ?_⟩
      · refine Nat.le_trans ?_ h1
        calc (v + x.size * a + 1) * e ≤ (x.size * (a + 1)) * e :=
              Nat.mul_le_mul_right _ (by rw [Nat.mul_add]; omega)
          _ = (a + 1) * (e * x.size) := by ring
      · intro c hc z hz
        rcases List.mem_cons.mp hz with rfl | hz
        · simp only
          rw [hx.2, Nat.add_comm, Nat.add_mul_div_right _ _ he, Nat.div_eq_of_lt hc, Nat.zero_add,
            Nat.add_mul_mod_self_left, Nat.mod_eq_of_lt hvx]
        · have hlt : v * e + c < e * x.size := by
            calc v * e + c < v * e + e := by omega
              _ = (v + 1) * e := by ring
              _ ≤ x.size * e := Nat.mul_le_mul_right _ hvx
              _ = e * x.size := by ring
          have := h2 (v * e + c) hlt z hz
          have e1 : (v + x.size * a) * e + c = a * (e * x.size) + (v * e + c) := by ring
          rw [e1]; exact this

/-- What the check of an axis gives, for a dim of that axis. -/
theorem radixOk_use {ds : List Dim} {id : Int} (h : radixOk ds id = true)
    (hc : pieceCount ds id ≠ 1) :
    radix 1 ((parts ds id).insertionSort partLe) = some (fullExtent ds id) := by
  unfold radixOk at h
  rw [if_neg hc] at h
  simpa [parts] using h

/-- The digit as a quotient and a remainder. -/
theorem dig_nat {ds : List Dim} {d : Dim} (h : d ∈ ds) (ht : d.isTrav = true)
    (hs : 0 < d.size) (hst : 0 < d.stride) (a : Nat)
    (ha : a < fullExtent ds d.dim) :
    dig (mkPiece ds d) a = (if pieceCount ds d.dim = 1 then ((a % d.size : Nat) : Int)
      else ((a / d.stride % d.size : Nat) : Int)) := by
  obtain ⟨h1, h2⟩ := trav_flags ht
  by_cases hc : pieceCount ds d.dim = 1
  · rw [full_single h ht hc] at ha
    simp [mkPiece, h1, h2, hc, dig, Nat.mod_eq_of_lt ha]
  · rw [if_neg hc]
    have hp : mkPiece ds d = ⟨d, .trav, (axisIds ds).idxOf d.dim, d.stride,
        if d.stride * d.size < fullExtent ds d.dim then d.size else 0⟩ := by
      simp [mkPiece, h1, h2, hc]
    rw [hp]
    unfold dig
    simp only
    have e1 : (if 1 < d.stride then (a : Int) / (d.stride : Int) else (a : Int))
        = ((a / d.stride : Nat) : Int) := by
      by_cases hd : 1 < d.stride
      · rw [if_pos hd]; push_cast; rfl
      · have : d.stride = 1 := by omega
        simp [this]
    rw [e1]
    by_cases hlt : d.stride * d.size < fullExtent ds d.dim
    · rw [if_pos hlt, if_pos hs]
      push_cast; rfl
    · rw [if_neg hlt, if_neg (by omega)]
      have : a / d.stride < d.size := Nat.div_lt_of_lt_mul (by omega)
      rw [Nat.mod_eq_of_lt this]

theorem dig_bounds {ds : List Dim} {d : Dim} (h : d ∈ ds) (ht : d.isTrav = true)
    (hs : 0 < d.size) (hst : 0 < d.stride) (a : Int)
    (h0 : 0 ≤ a) (ha : a < fullExtent ds d.dim) :
    0 ≤ dig (mkPiece ds d) a ∧ dig (mkPiece ds d) a < d.size := by
  obtain ⟨a, rfl⟩ := Int.eq_ofNat_of_zero_le h0
  rw [dig_nat h ht hs hst a (by exact_mod_cast ha)]
  split_ifs
  · exact ⟨Int.natCast_nonneg _, by exact_mod_cast Nat.mod_lt _ hs⟩
  · exact ⟨Int.natCast_nonneg _, by exact_mod_cast Nat.mod_lt _ hs⟩

/-- The digits of an axis determine its value. -/
theorem dig_inj {ds : List Dim} {id : Int} (hid : id ∈ axisIds ds)
    (hpos : ∀ d ∈ ds, 0 < d.size ∧ 0 < d.stride) (hok : radixOk ds id = true) (a b : Int)
    (ha0 : 0 ≤ a) (ha : a < fullExtent ds id) (hb0 : 0 ≤ b) (hb : b < fullExtent ds id)
    (he : ∀ d ∈ ds, d.isTrav = true → d.dim = id →
      dig (mkPiece ds d) a = dig (mkPiece ds d) b) : a = b := by
  obtain ⟨a, rfl⟩ := Int.eq_ofNat_of_zero_le ha0
  obtain ⟨b, rfl⟩ := Int.eq_ofNat_of_zero_le hb0
  have ha' : a < fullExtent ds id := by exact_mod_cast ha
  have hb' : b < fullExtent ds id := by exact_mod_cast hb
  have hab : a = b := by
    by_cases hc : pieceCount ds id = 1
    · obtain ⟨d, hd, ht, rfl⟩ := (mem_axisIds ds id).mp hid
      have := he d hd ht rfl
      rw [dig_nat hd ht (hpos d hd).1 (hpos d hd).2 a ha',
        dig_nat hd ht (hpos d hd).1 (hpos d hd).2 b hb', if_pos hc, if_pos hc] at this
      have hf := full_single hd ht hc
      rw [hf] at ha' hb'
      rw [Nat.mod_eq_of_lt ha', Nat.mod_eq_of_lt hb'] at this
      exact_mod_cast this
    · have hr := radixOk_use hok hc
      have := radix_inj _ _ _ a b hr (by simp [Nat.mod_one]) (by
        intro d hd
        have hd' := (List.perm_insertionSort partLe (parts ds id)).mem_iff.mp hd
        obtain ⟨h1, h2, h3⟩ := mem_parts.mp hd'
        subst h3
        have := he d h1 h2 rfl
        rw [dig_nat h1 h2 (hpos d h1).1 (hpos d h1).2 a ha',
          dig_nat h1 h2 (hpos d h1).1 (hpos d h1).2 b hb', if_neg hc, if_neg hc] at this
        exact_mod_cast this)
      rwa [Nat.mod_eq_of_lt ha', Nat.mod_eq_of_lt hb'] at this
  rw [hab]

/-- Any digits of an axis are those of some value of it. -/
theorem dig_onto {ds : List Dim} {id : Int} (hid : id ∈ axisIds ds)
    (hpos : ∀ d ∈ ds, 0 < d.size ∧ 0 < d.stride) (hok : radixOk ds id = true)
    (zs : List (Dim × Int)) (hz : zs.map (·.1) = ds)
    (hr : ∀ z ∈ zs, 0 ≤ z.2 ∧ z.2 < z.1.size) :
    ∃ a : Int, 0 ≤ a ∧ a < fullExtent ds id ∧
      ∀ z ∈ zs, z.1.isTrav = true → z.1.dim = id → dig (mkPiece ds z.1) a = z.2 := by
  have hmem : ∀ z ∈ zs, z.1 ∈ ds := fun z hz' => hz ▸ List.mem_map_of_mem hz'
  -- the parts with their digits
  let ws := (zs.filter (fun z => z.1.isTrav && z.1.dim == id))
  have hws : ws.map (·.1) = parts ds id := by
    unfold parts
    rw [← hz, List.filter_map]
    rfl
  have hfull : 0 < fullExtent ds id := full_pos id (fun d hd => (hpos d hd).1)
  by_cases hc : pieceCount ds id = 1
  · obtain ⟨d, hd, ht, rfl⟩ := (mem_axisIds ds id).mp hid
    have hps := parts_single hd ht hc
    rw [hps] at hws
    have hl : ws.length = 1 := by
      have := congrArg List.length hws
      simpa using this
    obtain ⟨w, hw⟩ := List.length_eq_one_iff.mp hl
    have hwz : w ∈ zs := (List.mem_filter.mp (hw ▸ List.mem_singleton_self w : w ∈ ws)).1
    have hw1 : w.1 = d := by simpa [hw] using hws
    obtain ⟨h0, h1⟩ := hr w hwz
    have hf := full_single hd ht hc
    refine ⟨w.2, h0, by rw [hf, ← hw1]; exact h1, ?_⟩
    intro z hz' hzt hzd
    have hzw : z ∈ ws := List.mem_filter.mpr ⟨hz', by simp [hzt, hzd]⟩
    rw [hw, List.mem_singleton] at hzw
    subst hzw
    obtain ⟨v, hv⟩ := Int.eq_ofNat_of_zero_le h0
    rw [hv, hw1, dig_nat hd ht (hpos d hd).1 (hpos d hd).2 v
      (by rw [hf, ← hw1]; rw [hv] at h1; exact_mod_cast h1), if_pos hc]
    rw [hv, hw1] at h1
    have h1' : v < d.size := by exact_mod_cast h1
    rw [Nat.mod_eq_of_lt h1']
  · have hrad := radixOk_use hok hc
    have hperm := (List.perm_insertionSort partLe (parts ds id)).symm
    obtain ⟨us, hu1, hu2⟩ := perm_lift (fun z : Dim × Int => z.1) hperm ws hws
    let vs : List (Dim × Nat) := us.map (fun z => (z.1, z.2.toNat))
    have hvs : vs.map (·.1) = (parts ds id).insertionSort partLe := by
      rw [← hu2]; simp [vs]
    rw [← hvs] at hrad
    have husz : ∀ z ∈ us, z ∈ zs := fun z hz' => (List.mem_filter.mp (hu1.mem_iff.mp hz')).1
    obtain ⟨a, ha1, ha2⟩ := radix_onto vs 1 _ hrad Nat.one_pos (by
      intro z hz'
      obtain ⟨y, hy, rfl⟩ := List.mem_map.mp hz'
      obtain ⟨h0, h1⟩ := hr y (husz y hy)
      simp only
      omega)
    have halt : a < fullExtent ds id := by omega
    refine ⟨a, Int.natCast_nonneg _, by exact_mod_cast halt, ?_⟩
    intro z hz' hzt hzd
    have hzw : z ∈ ws := List.mem_filter.mpr ⟨hz', by simp [hzt, hzd]⟩
    have hzu : z ∈ us := hu1.mem_iff.mpr hzw
    have := ha2 0 Nat.one_pos (z.1, z.2.toNat) (List.mem_map_of_mem (f := fun z : Dim × Int => (z.1, z.2.toNat)) hzu)
    subst hzd
    rw [dig_nat (hmem z hz') hzt (hpos _ (hmem z hz')).1 (hpos _ (hmem z hz')).2 a halt, if_neg hc]
    simp only [Nat.mul_one, Nat.add_zero] at this
    rw [this]
    have := (hr z hz').1
    omega

end Heir.Rotom
