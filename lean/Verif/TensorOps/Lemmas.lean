import Mathlib.Data.List.Nodup
import Mathlib.Algebra.BigOperators.Group.List.Basic
import Mathlib.Tactic.Ring
import Mathlib.Data.List.Induction
import Verif.TensorOps.Model

/-! # Lemmas about indices and loops -/

namespace Heir.TensorOps

/-- An index is within the shape. -/
def InBox (shape idx : List Nat) : Prop := List.Forall₂ (fun d i => i < d) shape idx

theorem mem_box {shape idx : List Nat} : idx ∈ box shape ↔ InBox shape idx := by
  induction shape generalizing idx with
  | nil =>
    simp only [box, List.mem_singleton, InBox]
    constructor
    · rintro rfl; exact List.Forall₂.nil
    · intro h; cases h; rfl
  | cons d ds ih =>
    simp only [box, List.mem_flatMap, List.mem_range, List.mem_map, InBox]
    constructor
    · rintro ⟨i, hi, r, hr, rfl⟩
      exact List.Forall₂.cons hi (ih.1 hr)
    · intro h
      cases h with
      | cons h1 h2 => exact ⟨_, h1, _, ih.2 h2, rfl⟩

theorem box_nodup (shape : List Nat) : (box shape).Nodup := by
  induction shape with
  | nil => simp [box]
  | cons d ds ih =>
    rw [box, List.nodup_flatMap]
    refine ⟨fun i _ => ih.map (fun a b h => by simpa using h), ?_⟩
    refine List.Nodup.pairwise_of_forall_ne List.nodup_range ?_
    intro i _ j _ hij
    simp only [Function.onFun, List.disjoint_left, List.mem_map]
    rintro x ⟨a, _, rfl⟩ ⟨b, _, h⟩
    simp only [List.cons.injEq] at h
    exact hij h.1.symm

/-! ### Column-major order -/

theorem offsetLoop_add (shape idx : List Nat) (m o : Nat) :
    offsetLoop shape idx m o = o + m * offsetLoop shape idx 1 0 := by
  induction shape generalizing idx m o with
  | nil => cases idx <;> simp [offsetLoop]
  | cons d ds ih =>
    cases idx with
    | nil => simp [offsetLoop]
    | cons i is =>
      simp only [offsetLoop]
      rw [ih is (m * d), ih is (1 * d)]
      ring

theorem offset_cons (d i : Nat) (ds is : List Nat) :
    offset (d :: ds) (i :: is) = i + d * offset ds is := by
  rw [offset, offsetLoop, offsetLoop_add, offset]; ring

theorem offset_snoc {ds is : List Nat} (h : ds.length = is.length) (d i : Nat) :
    offset (ds ++ [d]) (is ++ [i]) = offset ds is + ds.prod * i := by
  induction ds generalizing is with
  | nil =>
    have : is = [] := by simpa using h.symm
    subst this
    simp [offset, offsetLoop]
  | cons a as ih =>
    cases is with
    | nil => simp at h
    | cons b bs =>
      rw [List.cons_append, List.cons_append, offset_cons, offset_cons, ih (by simpa using h),
        List.prod_cons]
      ring

theorem offset_lt {shape idx : List Nat} (h : InBox shape idx) : offset shape idx < shape.prod := by
  induction h with
  | nil => simp [offset, offsetLoop]
  | @cons d i ds is hd hrest ih =>
    rw [offset_cons, List.prod_cons]
    have : d * (offset ds is + 1) ≤ d * ds.prod := Nat.mul_le_mul_left _ ih
    rw [Nat.mul_add, Nat.mul_one] at this
    omega

theorem flatMap_length {α : Type} (old : List α) (g : Nat → α → α) (d : Nat) :
    ((List.range d).flatMap fun i => old.map (g i)).length = d * old.length := by
  induction d with
  | zero => simp
  | succ d ih =>
    rw [List.range_succ, List.flatMap_append, List.length_append, ih]
    simp [Nat.add_mul]

theorem flatMap_get {α : Type} (old : List α) (g : Nat → α → α) {d i j : Nat} (hi : i < d)
    (hj : j < old.length) :
    ((List.range d).flatMap fun i => old.map (g i))[j + old.length * i]? = (old[j]?).map (g i) := by
  induction d with
  | zero => omega
  | succ d ih =>
    have hl := flatMap_length old g d
    rw [List.range_succ, List.flatMap_append]
    rcases Nat.lt_or_ge i d with h | h
    · have : old.length * (i + 1) ≤ old.length * d := Nat.mul_le_mul_left _ h
      rw [Nat.mul_add, Nat.mul_one] at this
      rw [List.getElem?_append_left (by rw [hl, Nat.mul_comm d]; omega), ih h]
    · have : i = d := by omega
      subst this
      rw [List.getElem?_append_right (by rw [hl, Nat.mul_comm i]; omega), hl, Nat.mul_comm i,
        Nat.add_sub_cancel]
      simp

theorem extend_eq {old : List (List Nat)} (h : old ≠ []) (d : Nat) :
    extend old d = (List.range d).flatMap fun i => old.map (fun r => r ++ [i]) := by
  simp [extend, h]

theorem prod_pos {l : List Nat} (h : ∀ d ∈ l, 0 < d) : 0 < l.prod := by
  induction l with
  | nil => simp
  | cons x xs ih =>
    rw [List.prod_cons]
    exact Nat.mul_pos (h x List.mem_cons_self) (ih fun d hd => h d (List.mem_cons_of_mem _ hd))

theorem inBox_append {ds is es js : List Nat} (hlen : ds.length = is.length)
    (h : InBox (ds ++ es) (is ++ js)) : InBox ds is ∧ InBox es js := by
  induction ds generalizing is with
  | nil =>
    have : is = [] := by simpa using hlen.symm
    subst this
    exact ⟨List.Forall₂.nil, h⟩
  | cons d ds ih =>
    cases is with
    | nil => simp at hlen
    | cons i is =>
      cases h with
      | cons h1 h2 =>
        obtain ⟨h3, h4⟩ := ih (by simpa using hlen) h2
        exact ⟨List.Forall₂.cons h1 h3, h4⟩

theorem indices_spec {shape : List Nat} (hne : shape ≠ []) (hpos : ∀ d ∈ shape, 0 < d) :
    (getAllIndices shape).length = shape.prod ∧
    ∀ idx, InBox shape idx → (getAllIndices shape)[offset shape idx]? = some idx := by
  induction shape using List.reverseRecOn with
  | nil => exact absurd rfl hne
  | append_singleton ds d ih =>
    have hd : 0 < d := hpos d (by simp)
    rw [getAllIndices, List.foldl_append, List.foldl_cons, List.foldl_nil, ← getAllIndices]
    by_cases hds : ds = []
    · subst hds
      have e : extend (getAllIndices []) d = (List.range d).map fun i => [i] := by
        simp only [getAllIndices, List.foldl_nil, extend, if_true, List.map_nil, List.append_nil]
        induction d with
        | zero => rfl
        | succ d _ => exact List.flatMap_pure_eq_map (fun i => [i]) _
      rw [e]
      refine ⟨by simp, ?_⟩
      intro idx h
      cases h with
      | cons h1 h2 =>
        cases h2
        simp [offset, offsetLoop, h1]
    · obtain ⟨h1, h2⟩ := ih hds (fun x hx => hpos x (List.mem_append_left _ hx))
      have hp : 0 < ds.prod := prod_pos fun x hx => hpos x (List.mem_append_left _ hx)
      have hnil : getAllIndices ds ≠ [] := by
        intro hc; rw [hc] at h1; simp only [List.length_nil] at h1; omega
      rw [extend_eq hnil]
      refine ⟨by rw [flatMap_length _ (fun i r => r ++ [i]), h1, List.prod_append, List.prod_singleton,
        Nat.mul_comm], ?_⟩
      intro idx h
      obtain ⟨is, i, rfl⟩ : ∃ is i, idx = is ++ [i] := by
        have := h.length_eq
        rcases idx.eq_nil_or_concat with rfl | ⟨l, x, rfl⟩
        · simp at this
        · exact ⟨l, x, by simp⟩
      have hlen : ds.length = is.length := by
        have := h.length_eq; simpa using this
      have hsplit := inBox_append hlen h
      have hi : i < d := by
        have := hsplit.2
        cases this with
        | cons x _ => exact x
      rw [offset_snoc hlen, ← h1, flatMap_get _ (fun i r => r ++ [i]) hi (by
        rw [h1]; exact offset_lt hsplit.1), h2 is hsplit.1]
      rfl

/-! ### Loops -/

theorem foldl_flatMap {α β : Type} (f : β → α → β) (g : Nat → List α) (l : List Nat) (b : β) :
    (l.flatMap g).foldl f b = l.foldl (fun b i => (g i).foldl f b) b := by
  induction l generalizing b with
  | nil => rfl
  | cons x xs ih => rw [List.flatMap_cons, List.foldl_append, ih]; rfl

theorem foldlM_flatMap {α β : Type} (f : β → α → Option β) (g : Nat → List α) (l : List Nat) (b : β) :
    (l.flatMap g).foldlM f b = l.foldlM (fun b i => (g i).foldlM f b) b := by
  induction l generalizing b with
  | nil => rfl
  | cons x xs ih =>
    rw [List.flatMap_cons, List.foldlM_append, List.foldlM_cons]
    congr 1
    funext c
    exact ih c

theorem elementLoops_eq {α : Type} (op : List (Arg α) → α) (os : List (Operand α)) (shape ivs : List Nat)
    (t : List Nat → α) : elementLoops op os shape ivs t =
      ((box shape).map (ivs ++ ·)).foldl (fun t p => put t p (op (os.map (newOperand p)))) t := by
  induction shape generalizing ivs t with
  | nil => simp [elementLoops, box]
  | cons d ds ih =>
    rw [elementLoops, box, List.map_flatMap, foldl_flatMap]
    congr 1
    funext t i
    rw [ih, List.map_map]
    congr 1
    refine List.map_congr_left fun r _ => ?_
    simp

theorem carriedLoops_eq {α : Type}
    (body : List (List Nat → α) → List Nat → Option (List (List Nat → α))) (shape ivs : List Nat)
    (t : List (List Nat → α)) : carriedLoops body shape ivs t =
      ((box shape).map (ivs ++ ·)).foldlM body t := by
  induction shape generalizing ivs t with
  | nil => simp [carriedLoops, box]
  | cons d ds ih =>
    rw [carriedLoops, box, List.map_flatMap, foldlM_flatMap]
    congr 1
    funext t i
    rw [ih, List.map_map]
    congr 1
    refine List.map_congr_left fun r _ => ?_
    simp

/-- Writing at different places. -/
theorem foldl_put {α : Type} (m : List Nat → List Nat) (f : List Nat → α → α) (l : List (List Nat))
    (hn : l.Nodup) (hinj : ∀ p ∈ l, ∀ q ∈ l, m p = m q → p = q) (t : List Nat → α) :
    (∀ p ∈ l, l.foldl (fun t p => put t (m p) (f p (t (m p)))) t (m p) = f p (t (m p))) ∧
    ∀ x, (∀ p ∈ l, m p ≠ x) → l.foldl (fun t p => put t (m p) (f p (t (m p)))) t x = t x := by
  induction l generalizing t with
  | nil => simp
  | cons q qs ih =>
    rw [List.nodup_cons] at hn
    obtain ⟨h1, h2⟩ := ih hn.2 (fun a ha b hb => hinj a (List.mem_cons_of_mem _ ha) b
      (List.mem_cons_of_mem _ hb)) (put t (m q) (f q (t (m q))))
    have hq : ∀ p ∈ qs, m p ≠ m q := by
      intro p hp hc
      have := hinj p (List.mem_cons_of_mem _ hp) q List.mem_cons_self hc
      exact hn.1 (this ▸ hp)
    rw [List.foldl_cons]
    refine ⟨?_, ?_⟩
    · intro p hp
      rcases List.mem_cons.1 hp with rfl | hp
      · rw [h2 _ hq]; simp [put]
      · rw [h1 p hp]; simp [put, hq p hp]
    · intro x hx
      rw [h2 x fun p hp => hx p (List.mem_cons_of_mem _ hp)]
      simp [put, (hx q List.mem_cons_self).symm]

theorem sliceIndex_eq (n : Nat) (ivs : List Nat) (hn : n ≤ ivs.length) : ∀ (k d : Nat) (rest : List Nat),
    rest.length = d + k - max n d → sliceIndex (List.range n) ivs d k rest =
      ((ivs.take n).drop d).take k ++ rest
  | 0, d, rest, h => by
    have : rest = [] := List.length_eq_zero_iff.1 (by omega)
    simp [sliceIndex, this]
  | k + 1, d, rest, h => by
    rw [sliceIndex]
    by_cases hd : d < n
    · rw [if_pos (List.mem_range.2 hd), sliceIndex_eq n ivs hn k (d + 1) rest (by omega)]
      have hlt : d < (ivs.take n).length := by rw [List.length_take]; omega
      rw [List.drop_eq_getElem_cons hlt, List.take_succ_cons, List.cons_append]
      congr 1
      rw [List.getElem_take, List.getD_eq_getElem?_getD, List.getElem?_eq_getElem (by omega)]
      rfl
    · rw [if_neg (by simpa using hd)]
      cases rest with
      | nil => simp at h; omega
      | cons r rs =>
        simp only [List.headD_cons, List.tail_cons]
        rw [sliceIndex_eq n ivs hn k (d + 1) rs (by simp at h; omega)]
        have e1 : (ivs.take n).drop d = [] := List.drop_eq_nil_of_le (by rw [List.length_take]; omega)
        have e2 : (ivs.take n).drop (d + 1) = [] := List.drop_eq_nil_of_le (by rw [List.length_take]; omega)
        rw [e1, e2]
        simp

end Heir.TensorOps
