import Verif.TensorOps.Lemmas

/-! # Lemmas about slices -/

namespace Heir.TensorOps

/-- The sizes of a slice. -/
def sizesOf (sl : List Dim) : List Nat := sl.map Dim.size

/-- A slice with static offsets and positive sizes and strides, within the large tensor, of a tensor
without dimensions of size one. -/
structure Fine (env : Nat → Nat) (destShape shape : List Nat) (sl : List Dim) : Prop where
  static : ∀ d ∈ sl, (∃ n, d.off = .static n) ∧ 0 < d.stride ∧ 0 < d.size
  reduced : shape = (sizesOf sl).filter (1 < ·)
  within : ∀ k ∈ box (sizesOf sl), place env sl k ∈ box destShape

theorem relate_place (env : Nat → Nat) {sl : List Dim} (hs : ∀ d ∈ sl, ∃ n, d.off = .static n)
    {k : List Nat} (hk : InBox (sizesOf sl) k) :
    ∃ src, InBox ((sizesOf sl).filter (1 < ·)) src ∧ relate sl src = some (place env sl k) := by
  induction sl generalizing k with
  | nil => cases hk; exact ⟨[], List.Forall₂.nil, rfl⟩
  | cons d ds ih =>
    rw [sizesOf, List.map_cons] at hk
    cases hk with
    | @cons _ i _ is hi hrest =>
      obtain ⟨src, h1, h2⟩ := ih (fun e he => hs e (List.mem_cons_of_mem _ he)) hrest
      obtain ⟨n, hn⟩ := hs d List.mem_cons_self
      by_cases hd : 1 < d.size
      · refine ⟨i :: src, ?_, ?_⟩
        · rw [sizesOf, List.map_cons, List.filter_cons_of_pos (by simpa using hd)]
          exact List.Forall₂.cons hi h1
        · rw [relate, hn]
          simp only [if_pos hd, List.tail_cons, h2, List.headD_cons, Option.map_some, place,
            List.zipWith_cons_cons, Off.val, hn, Nat.mul_comm i]
      · refine ⟨src, ?_, ?_⟩
        · rw [sizesOf, List.map_cons, List.filter_cons_of_neg (by simpa using hd)]
          exact h1
        · have : i = 0 := by omega
          subst this
          rw [relate, hn]
          simp only [if_neg hd, h2, Option.map_some, place, List.zipWith_cons_cons, Off.val, hn,
            Nat.mul_zero, Nat.add_zero]

theorem place_of_relate (env : Nat → Nat) {sl : List Dim} (hs : ∀ d ∈ sl, 0 < d.size) {src r : List Nat}
    (hk : InBox ((sizesOf sl).filter (1 < ·)) src) (h : relate sl src = some r) :
    ∃ k, InBox (sizesOf sl) k ∧ r = place env sl k := by
  induction sl generalizing src r with
  | nil =>
    simp only [relate, Option.some.injEq] at h
    exact ⟨[], List.Forall₂.nil, by rw [← h]; rfl⟩
  | cons d ds ih =>
    have hs' := fun e he => hs e (List.mem_cons_of_mem _ he)
    have hd0 := hs d List.mem_cons_self
    rw [relate] at h
    split at h
    · simp at h
    · rename_i n hn
      split at h
      · rename_i hd
        rw [sizesOf, List.map_cons, List.filter_cons_of_pos (by simpa using hd)] at hk
        cases hk with
        | @cons _ i _ is hi hrest =>
          simp only [List.tail_cons, List.headD_cons, Option.map_eq_some_iff] at h
          obtain ⟨r', h1, rfl⟩ := h
          obtain ⟨k, h2, rfl⟩ := ih hs' hrest h1
          refine ⟨i :: k, List.Forall₂.cons hi h2, ?_⟩
          simp only [place, List.zipWith_cons_cons, hn, Off.val, Nat.mul_comm i]
      · rename_i hd
        rw [sizesOf, List.map_cons, List.filter_cons_of_neg (by simpa using hd)] at hk
        simp only [Option.map_eq_some_iff] at h
        obtain ⟨r', h1, rfl⟩ := h
        obtain ⟨k, h2, rfl⟩ := ih hs' hk h1
        refine ⟨0 :: k, List.Forall₂.cons hd0 h2, ?_⟩
        simp only [place, List.zipWith_cons_cons, hn, Off.val, Nat.mul_zero, Nat.add_zero]

theorem place_inj (env : Nat → Nat) {sl : List Dim} (hs : ∀ d ∈ sl, 0 < d.stride) {k k' : List Nat}
    (hk : InBox (sizesOf sl) k) (hk' : InBox (sizesOf sl) k') (h : place env sl k = place env sl k') :
    k = k' := by
  induction sl generalizing k k' with
  | nil => cases hk; cases hk'; rfl
  | cons d ds ih =>
    rw [sizesOf, List.map_cons] at hk hk'
    cases hk with
    | cons h1 h2 =>
      cases hk' with
      | cons h3 h4 =>
        simp only [place, List.zipWith_cons_cons, List.cons.injEq, Nat.add_left_cancel_iff] at h
        rw [Nat.eq_of_mul_eq_mul_left (hs d List.mem_cons_self) h.1,
          ih (fun e he => hs e (List.mem_cons_of_mem _ he)) h2 h4 h.2]

theorem mem_range {env : Nat → Nat} {destShape shape : List Nat} {sl : List Dim}
    (h : Fine env destShape shape sl) {r : List Nat} :
    r ∈ range sl shape destShape ↔ ∃ k ∈ box (sizesOf sl), r = place env sl k := by
  simp only [range, List.mem_filter, List.mem_filterMap, decide_eq_true_eq]
  constructor
  · rintro ⟨⟨src, h1, h2⟩, _⟩
    rw [h.reduced, mem_box] at h1
    obtain ⟨k, h3, h4⟩ := place_of_relate env (fun d hd => (h.static d hd).2.2) h1 h2
    exact ⟨k, mem_box.2 h3, h4⟩
  · rintro ⟨k, h1, rfl⟩
    obtain ⟨src, h2, h3⟩ := relate_place env (fun d hd => (h.static d hd).1) (mem_box.1 h1)
    exact ⟨⟨src, by rw [h.reduced]; exact mem_box.2 h2, h3⟩, h.within k h1⟩

theorem disjoint_iff {env : Nat → Nat} {destShape shape shape' : List Nat} {sl sl' : List Dim}
    (h : Fine env destShape shape sl) (h' : Fine env destShape shape' sl') :
    disjoint destShape sl shape sl' shape' = true ↔
      ∀ k ∈ box (sizesOf sl), ∀ k' ∈ box (sizesOf sl'), place env sl k ≠ place env sl' k' := by
  simp only [disjoint, List.all_eq_true, decide_eq_true_eq]
  constructor
  · intro hd k hk k' hk' he
    exact hd _ ((mem_range h).2 ⟨k, hk, rfl⟩) ((mem_range h').2 ⟨k', hk', he⟩)
  · intro hd r hr hr'
    obtain ⟨k, hk, rfl⟩ := (mem_range h).1 hr
    obtain ⟨k', hk', he⟩ := (mem_range h').1 hr'
    exact hd k hk k' hk' he

/-- All insertions are of fine slices. -/
def AllFine {α : Type} (env : Nat → Nat) (destShape : List Nat) : Prog α → Prop
  | .other _ => True
  | .empty => True
  | .insert _ shape sl dest => Fine env destShape shape sl ∧ AllFine env destShape dest

theorem at_insert_same {α : Type} (drop : List Nat → List Nat → List Nat → List Nat) (env : Nat → Nat)
    {v : List Nat → Option α} {shape : List Nat} {sl : List Dim} {dest : Prog α}
    (hs : ∀ d ∈ sl, 0 < d.stride) {k : List Nat} (hk : k ∈ box (sizesOf sl)) :
    (Prog.insert v shape sl dest).at drop env (place env sl k) = v (drop (sizesOf sl) shape k) := by
  have hk' : k ∈ box (sl.map Dim.size) := hk
  rw [Prog.at]
  cases hf : (box (sl.map Dim.size)).find? fun k' => place env sl k' == place env sl k with
  | none =>
    rw [List.find?_eq_none] at hf
    exact absurd (by simp) (hf k hk')
  | some k' =>
    have h1 := List.find?_some hf
    simp only [beq_iff_eq] at h1
    have h2 := List.mem_of_find?_eq_some hf
    rw [place_inj env hs (mem_box.1 h2) (mem_box.1 hk') h1]
    rfl

theorem at_insert_other {α : Type} (drop : List Nat → List Nat → List Nat → List Nat) (env : Nat → Nat)
    {v : List Nat → Option α} {shape : List Nat} {sl : List Dim} {dest : Prog α} {idx : List Nat}
    (h : ∀ k ∈ box (sizesOf sl), place env sl k ≠ idx) :
    (Prog.insert v shape sl dest).at drop env idx = dest.at drop env idx := by
  rw [Prog.at]
  cases hf : (box (sl.map Dim.size)).find? fun k' => place env sl k' == idx with
  | none => rfl
  | some k' =>
    have h1 := List.find?_some hf
    simp only [beq_iff_eq] at h1
    exact absurd h1 (h k' (List.mem_of_find?_eq_some hf))

end Heir.TensorOps
