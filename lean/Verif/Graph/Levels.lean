import Verif.Graph.Lemmas
import Mathlib.Data.List.GetD

/-! # Levels -/

namespace Heir.Graph

open Graph

variable {V : Type} [LinearOrder V]

omit [LinearOrder V] in
theorem foldl_max (f : V → Int) (L : List V) (m : Int) :
    m ≤ L.foldl (fun m e => max m (f e)) m ∧ (∀ e ∈ L, f e ≤ L.foldl (fun m e => max m (f e)) m) ∧
    (L.foldl (fun m e => max m (f e)) m = m ∨ ∃ e ∈ L, L.foldl (fun m e => max m (f e)) m = f e) := by
  induction L generalizing m with
  | nil => simp
  | cons a L ih =>
    obtain ⟨h1, h2, h3⟩ := ih (max m (f a))
    simp only [List.foldl_cons]
    refine ⟨(le_max_left _ _).trans h1, ?_, ?_⟩
    · intro e he
      rcases List.mem_cons.1 he with rfl | he
      · exact (le_max_right _ _).trans h1
      · exact h2 e he
    · rcases h3 with h3 | ⟨e, he, h3⟩
      · rcases max_choice m (f a) with h | h
        · exact Or.inl (h3.trans h)
        · exact Or.inr ⟨a, by simp, h3.trans h⟩
      · exact Or.inr ⟨e, by simp [he], h3⟩

theorem levelOf_ok {g : Graph V} {v : V} (hv : v ∈ g.vertices) {lv : V → Option Int}
    (h : ∀ w ∈ g.out v, ∃ k : Nat, lv w = some (k : Int) ∧ Height (fun s t => t ∈ g.out s) w k) :
    ∃ k : Nat, levelOf g lv v = k ∧ Height (fun s t => t ∈ g.out s) v k := by
  unfold levelOf
  have e : g.edgesOutOf v = g.out v := by simp [edgesOutOf, hv]
  rw [e]
  obtain ⟨h1, h2, h3⟩ := foldl_max (fun e => (lv e).getD 0) (g.out v) (-1)
  generalize (g.out v).foldl (fun m e => max m ((lv e).getD 0)) (-1) = r at h1 h2 h3
  obtain ⟨k, hk⟩ := Int.eq_ofNat_of_zero_le (show 0 ≤ 1 + r by omega)
  refine ⟨k, hk, ?_, ?_⟩
  · rcases h3 with h3 | ⟨w, hw, h3⟩
    · have : k = 0 := by omega
      subst this
      exact ⟨v, .nil v⟩
    · obtain ⟨j, hj, ⟨u, hu⟩, _⟩ := h w hw
      rw [hj, Option.getD_some] at h3
      have : k = j + 1 := by omega
      subst this
      exact ⟨u, .cons hw hu⟩
  · intro u m hm
    cases hm with
    | nil => omega
    | cons hw hu =>
      rename_i w n
      obtain ⟨j, hj, _, hmax⟩ := h w hw
      have h4 := h2 w hw
      rw [hj, Option.getD_some] at h4
      have := hmax u n hu
      omega

/-- The loop over the reversed order. -/
theorem levelLoop_ok {g : Graph V} : ∀ (vs : List V) (lv : V → Option Int) (mx : Int),
    (∀ v ∈ vs, v ∈ g.vertices) →
    (∀ v n, lv v = some n → ∃ k : Nat, n = k ∧ Height (fun s t => t ∈ g.out s) v k) →
    (∀ a v b, vs = a ++ v :: b → ∀ w ∈ g.out v, (lv w).isSome ∨ w ∈ a) →
    0 ≤ mx → (∀ v n, lv v = some n → n ≤ mx) →
    (∀ v n, (levelLoop g vs lv mx).1 v = some n →
      ∃ k : Nat, n = k ∧ Height (fun s t => t ∈ g.out s) v k) ∧
    0 ≤ (levelLoop g vs lv mx).2 ∧
    (∀ v n, (levelLoop g vs lv mx).1 v = some n → n ≤ (levelLoop g vs lv mx).2) ∧
    (∀ v, (lv v).isSome ∨ v ∈ vs → ((levelLoop g vs lv mx).1 v).isSome) := by
  intro vs
  induction vs with
  | nil =>
    intro lv mx _ h1 _ h3 h4
    exact ⟨h1, h3, h4, by simp [levelLoop]⟩
  | cons v vs ih =>
    intro lv mx h0 h1 h2 h3 h4
    have hsucc : ∀ w ∈ g.out v,
        ∃ k : Nat, lv w = some (k : Int) ∧ Height (fun s t => t ∈ g.out s) w k := by
      intro w hw
      rcases h2 [] v vs rfl w hw with h | h
      · obtain ⟨n, hn⟩ := Option.isSome_iff_exists.1 h
        obtain ⟨k, rfl, hk⟩ := h1 w n hn
        exact ⟨k, hn, hk⟩
      · simp at h
    obtain ⟨k, hk, hh⟩ := levelOf_ok (h0 v (by simp)) hsucc
    obtain ⟨a1, a2, a3, a4⟩ := ih (upd lv v (some (levelOf g lv v))) (max (levelOf g lv v) mx)
      (fun u hu => h0 u (by simp [hu]))
      (by
        intro u n hu
        by_cases huv : u = v
        · subst huv
          rw [upd_same] at hu
          exact ⟨k, by rw [← Option.some.inj hu, hk], hh⟩
        · rw [upd_ne _ _ huv] at hu
          exact h1 u n hu)
      (by
        intro a u b e w hw
        rcases h2 (v :: a) u b (by rw [e]; rfl) w hw with h | h
        · left
          by_cases hwv : w = v
          · subst hwv; simp
          · rw [upd_ne _ _ hwv]; exact h
        · rcases List.mem_cons.1 h with rfl | h
          · left; simp
          · exact Or.inr h)
      (h3.trans (le_max_right _ _))
      (by
        intro u n hu
        by_cases huv : u = v
        · subst huv
          rw [upd_same] at hu
          rw [← Option.some.inj hu]; exact le_max_left _ _
        · rw [upd_ne _ _ huv] at hu
          exact (h4 u n hu).trans (le_max_right _ _))
    refine ⟨a1, a2, a3, ?_⟩
    intro u hu
    apply a4
    by_cases huv : u = v
    · subst huv; left; simp
    · rcases hu with hu | hu
      · left; rw [upd_ne _ _ huv]; exact hu
      · right; simpa [huv] using hu

omit [LinearOrder V] in
theorem pushAll (f : V → Int) : ∀ (vs : List V) (output : List (List V)),
    (∀ v ∈ vs, 0 ≤ f v ∧ f v < output.length) →
    ∃ res, vs.foldlM (fun output v => pushAt output (f v) v) output = some res ∧
      res.length = output.length ∧
      ∀ i : Nat, i < output.length →
        res.getD i [] = output.getD i [] ++ vs.filter fun v => f v = i := by
  intro vs
  induction vs with
  | nil => intro output _; exact ⟨output, rfl, rfl, by simp⟩
  | cons v vs ih =>
    intro output h
    obtain ⟨h1, h2⟩ := h v (by simp)
    have hlt : (f v).toNat < output.length := by omega
    have e : pushAt output (f v) v =
        some (output.set (f v).toNat (output[(f v).toNat] ++ [v])) := by
      simp [pushAt, h1, hlt]
    obtain ⟨res, hr, hl, hi⟩ := ih (output.set (f v).toNat (output[(f v).toNat] ++ [v]))
      (fun u hu => by rw [List.length_set]; exact h u (by simp [hu]))
    refine ⟨res, ?_, by rw [hl, List.length_set], ?_⟩
    · rw [List.foldlM_cons, e]; exact hr
    · intro i hilt
      rw [hi i (by rw [List.length_set]; exact hilt), List.getD_eq_getElem _ _ hilt,
        List.getD_eq_getElem _ _ (by rw [List.length_set]; exact hilt), List.getElem_set]
      by_cases hfi : (f v).toNat = i
      · subst hfi
        have e1 : f v = ((f v).toNat : Int) := by omega
        rw [if_pos rfl, List.filter_cons, if_pos (by simpa using e1)]
        simp
      · have e1 : f v ≠ (i : Int) := by omega
        rw [if_neg hfi, List.filter_cons, if_neg (by simpa using e1)]

omit [LinearOrder V] in
theorem height_unique {E : V → V → Prop} {v : V} {a b : Nat} (ha : Height E v a)
    (hb : Height E v b) : a = b := by
  obtain ⟨⟨x, hx⟩, ha'⟩ := ha
  obtain ⟨⟨y, hy⟩, hb'⟩ := hb
  exact le_antisymm (hb' _ _ hx) (ha' _ _ hy)

theorem sortGraphByLevels_ok {cmds : List (Cmd V)} {g : Graph V} (h : Describes cmds g)
    (hac : Acyclic cmds) :
    ∃ levels, g.sortGraphByLevels = some (some levels) ∧ levels ≠ [] ∧
      (∀ i, (levels.getD i []).Nodup) ∧
      (∀ v, IsVertex cmds v → ∃ n, Height (IsEdge cmds) v n ∧ n < levels.length) ∧
      ∀ i, i < levels.length → ∀ v, v ∈ levels.getD i [] ↔
        IsVertex cmds v ∧ Height (IsEdge cmds) v (levels.length - 1 - i) := by
  obtain ⟨l, hl, ht⟩ := (topologicalSort_ok h).1 hac
  have hg := h.wf
  have hE : (fun s t => t ∈ g.out s) = IsEdge cmds := by
    funext s t; exact propext (h.edge s t)
  have hmem : ∀ v, v ∈ l ↔ v ∈ g.vertices := fun v => (ht.mem v).trans (h.vertex v).symm
  obtain ⟨a1, a2, a3, a4⟩ := levelLoop_ok (g := g) l.reverse (fun _ => none) 0
    (fun v hv => (hmem v).1 (List.mem_reverse.1 hv)) (by simp)
    (by
      intro a v b e w hw
      right
      have e' : l = b.reverse ++ v :: a.reverse := by
        have := congrArg List.reverse e
        simpa using this
      obtain ⟨c, d, f, e2⟩ := ht.forward v w ((h.edge v w).1 hw)
      have hnd := ht.nodup
      have hc : c = b.reverse ∧ d ++ w :: f = a.reverse := by
        have e3 : b.reverse ++ v :: a.reverse = c ++ v :: (d ++ w :: f) := e'.symm.trans e2
        have hnb : v ∉ b.reverse := by
          intro hv; rw [e', List.nodup_append] at hnd; exact hnd.2.2 v hv v (by simp) rfl
        have hnc : v ∉ c := by
          intro hv; rw [e2, List.nodup_append] at hnd; exact hnd.2.2 v hv v (by simp) rfl
        have i1 : l.idxOf v = b.reverse.length := by
          rw [e', List.idxOf_append_of_notMem hnb, List.idxOf_cons_self]; simp
        have i2 : l.idxOf v = c.length := by
          rw [e2, List.idxOf_append_of_notMem hnc, List.idxOf_cons_self]; simp
        obtain ⟨x, y⟩ := List.append_inj e3 (i1.symm.trans i2)
        exact ⟨x.symm, by simpa using y.symm⟩
      have : w ∈ a.reverse := by rw [← hc.2]; simp
      simpa using this)
    le_rfl (by simp)
  unfold sortGraphByLevels
  rw [hl]
  simp only
  generalize hR : levelLoop g l.reverse (fun _ => none) 0 = R at a1 a2 a3 a4
  obtain ⟨lv, mx⟩ := R
  simp only at a1 a2 a3 a4 ⊢
  rw [hE] at a1
  have hlv : ∀ v ∈ g.vertices, ∃ k : Nat, lv v = some (k : Int) ∧ Height (IsEdge cmds) v k ∧
      (k : Int) ≤ mx := by
    intro v hv
    obtain ⟨n, hn⟩ := Option.isSome_iff_exists.1 (a4 v (Or.inr (by simpa using (hmem v).2 hv)))
    obtain ⟨k, rfl, hk⟩ := a1 v n hn
    exact ⟨k, hn, hk, a3 v _ hn⟩
  obtain ⟨res, hr, hlen, hi⟩ := pushAll (fun v => mx - (lv v).getD 0) g.vertices
    (List.replicate (mx + 1).toNat []) (by
      intro v hv
      obtain ⟨k, hk, _, hle⟩ := hlv v hv
      simp only [hk, Option.getD_some, List.length_replicate]
      omega)
  rw [List.length_replicate] at hlen hi
  have hget : ∀ i : Nat, i < (mx + 1).toNat →
      res.getD i [] = g.vertices.filter fun v => mx - (lv v).getD 0 = (i : Int) := by
    intro i hlt
    rw [hi i hlt, List.getD_eq_getElem _ _ (by simpa using hlt)]
    simp
  refine ⟨res, by rw [hr]; rfl, ?_, ?_, ?_, ?_⟩
  · intro h0; rw [h0] at hlen; simp at hlen; omega
  · intro i
    by_cases hlt : i < (mx + 1).toNat
    · rw [hget i hlt]
      exact (sorted_nodup hg.vertices).filter _
    · rw [List.getD_eq_default _ _ (by omega)]; exact List.nodup_nil
  · intro v hv
    obtain ⟨k, _, hh, hle⟩ := hlv v ((h.vertex v).2 hv)
    exact ⟨k, hh, by omega⟩
  · intro i hlt v
    rw [hget i (by omega), List.mem_filter, ← h.vertex, decide_eq_true_eq]
    constructor
    · rintro ⟨hv, he⟩
      obtain ⟨k, hk, hh, hle⟩ := hlv v hv
      rw [hk, Option.getD_some] at he
      have : res.length - 1 - i = k := by omega
      exact ⟨hv, this ▸ hh⟩
    · rintro ⟨hv, hh⟩
      obtain ⟨k, hk, hh', hle⟩ := hlv v hv
      have := height_unique hh hh'
      refine ⟨hv, ?_⟩
      rw [hk, Option.getD_some]
      omega

end Heir.Graph
