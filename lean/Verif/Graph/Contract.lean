import Verif.Graph.Tarjan

/-! # Contraction of one edge -/

namespace Heir.Graph

open Relation

variable {V : Type} [LinearOrder V]

omit [LinearOrder V] in
theorem WF_of_eq [LinearOrder V] {g g' : Graph V} (h : g.WF) (hv : g'.vertices = g.vertices)
    (ho : g'.out = g.out) (hi : g'.inn = g.inn) : g'.WF :=
  ⟨by rw [hv]; exact h.vertices, by rw [ho]; exact h.out, by rw [hi]; exact h.inn,
    by rw [hv, ho]; exact h.ends, by rw [hi, ho]; exact h.dual⟩

theorem mem_del {a b : V} {l : List V} : b ∈ del a l ↔ b ∈ l ∧ b ≠ a := by simp [del]

theorem sorted_del {a : V} {l : List V} (h : l.Pairwise (· < ·)) : (del a l).Pairwise (· < ·) :=
  h.filter _

namespace Graph

theorem addEdge_ok {g : Graph V} (h : g.WF) {s t : V} (hs : s ∈ g.vertices) (ht : t ∈ g.vertices) :
    (g.addEdge s t).1.WF ∧ (g.addEdge s t).1.vertices = g.vertices ∧
      ∀ a b, (g.addEdge s t).1.E a b ↔ g.E a b ∨ (a = s ∧ b = t) := by
  have hE : ∀ a b, b ∈ upd g.out s (ins t (g.out s)) a ↔ b ∈ g.out a ∨ (a = s ∧ b = t) := by
    intro a b
    by_cases ha : a = s
    · subst ha; simp [or_comm]
    · simp [upd_ne _ _ ha, ha]
  have hI : ∀ a b, a ∈ upd g.inn t (ins s (g.inn t)) b ↔ a ∈ g.inn b ∨ (a = s ∧ b = t) := by
    intro a b
    by_cases hb : b = t
    · subst hb; simp [or_comm]
    · simp [upd_ne _ _ hb, hb]
  unfold addEdge
  rw [if_neg (by tauto)]
  refine ⟨⟨h.vertices, ?_, ?_, ?_, ?_⟩, rfl, hE⟩
  · intro v
    by_cases hv : v = s
    · subst hv; simp only [upd_same]; exact sorted_ins (h.out _)
    · simp only [upd_ne _ _ hv]; exact h.out v
  · intro v
    by_cases hv : v = t
    · subst hv; simp only [upd_same]; exact sorted_ins (h.inn _)
    · simp only [upd_ne _ _ hv]; exact h.inn v
  · intro a b hab
    rcases (hE a b).1 hab with hab | ⟨rfl, rfl⟩
    · exact h.ends a b hab
    · exact ⟨hs, ht⟩
  · intro a b
    rw [hE, hI, h.dual]

theorem redirectOut_ok {g : Graph V} (h : g.WF) {s t x : V} (hs : s ∈ g.vertices)
    (hx : x ∈ g.vertices) :
    (redirectOut s t g x).WF ∧ (redirectOut s t g x).vertices = g.vertices ∧
      ∀ a b, (redirectOut s t g x).E a b ↔ g.E a b ∨ (a = s ∧ b = x ∧ x ≠ s) := by
  unfold redirectOut
  split
  · rename_i hne
    cases hw : g.weights t x with
    | none =>
      obtain ⟨h1, h2, h3⟩ := addEdge_ok h hs hx
      exact ⟨h1, h2, fun a b => by rw [h3]; tauto⟩
    | some w =>
      have h' : WF { g with weights := updW (updW g.weights s x (some w)) t x none } :=
        WF_of_eq h rfl rfl rfl
      obtain ⟨h1, h2, h3⟩ := addEdge_ok h' hs hx
      exact ⟨h1, h2, fun a b => by
        rw [h3]
        show g.E a b ∨ _ ↔ _
        tauto⟩
  · rename_i hne
    exact ⟨h, rfl, fun a b => by tauto⟩

theorem redirectIn_ok {g : Graph V} (h : g.WF) {s t x : V} (hs : s ∈ g.vertices)
    (hx : x ∈ g.vertices) :
    (redirectIn s t g x).WF ∧ (redirectIn s t g x).vertices = g.vertices ∧
      ∀ a b, (redirectIn s t g x).E a b ↔ g.E a b ∨ (b = s ∧ a = x ∧ x ≠ s) := by
  unfold redirectIn
  split
  · rename_i hne
    cases hw : g.weights x t with
    | none =>
      obtain ⟨h1, h2, h3⟩ := addEdge_ok h hx hs
      exact ⟨h1, h2, fun a b => by rw [h3]; tauto⟩
    | some w =>
      have h' : WF { g with weights := updW (updW g.weights x s (some w)) x t none } :=
        WF_of_eq h rfl rfl rfl
      obtain ⟨h1, h2, h3⟩ := addEdge_ok h' hx hs
      exact ⟨h1, h2, fun a b => by
        rw [h3]
        show g.E a b ∨ _ ↔ _
        tauto⟩
  · rename_i hne
    exact ⟨h, rfl, fun a b => by tauto⟩

theorem redirectOuts_ok {s t : V} : ∀ (L : List V) {g : Graph V}, g.WF → s ∈ g.vertices →
    (∀ x ∈ L, x ∈ g.vertices) →
    (L.foldl (redirectOut s t) g).WF ∧ (L.foldl (redirectOut s t) g).vertices = g.vertices ∧
      ∀ a b, (L.foldl (redirectOut s t) g).E a b ↔ g.E a b ∨ (a = s ∧ b ∈ L ∧ b ≠ s)
  | [], g, h, _, _ => ⟨h, rfl, by simp⟩
  | x :: L, g, h, hs, hL => by
    obtain ⟨h1, h2, h3⟩ := redirectOut_ok (t := t) h hs (hL x List.mem_cons_self)
    obtain ⟨h4, h5, h6⟩ := redirectOuts_ok L h1 (by rwa [h2])
      (fun y hy => by rw [h2]; exact hL y (List.mem_cons_of_mem _ hy))
    refine ⟨h4, h5.trans h2, fun a b => ?_⟩
    rw [List.foldl_cons, h6, h3, List.mem_cons]
    constructor
    · rintro ((h | ⟨rfl, rfl, h⟩) | ⟨rfl, h, k⟩) <;> tauto
    · rintro (h | ⟨rfl, rfl | h, k⟩) <;> tauto

theorem redirectIns_ok {s t : V} : ∀ (L : List V) {g : Graph V}, g.WF → s ∈ g.vertices →
    (∀ x ∈ L, x ∈ g.vertices) →
    (L.foldl (redirectIn s t) g).WF ∧ (L.foldl (redirectIn s t) g).vertices = g.vertices ∧
      ∀ a b, (L.foldl (redirectIn s t) g).E a b ↔ g.E a b ∨ (b = s ∧ a ∈ L ∧ a ≠ s)
  | [], g, h, _, _ => ⟨h, rfl, by simp⟩
  | x :: L, g, h, hs, hL => by
    obtain ⟨h1, h2, h3⟩ := redirectIn_ok (t := t) h hs (hL x List.mem_cons_self)
    obtain ⟨h4, h5, h6⟩ := redirectIns_ok L h1 (by rwa [h2])
      (fun y hy => by rw [h2]; exact hL y (List.mem_cons_of_mem _ hy))
    refine ⟨h4, h5.trans h2, fun a b => ?_⟩
    rw [List.foldl_cons, h6, h3, List.mem_cons]
    constructor
    · rintro ((h | ⟨rfl, rfl, h⟩) | ⟨rfl, h, k⟩) <;> tauto
    · rintro (h | ⟨rfl, rfl | h, k⟩) <;> tauto

theorem eraseIn_fold (t : V) : ∀ (L : List V) (g : Graph V),
    ∃ inn, L.foldl (fun g succ => { g with inn := upd g.inn succ (del t (g.inn succ)) }) g =
        { g with inn := inn } ∧ ∀ x, (∀ y, y ∈ inn x ↔ y ∈ g.inn x ∧ (x ∈ L → y ≠ t)) ∧
        ((g.inn x).Pairwise (· < ·) → (inn x).Pairwise (· < ·))
  | [], g => ⟨g.inn, rfl, by simp⟩
  | z :: L, g => by
    obtain ⟨inn, h1, h2⟩ := eraseIn_fold t L { g with inn := upd g.inn z (del t (g.inn z)) }
    refine ⟨inn, h1, fun x => ⟨fun y => ?_, fun hs => (h2 x).2 ?_⟩⟩
    · rw [(h2 x).1 y]
      by_cases hx : x = z
      · subst hx
        simp only [upd_same, mem_del, List.mem_cons, true_or, true_implies]
        tauto
      · simp only [upd_ne _ _ hx, List.mem_cons, hx, false_or]
    · by_cases hx : x = z
      · subst hx; simp only [upd_same]; exact sorted_del hs
      · simp only [upd_ne _ _ hx]; exact hs

theorem eraseOut_fold (t : V) : ∀ (L : List V) (g : Graph V),
    ∃ out, L.foldl (fun g pred => { g with out := upd g.out pred (del t (g.out pred)) }) g =
        { g with out := out } ∧ ∀ x, (∀ y, y ∈ out x ↔ y ∈ g.out x ∧ (x ∈ L → y ≠ t)) ∧
        ((g.out x).Pairwise (· < ·) → (out x).Pairwise (· < ·))
  | [], g => ⟨g.out, rfl, by simp⟩
  | z :: L, g => by
    obtain ⟨out, h1, h2⟩ := eraseOut_fold t L { g with out := upd g.out z (del t (g.out z)) }
    refine ⟨out, h1, fun x => ⟨fun y => ?_, fun hs => (h2 x).2 ?_⟩⟩
    · rw [(h2 x).1 y]
      by_cases hx : x = z
      · subst hx
        simp only [upd_same, mem_del, List.mem_cons, true_or, true_implies]
        tauto
      · simp only [upd_ne _ _ hx, List.mem_cons, hx, false_or]
    · by_cases hx : x = z
      · subst hx; simp only [upd_same]; exact sorted_del hs
      · simp only [upd_ne _ _ hx]; exact hs

theorem removeTarget_ok {g : Graph V} (h : g.WF) {s t : V} (ht : t ∈ g.vertices) (hst : s ≠ t) :
    (removeTarget s t g).WF ∧ (removeTarget s t g).vertices = del t g.vertices ∧
      ∀ a b, (removeTarget s t g).E a b ↔ g.E a b ∧ a ≠ t ∧ b ≠ t := by
  unfold removeTarget
  simp only
  obtain ⟨inn, hi, hinn⟩ := eraseIn_fold t
    (edgesOutOf { g with out := upd g.out s (del t (g.out s)), weights := updW g.weights s t none } t)
    { g with out := upd g.out s (del t (g.out s)), weights := updW g.weights s t none }
  rw [hi]
  obtain ⟨out, ho, hout⟩ := eraseOut_fold t
    (edgesInto { g with out := upd g.out s (del t (g.out s)), weights := updW g.weights s t none,
                        inn := inn } t)
    { g with out := upd g.out s (del t (g.out s)), weights := updW g.weights s t none, inn := inn }
  rw [ho]
  simp only [edgesOutOf, edgesInto, ht, if_true, upd_ne _ _ (Ne.symm hst)] at hinn hout
  have hI : ∀ a b, a ∈ upd inn t [] b ↔ g.E a b ∧ a ≠ t ∧ b ≠ t := by
    intro a b
    by_cases hb : b = t
    · subst hb; simp
    · rw [upd_ne _ _ hb, (hinn b).1 a, h.dual]
      unfold E
      constructor
      · rintro ⟨h1, h2⟩
        refine ⟨h1, ?_, hb⟩
        rintro rfl
        exact h2 h1 rfl
      · rintro ⟨h1, h2, -⟩
        exact ⟨h1, fun _ => h2⟩
  have hO : ∀ a b, b ∈ upd out t [] a ↔ g.E a b ∧ a ≠ t ∧ b ≠ t := by
    intro a b
    by_cases ha : a = t
    · subst ha; simp
    · rw [upd_ne _ _ ha, (hout a).1 b, (hinn t).1 a, h.dual]
      unfold E
      by_cases has : a = s
      · subst has
        simp only [upd_same, mem_del]
        tauto
      · rw [upd_ne _ _ has]
        constructor
        · rintro ⟨h1, h2⟩
          refine ⟨h1, ha, ?_⟩
          rintro rfl
          exact h2 ⟨h1, fun _ => ha⟩ rfl
        · rintro ⟨h1, -, h2⟩
          exact ⟨h1, fun _ => h2⟩
  refine ⟨⟨sorted_del h.vertices, ?_, ?_, ?_, ?_⟩, rfl, hO⟩
  · intro v
    by_cases hv : v = t
    · subst hv; simp
    · simp only [upd_ne _ _ hv]
      refine (hout v).2 ?_
      by_cases hvs : v = s
      · subst hvs; simp only [upd_same]; exact sorted_del (h.out _)
      · simp only [upd_ne _ _ hvs]; exact h.out v
  · intro v
    by_cases hv : v = t
    · subst hv; simp
    · simp only [upd_ne _ _ hv]
      exact (hinn v).2 (h.inn v)
  · intro a b hab
    obtain ⟨h1, h2, h3⟩ := (hO a b).1 hab
    obtain ⟨h4, h5⟩ := h.ends a b h1
    exact ⟨mem_del.2 ⟨h4, h2⟩, mem_del.2 ⟨h5, h3⟩⟩
  · intro a b
    rw [hO, hI]

/-- The contraction of an edge between two vertices. -/
theorem contractEdge_ok {g : Graph V} (h : g.WF) {m : V → V → V} {s t : V} (hm : m s t = s)
    (hst : s ≠ t) (hE : g.E s t) :
    (g.contractEdge m s t).2 = true ∧ (g.contractEdge m s t).1.WF ∧
      (g.contractEdge m s t).1.vertices = del t g.vertices ∧
      ∀ a b, (g.contractEdge m s t).1.E a b ↔ a ≠ t ∧ b ≠ t ∧
        (g.E a b ∨ (a = s ∧ b ≠ s ∧ g.E t b) ∨ (b = s ∧ a ≠ s ∧ g.E a t)) := by
  obtain ⟨hs, ht⟩ := h.ends s t hE
  have hh : g.hasEdge s t = true := by
    unfold hasEdge
    rw [if_neg (by tauto)]
    exact decide_eq_true hE
  unfold contractEdge
  rw [if_pos hh]
  simp only [hm]
  have e1 : g.edgesOutOf t = g.out t := by simp [edgesOutOf, ht]
  rw [e1]
  obtain ⟨h1, h2, h3⟩ := redirectOuts_ok (s := s) (t := t) (g.out t) h hs
    fun x hx => (h.ends t x hx).2
  generalize (g.out t).foldl (redirectOut s t) g = g1 at *
  have e2 : g1.edgesInto t = g1.inn t := by simp [edgesInto, h2, ht]
  rw [e2]
  obtain ⟨h4, h5, h6⟩ := redirectIns_ok (s := s) (t := t) (g1.inn t) h1 (by rwa [h2])
    fun x hx => (h1.ends x t ((h1.dual x t).1 hx)).1
  generalize (g1.inn t).foldl (redirectIn s t) g1 = g2 at *
  obtain ⟨h7, h8, h9⟩ := removeTarget_ok h4 (s := s) (t := t) (by rwa [h5, h2]) hst
  refine ⟨trivial, h7, by rw [h8, h5, h2], fun a b => ?_⟩
  rw [h9, h6, h3, h1.dual]
  have h10 : t ∈ g1.out a ↔ g.E a t ∨ (a = s ∧ t ∈ g.out t ∧ t ≠ s) := h3 a t
  rw [h10]
  have h11 : b ∈ g.out t ↔ g.E t b := Iff.rfl
  rw [h11]
  constructor
  · rintro ⟨(h | ⟨rfl, h, k⟩) | ⟨rfl, h | ⟨rfl, -⟩, k⟩, h', h''⟩
    · exact ⟨h', h'', Or.inl h⟩
    · exact ⟨h', h'', Or.inr (Or.inl ⟨rfl, k, h⟩)⟩
    · exact ⟨h', h'', Or.inr (Or.inr ⟨rfl, k, h⟩)⟩
    · exact absurd rfl k
  · rintro ⟨h', h'', h | ⟨rfl, k, h⟩ | ⟨rfl, k, h⟩⟩
    · exact ⟨Or.inl (Or.inl h), h', h''⟩
    · exact ⟨Or.inl (Or.inr ⟨rfl, h, k⟩), h', h''⟩
    · exact ⟨Or.inr ⟨rfl, Or.inl h, k⟩, h', h''⟩

end Graph

end Heir.Graph
