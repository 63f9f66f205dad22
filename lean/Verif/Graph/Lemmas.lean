import Verif.Graph.Spec
import Mathlib.Data.List.Nodup
import Mathlib.Data.List.Perm.Basic
import Mathlib.Order.WellFounded
import Mathlib.Order.RelClasses
import Mathlib.Data.Fintype.Basic
import Mathlib.Data.Set.Finite.Basic
import Mathlib.Tactic.Linarith

/-! # Sets, histories and Kahn's algorithm -/

namespace Heir.Graph

variable {V : Type} [LinearOrder V]

@[simp] theorem mem_ins {a b : V} {l : List V} : b ∈ ins a l ↔ b = a ∨ b ∈ l := by
  induction l with
  | nil => simp [ins]
  | cons c l ih =>
    simp only [ins]
    split
    · simp
    · split
      · rename_i h; subst h; simp
      · simp [ih]; tauto

theorem sorted_ins {a : V} {l : List V} (h : l.Pairwise (· < ·)) : (ins a l).Pairwise (· < ·) := by
  induction l with
  | nil => simp [ins]
  | cons c l ih =>
    rw [List.pairwise_cons] at h
    simp only [ins]
    split
    · rename_i hac
      refine List.pairwise_cons.2 ⟨?_, List.pairwise_cons.2 h⟩
      intro x hx
      rcases List.mem_cons.1 hx with rfl | hx
      · exact hac
      · exact hac.trans (h.1 x hx)
    · split
      · exact List.pairwise_cons.2 h
      · rename_i h1 h2
        refine List.pairwise_cons.2 ⟨?_, ih h.2⟩
        intro x hx
        rcases mem_ins.1 hx with rfl | hx
        · exact lt_of_le_of_ne (not_lt.1 h1) (Ne.symm h2)
        · exact h.1 x hx

theorem sorted_nodup {l : List V} (h : l.Pairwise (· < ·)) : l.Nodup :=
  h.imp fun hab => ne_of_lt hab

@[simp] theorem upd_same {W : Type} (f : V → W) (a : V) (w : W) : upd f a w a = w := by simp [upd]

theorem upd_ne {W : Type} (f : V → W) {a b : V} (w : W) (h : b ≠ a) : upd f a w b = f b := by
  simp [upd, h]

/-- A graph as built by `addVertex` and `addEdge`. -/
structure Graph.WF (g : Graph V) : Prop where
  vertices : g.vertices.Pairwise (· < ·)
  out : ∀ v, (g.out v).Pairwise (· < ·)
  inn : ∀ v, (g.inn v).Pairwise (· < ·)
  ends : ∀ s t, t ∈ g.out s → s ∈ g.vertices ∧ t ∈ g.vertices
  dual : ∀ s t, s ∈ g.inn t ↔ t ∈ g.out s

/-- The history of a graph. -/
structure Describes (cmds : List (Cmd V)) (g : Graph V) : Prop where
  wf : g.WF
  vertex : ∀ v, v ∈ g.vertices ↔ IsVertex cmds v
  edge : ∀ s t, t ∈ g.out s ↔ IsEdge cmds s t

omit [LinearOrder V] in
theorem isVertex_append (cmds : List (Cmd V)) (c : Cmd V) (v : V) :
    IsVertex (cmds ++ [c]) v ↔ IsVertex cmds v ∨ c = .vertex v := by
  simp only [IsVertex, List.mem_append, List.mem_singleton, eq_comm]

omit [LinearOrder V] in
theorem isEdge_append (cmds : List (Cmd V)) (c : Cmd V) (s t : V) :
    IsEdge (cmds ++ [c]) s t ↔
      IsEdge cmds s t ∨ (c = .edge s t ∧ IsVertex cmds s ∧ IsVertex cmds t) := by
  constructor
  · rintro ⟨pre, post, h, hs, ht⟩
    rcases List.eq_nil_or_concat post with rfl | ⟨post, d, rfl⟩
    · obtain ⟨h1, h2⟩ := List.append_inj' h rfl
      subst h1
      exact Or.inr ⟨by simpa using h2, hs, ht⟩
    · rw [List.concat_eq_append, ← List.cons_append, ← List.append_assoc] at h
      obtain ⟨h1, h2⟩ := List.append_inj' h rfl
      exact Or.inl ⟨pre, post, h1, hs, ht⟩
  · rintro (⟨pre, post, rfl, hs, ht⟩ | ⟨rfl, hs, ht⟩)
    · exact ⟨pre, post ++ [c], by simp, hs, ht⟩
    · exact ⟨cmds, [], rfl, hs, ht⟩

theorem build_append (cmds : List (Cmd V)) (c : Cmd V) :
    build (cmds ++ [c]) = match c with
      | .vertex v => (build cmds).addVertex v
      | .edge s t => ((build cmds).addEdge s t).1 := by
  cases c <;> simp only [build, List.foldl_append, List.foldl_cons, List.foldl_nil]

theorem build_describes (cmds : List (Cmd V)) : Describes cmds (build cmds) := by
  induction cmds using List.reverseRecOn with
  | nil =>
    refine ⟨⟨List.Pairwise.nil, fun _ => List.Pairwise.nil, fun _ => List.Pairwise.nil, ?_, ?_⟩,
      ?_, ?_⟩
    · intro s t h; simp [build, Graph.empty] at h
    · intro s t; simp [build, Graph.empty]
    · intro v; simp [build, Graph.empty, IsVertex]
    · intro s t; simp [build, Graph.empty, IsEdge]
  | append_singleton cmds c ih =>
    obtain ⟨⟨h1, h2, h3, h4, h5⟩, h6, h7⟩ := ih
    rw [build_append]
    cases c with
    | vertex v =>
      refine ⟨⟨sorted_ins h1, h2, h3, ?_, h5⟩, ?_, ?_⟩
      · intro s t h
        obtain ⟨ha, hb⟩ := h4 s t h
        exact ⟨mem_ins.2 (Or.inr ha), mem_ins.2 (Or.inr hb)⟩
      · intro u
        rw [isVertex_append, ← h6]
        simp only [Graph.addVertex, mem_ins, Cmd.vertex.injEq]
        tauto
      · intro s t
        rw [isEdge_append, ← h7]
        simp [Graph.addVertex]
    | edge a b =>
      simp only [Graph.addEdge]
      split
      · rename_i hab
        refine ⟨⟨h1, h2, h3, h4, h5⟩, ?_, ?_⟩
        · intro u
          rw [isVertex_append, ← h6]
          simp
        · intro s t
          rw [isEdge_append, ← h7, ← h6, ← h6]
          simp only [Cmd.edge.injEq]
          constructor
          · exact Or.inl
          · rintro (h | ⟨⟨rfl, rfl⟩, h⟩)
            · exact h
            · tauto
      · rename_i hab
        have ha : a ∈ (build cmds).vertices := by tauto
        have hb : b ∈ (build cmds).vertices := by tauto
        have hmem : ∀ s t, t ∈ upd (build cmds).out a (ins b ((build cmds).out a)) s ↔
            t ∈ (build cmds).out s ∨ (s = a ∧ t = b) := by
          intro s t
          by_cases hs : s = a
          · subst hs; rw [upd_same, mem_ins]; tauto
          · rw [upd_ne _ _ hs]; tauto
        have hmem' : ∀ s t, s ∈ upd (build cmds).inn b (ins a ((build cmds).inn b)) t ↔
            s ∈ (build cmds).inn t ∨ (s = a ∧ t = b) := by
          intro s t
          by_cases hs : t = b
          · subst hs; rw [upd_same, mem_ins]; tauto
          · rw [upd_ne _ _ hs]; tauto
        refine ⟨⟨h1, ?_, ?_, ?_, ?_⟩, ?_, ?_⟩
        · intro v
          by_cases hv : v = a
          · subst hv; simpa using sorted_ins (h2 v)
          · simpa [upd_ne _ _ hv] using h2 v
        · intro v
          by_cases hv : v = b
          · subst hv; simpa using sorted_ins (h3 v)
          · simpa [upd_ne _ _ hv] using h3 v
        · intro s t h
          rcases (hmem s t).1 h with h | ⟨rfl, rfl⟩
          · exact h4 s t h
          · exact ⟨ha, hb⟩
        · intro s t
          rw [hmem, hmem', h5]
        · intro u
          rw [isVertex_append, ← h6]
          simp
        · intro s t
          rw [isEdge_append, ← h7, ← h6, ← h6, hmem]
          simp only [Cmd.edge.injEq]
          constructor
          · rintro (h | ⟨rfl, rfl⟩)
            · exact Or.inl h
            · exact Or.inr ⟨⟨rfl, rfl⟩, ha, hb⟩
          · rintro (h | ⟨⟨rfl, rfl⟩, _⟩)
            · exact Or.inl h
            · exact Or.inr ⟨rfl, rfl⟩

/-! ## Kahn's algorithm -/

open Graph

theorem foldl_decr (L : List V) (hL : L.Nodup) (cnt : V → Int) (act : List V) :
    (L.foldl decr (cnt, act)).1 = (fun v => cnt v - if v ∈ L then 1 else 0) ∧
    (L.foldl decr (cnt, act)).2 = (L.filter fun v => cnt v = 1).reverse ++ act := by
  induction L generalizing cnt act with
  | nil => simp
  | cons t L ih =>
    rw [List.nodup_cons] at hL
    obtain ⟨ha, hb⟩ := ih hL.2 (upd cnt t (cnt t - 1)) (decr (cnt, act) t).2
    have e : (t :: L).foldl decr (cnt, act) =
      L.foldl decr (upd cnt t (cnt t - 1), (decr (cnt, act) t).2) := rfl
    rw [e, ha, hb]
    constructor
    · funext v
      by_cases hv : v = t
      · subst hv; simp [hL.1]
      · simp [upd_ne _ _ hv, hv]
    · have hf : (L.filter fun v => decide (upd cnt t (cnt t - 1) v = 1)) =
          L.filter fun v => decide (cnt v = 1) := by
        apply List.filter_congr
        intro v hv
        have : v ≠ t := by rintro rfl; exact hL.1 hv
        rw [upd_ne _ _ this]
      rw [hf]
      simp only [decr, upd_same, List.filter_cons]
      by_cases h1 : cnt t = 1
      · simp [h1]
      · have : ¬ cnt t - 1 = 0 := by omega
        simp [h1, this]

/-- The invariant of the loop. -/
structure KInv (g : Graph V) (act : List V) (cnt : V → Int) (res : List V) : Prop where
  nodup : (act ++ res).Nodup
  sub : ∀ v ∈ act ++ res, v ∈ g.vertices
  count : ∀ v ∈ g.vertices, cnt v = (((g.inn v).filter fun u => u ∉ res).length : Int)
  zero : ∀ v ∈ g.vertices, v ∈ act ++ res ↔ cnt v = 0
  order : ∀ l v l', res = l ++ v :: l' → ∀ u ∈ g.inn v, u ∈ l

theorem inv_init {g : Graph V} (hg : g.WF) :
    KInv g (g.vertices.filter fun v => ((g.edgesInto v).length : Int) = 0).reverse
      (fun v => ((g.edgesInto v).length : Int)) [] where
  nodup := by
    rw [List.append_nil, List.nodup_reverse]
    exact (sorted_nodup hg.vertices).filter _
  sub := by
    intro v hv
    simp only [List.append_nil, List.mem_reverse, List.mem_filter] at hv
    exact hv.1
  count := by
    intro v hv
    simp [edgesInto, hv]
  zero := by
    intro v hv
    simp only [List.append_nil, List.mem_reverse, List.mem_filter, hv, true_and,
      decide_eq_true_eq]
  order := by intro l v l' h; simp at h

theorem inv_step {g : Graph V} (hg : g.WF) {s : V} {act : List V} {cnt : V → Int} {res : List V}
    (h : KInv g (s :: act) cnt res) :
    KInv g ((g.edgesOutOf s).foldl decr (cnt, act)).2 ((g.edgesOutOf s).foldl decr (cnt, act)).1
      (res ++ [s]) := by
  have hs : s ∈ g.vertices := h.sub s (by simp)
  have hout : g.edgesOutOf s = g.out s := by simp [edgesOutOf, hs]
  obtain ⟨e1, e2⟩ := foldl_decr (g.out s) (sorted_nodup (hg.out s)) cnt act
  have hnd := h.nodup
  simp only [List.cons_append, List.nodup_cons, List.mem_append, not_or] at hnd
  have hsr : s ∉ res := hnd.1.2
  have hcnt : ∀ v ∈ g.vertices, (cnt v - if v ∈ g.out s then 1 else 0) =
      (((g.inn v).filter fun u => u ∉ res ++ [s]).length : Int) := by
    intro v hv
    rw [h.count v hv]
    have e3 : (g.inn v).filter (fun u => u ∉ res ++ [s]) =
        ((g.inn v).filter fun u => u ∉ res).filter (· ≠ s) := by
      rw [List.filter_filter]
      apply List.filter_congr
      intro u _
      by_cases h1 : u ∈ res <;> by_cases h2 : u = s <;> simp [h1, h2]
    rw [e3]
    have hn : ((g.inn v).filter fun u => decide (u ∉ res)).Nodup :=
      (sorted_nodup (hg.inn v)).filter _
    by_cases hm : v ∈ g.out s
    · have hm' : s ∈ (g.inn v).filter fun u => decide (u ∉ res) := by
        rw [List.mem_filter]; exact ⟨(hg.dual s v).2 hm, by simpa using hsr⟩
      have e4 : (((g.inn v).filter fun u => decide (u ∉ res)).filter fun u => decide (u ≠ s)) =
          ((g.inn v).filter fun u => decide (u ∉ res)).erase s := by
        rw [hn.erase_eq_filter]
        apply List.filter_congr
        intro u _
        by_cases h : u = s <;> simp [h, bne]
      rw [if_pos hm, e4, List.length_erase_of_mem hm']
      have := List.length_pos_of_mem hm'
      omega
    · have hm' : s ∉ (g.inn v).filter fun u => decide (u ∉ res) := by
        rw [List.mem_filter]; intro h'; exact hm ((hg.dual s v).1 h'.1)
      have e4 : (((g.inn v).filter fun u => decide (u ∉ res)).filter fun u => decide (u ≠ s)) =
          (g.inn v).filter fun u => decide (u ∉ res) := by
        rw [List.filter_eq_self]
        intro u hu
        simp only [decide_eq_true_eq, ne_eq]
        rintro rfl; exact hm' hu
      rw [if_neg hm, e4, sub_zero]
  have hmemact : ∀ v, v ∈ (g.out s).filter (fun v => decide (cnt v = 1)) → v ∉ s :: act ++ res := by
    intro v hv hmem
    rw [List.mem_filter, decide_eq_true_eq] at hv
    have := (h.zero v (hg.ends s v hv.1).2).1 hmem
    omega
  rw [hout, e1, e2]
  refine ⟨?_, ?_, hcnt, ?_, ?_⟩
  · have hp : ((g.out s).filter (fun v => decide (cnt v = 1)) ++ (s :: act ++ res)).Perm
        (((g.out s).filter fun v => decide (cnt v = 1)).reverse ++ act ++ (res ++ [s])) := by
      rw [List.append_assoc]
      refine (List.reverse_perm _).symm.append ?_
      rw [← List.append_assoc]
      exact (List.perm_append_singleton s (act ++ res)).symm
    rw [← hp.nodup_iff, List.nodup_append]
    refine ⟨(sorted_nodup (hg.out s)).filter _, h.nodup, ?_⟩
    rintro a ha b hb rfl
    exact hmemact a ha hb
  · intro v hv
    simp only [List.mem_append, List.mem_reverse, List.mem_filter, List.mem_singleton] at hv
    rcases hv with (⟨hv, _⟩ | hv) | hv | hv
    · exact (hg.ends s v hv).2
    · exact h.sub v (by simp [hv])
    · exact h.sub v (by simp [hv])
    · exact hv ▸ hs
  · intro v hv
    have hz := h.zero v hv
    have hc := h.count v hv
    have hpos : 0 ≤ cnt v := by rw [hc]; omega
    have hc' := hcnt v hv
    simp only [List.mem_append, List.mem_reverse, List.mem_filter, List.mem_singleton,
      decide_eq_true_eq]
    simp only [List.cons_append, List.mem_cons, List.mem_append] at hz
    by_cases hm : v ∈ g.out s
    · rw [if_pos hm] at hc' ⊢
      have hne : cnt v ≠ 0 := by omega
      have : ¬ (v = s ∨ v ∈ act ∨ v ∈ res) := fun h' => hne (hz.1 h')
      constructor
      · rintro ((h' | h') | h' | h')
        · omega
        · tauto
        · tauto
        · tauto
      · intro h'; exact Or.inl (Or.inl ⟨hm, by omega⟩)
    · rw [if_neg hm, sub_zero, ← hz]
      tauto
  · intro l v l' he u hu
    rcases List.eq_nil_or_concat l' with rfl | ⟨l', d, rfl⟩
    · obtain ⟨h1, h2⟩ := List.append_inj' he rfl
      subst h1
      have hv : s = v := by simpa using h2
      subst hv
      have h0 : cnt s = 0 := (h.zero s hs).1 (by simp)
      rw [h.count s hs] at h0
      by_contra hul
      have : u ∈ (g.inn s).filter fun u => decide (u ∉ res) := by
        rw [List.mem_filter]; exact ⟨hu, by simpa using hul⟩
      have := List.length_pos_of_mem this
      omega
    · rw [List.concat_eq_append, ← List.cons_append, ← List.append_assoc] at he
      obtain ⟨h1, _⟩ := List.append_inj' he rfl
      exact h.order l v l' h1 u hu

theorem kahn_ok {g : Graph V} (hg : g.WF) : ∀ (k : Nat) (act : List V) (cnt : V → Int)
    (res : List V), KInv g act cnt res → g.vertices.length ≤ k + res.length →
    ∃ r cnt', kahn g k act cnt res = some r ∧ KInv g [] cnt' r := by
  intro k
  induction k with
  | zero =>
    intro act cnt res h hk
    cases act with
    | nil => exact ⟨res, cnt, rfl, h⟩
    | cons s act =>
      exfalso
      have := (h.nodup.subperm (fun v hv => h.sub v hv)).length_le
      simp only [List.cons_append, List.length_cons, List.length_append] at this
      omega
  | succ k ih =>
    intro act cnt res h hk
    cases act with
    | nil => exact ⟨res, cnt, rfl, h⟩
    | cons s act =>
      obtain ⟨r, cnt', hr, hi⟩ := ih _ _ _ (inv_step hg h) (by simp; omega)
      exact ⟨r, cnt', hr, hi⟩

omit [LinearOrder V] in
theorem before_of_order {l : List V} {E : V → V → Prop}
    (h : ∀ a v b, l = a ++ v :: b → ∀ u, E u v → u ∈ a) {s t : V} (hst : E s t) (ht : t ∈ l) :
    Before l s t := by
  obtain ⟨a, b, rfl⟩ := List.append_of_mem ht
  obtain ⟨c, d, rfl⟩ := List.append_of_mem (h a t b rfl s hst)
  exact ⟨c, d, b, by simp⟩

/-- An order with all edges forwards excludes cycles. -/
theorem acyclic_of_before {l : List V} {E : V → V → Prop} (hn : l.Nodup)
    (h : ∀ s t, E s t → Before l s t) (v : V) : ¬ Relation.TransGen E v v := by
  have key : ∀ s t, E s t → l.idxOf s < l.idxOf t := by
    intro s t hst
    obtain ⟨a, b, c, rfl⟩ := h s t hst
    have hs : s ∉ a := by
      intro hs
      rw [List.nodup_append] at hn
      exact hn.2.2 s hs s (by simp) rfl
    have ht : t ∉ a := by
      intro ht
      rw [List.nodup_append] at hn
      exact hn.2.2 t ht t (by simp) rfl
    have hne : s ≠ t := by
      rintro rfl
      rw [List.nodup_append, List.nodup_cons] at hn
      exact hn.2.1.1 (by simp)
    rw [List.idxOf_append_of_notMem hs, List.idxOf_append_of_notMem ht, List.idxOf_cons_self,
      List.idxOf_cons_ne _ hne]
    omega
  have : ∀ s t, Relation.TransGen E s t → l.idxOf s < l.idxOf t := by
    intro s t hst
    induction hst with
    | single h => exact key _ _ h
    | tail _ h ih => exact ih.trans (key _ _ h)
  intro hv
  exact lt_irrefl _ (this v v hv)

/-- In an acyclic relation a nonempty list has an element without predecessor in it. -/
theorem exists_minimal {E : V → V → Prop} (hac : ∀ v, ¬ Relation.TransGen E v v) (U : List V)
    (hU : U ≠ []) : ∃ v ∈ U, ∀ u ∈ U, ¬ E u v := by
  by_contra hno
  push Not at hno
  have hfin : Finite {v // v ∈ U} := by
    exact (List.finite_toSet U).to_subtype
  let T : {v // v ∈ U} → {v // v ∈ U} → Prop := fun a b => Relation.TransGen E a.1 b.1
  haveI : IsTrans _ T := ⟨fun _ _ _ h1 h2 => h1.trans h2⟩
  haveI : Std.Irrefl T := ⟨fun a => hac a.1⟩
  have wf : WellFounded T := Finite.wellFounded_of_trans_of_irrefl T
  obtain ⟨a, ha⟩ := List.exists_mem_of_ne_nil U hU
  obtain ⟨m, _, hm⟩ := wf.has_min Set.univ ⟨⟨a, ha⟩, trivial⟩
  obtain ⟨u, hu, he⟩ := hno m.1 m.2
  exact hm ⟨u, hu⟩ trivial (Relation.TransGen.single he)

theorem topologicalSort_ok {cmds : List (Cmd V)} {g : Graph V} (h : Describes cmds g) :
    (Acyclic cmds → ∃ l, g.topologicalSort = some (some l) ∧ TopologicalOrder cmds l) ∧
    (¬ Acyclic cmds → g.topologicalSort = some none) := by
  have hg := h.wf
  obtain ⟨r, cnt, hr, hi⟩ := kahn_ok hg g.vertices.length _ _ [] (inv_init hg) (by simp)
  have hsub : ∀ v ∈ r, v ∈ g.vertices := fun v hv => hi.sub v (by simpa using hv)
  have hnd : r.Nodup := by simpa using hi.nodup
  have hlen := (hnd.subperm hsub).length_le
  have hE : ∀ s t, IsEdge cmds s t ↔ s ∈ g.inn t := fun s t => by rw [hg.dual, h.edge]
  have hall : r.length = g.vertices.length → ∀ v, v ∈ r ↔ v ∈ g.vertices := by
    intro hl v
    exact ((hnd.subperm hsub).perm_of_length_le hl.ge).mem_iff
  have htop : r.length = g.vertices.length → TopologicalOrder cmds r := by
    intro hl
    refine ⟨hnd, fun v => (hall hl v).trans (h.vertex v), fun s t hst => ?_⟩
    refine before_of_order (E := IsEdge cmds) ?_ hst ((hall hl t).2 (hg.ends s t ((h.edge s t).2 hst)).2)
    intro a v b e u hu
    exact hi.order a v b e u ((hE u v).1 hu)
  unfold topologicalSort
  simp only [hr, Option.map_some]
  constructor
  · intro hac
    have hl : r.length = g.vertices.length := by
      by_contra hne
      let U := g.vertices.filter (· ∉ r)
      have hU : U ≠ [] := by
        intro hU
        apply hne
        apply le_antisymm hlen
        refine ((sorted_nodup hg.vertices).subperm ?_).length_le
        intro v hv
        by_contra hvr
        have : v ∈ U := by simp only [U, List.mem_filter]; exact ⟨hv, by simpa using hvr⟩
        rw [hU] at this
        simp at this
      obtain ⟨v, hv, hmin⟩ := exists_minimal hac U hU
      simp only [U, List.mem_filter, decide_eq_true_eq] at hv hmin
      have h1 : cnt v = 0 := by
        rw [hi.count v hv.1]
        norm_cast
        rw [List.length_eq_zero_iff, List.filter_eq_nil_iff]
        intro u hu hur
        rw [decide_eq_true_eq] at hur
        have hu' := (hE u v).2 hu
        exact hmin u ⟨(hg.ends u v ((h.edge u v).2 hu')).1, hur⟩ hu'
      have := (hi.zero v hv.1).2 h1
      exact hv.2 (by simpa using this)
    exact ⟨r, by simp [hl], htop hl⟩
  · intro hc
    by_cases hl : r.length = g.vertices.length
    · exfalso
      apply hc
      have := htop hl
      exact acyclic_of_before this.nodup this.forward
    · simp [hl]

end Heir.Graph
