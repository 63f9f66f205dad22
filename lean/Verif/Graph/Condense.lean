import Verif.Graph.Contract
import Mathlib.Data.List.Basic

/-! # Condensation -/

namespace Heir.Graph

open Relation

variable {V : Type} [LinearOrder V]

/-- What has been merged into each vertex by the given calls of `mergeFn`. -/
def content (calls : List (V × V)) : V → List V :=
  calls.foldl (fun f c => upd f c.1 (f c.1 ++ f c.2)) fun v => [v]

theorem content_append (calls : List (V × V)) (s t : V) :
    content (calls ++ [(s, t)]) = upd (content calls) s (content calls s ++ content calls t) := by
  simp [content]

namespace Graph

/-- `g` is the graph `g0` with every vertex `v` merged into `f v`. -/
structure Quo (g0 : Graph V) (f : V → V) (g : Graph V) : Prop where
  wf : g.WF
  vert : ∀ v, v ∈ g.vertices ↔ v ∈ g0.vertices ∧ f v = v
  rep : ∀ v ∈ g0.vertices, f v ∈ g.vertices
  edge : ∀ a b, g.E a b ↔ f a = a ∧ f b = b ∧
    ((a ≠ b ∧ ∃ x y, f x = a ∧ f y = b ∧ g0.E x y) ∨ (a = b ∧ g0.E a a))

theorem Quo.refl {g : Graph V} (h : g.WF) : Quo g id g := by
  refine ⟨h, by simp, by simp, fun a b => ?_⟩
  by_cases hab : a = b
  · subst hab; simp
  · simp [hab]

theorem Quo.idem {g0 g : Graph V} {f : V → V} (h : Quo g0 f g) {v : V} (hv : v ∈ g0.vertices) :
    f (f v) = f v := ((h.vert _).1 (h.rep v hv)).2

/-- Merging `t` into `s`. -/
def into (s t : V) (f : V → V) : V → V := fun x => if f x = t then s else f x

theorem Quo.contract {g0 g : Graph V} (h0 : g0.WF) {f : V → V} (h : Quo g0 f g) {m : V → V → V}
    {s t : V} (hm : m s t = s) (hst : s ≠ t) (hE : g.E s t) :
    Quo g0 (into s t f) (g.contractEdge m s t).1 := by
  obtain ⟨-, h1, h2, h3⟩ := contractEdge_ok h.wf hm hst hE
  obtain ⟨hs, ht⟩ := h.wf.ends s t hE
  have hfs := ((h.vert s).1 hs).2
  have hft := ((h.vert t).1 ht).2
  have hfix : ∀ a, into s t f a = a ↔ f a = a ∧ a ≠ t := by
    intro a
    unfold into
    split
    · rename_i ha
      constructor
      · rintro rfl; rw [hfs] at ha; exact absurd ha hst
      · rintro ⟨h1, h2⟩; exact absurd (h1.symm.trans ha) h2
    · rename_i ha
      constructor
      · intro h; refine ⟨h, ?_⟩; rintro rfl; exact ha h
      · exact fun h => h.1
  refine ⟨h1, ?_, ?_, ?_⟩
  · intro v
    rw [h2, mem_del, h.vert, hfix]
    tauto
  · intro v hv
    rw [h2, mem_del]
    unfold into
    split
    · exact ⟨hs, hst⟩
    · rename_i hne; exact ⟨h.rep v hv, hne⟩
  · intro a b
    rw [h3, hfix, hfix]
    have hx : ∀ x, f x ≠ t → into s t f x = f x := fun x hx => if_neg hx
    have hxt : ∀ x, f x = t → into s t f x = s := fun x hx => if_pos hx
    constructor
    · rintro ⟨hat, hbt, e | ⟨rfl, hbs, e⟩ | ⟨rfl, has, e⟩⟩
      · obtain ⟨e1, e2, e3⟩ := (h.edge a b).1 e
        refine ⟨⟨e1, hat⟩, ⟨e2, hbt⟩, ?_⟩
        rcases e3 with ⟨hne, x, y, hxa, hyb, e⟩ | e3
        · refine Or.inl ⟨hne, x, y, ?_, ?_, e⟩
          · rw [hx x (by rw [hxa]; exact hat)]; exact hxa
          · rw [hx y (by rw [hyb]; exact hbt)]; exact hyb
        · exact Or.inr e3
      · obtain ⟨e1, e2, e3⟩ := (h.edge t b).1 e
        refine ⟨⟨hfs, hat⟩, ⟨e2, hbt⟩, ?_⟩
        rcases e3 with ⟨hne, x, y, hxa, hyb, e⟩ | ⟨rfl, -⟩
        · refine Or.inl ⟨Ne.symm hbs, x, y, hxt x hxa, ?_, e⟩
          rw [hx y (by rw [hyb]; exact hbt)]; exact hyb
        · exact absurd rfl hbt
      · obtain ⟨e1, e2, e3⟩ := (h.edge a t).1 e
        refine ⟨⟨e1, hat⟩, ⟨hfs, hbt⟩, ?_⟩
        rcases e3 with ⟨hne, x, y, hxa, hyb, e⟩ | ⟨rfl, -⟩
        · refine Or.inl ⟨has, x, y, ?_, hxt y hyb, e⟩
          rw [hx x (by rw [hxa]; exact hat)]; exact hxa
        · exact absurd rfl hat
    · rintro ⟨⟨ha, hat⟩, ⟨hb, hbt⟩, ⟨hne, x, y, hxa, hyb, e⟩ | ⟨rfl, e⟩⟩
      · refine ⟨hat, hbt, ?_⟩
        obtain ⟨hxv, hyv⟩ := h0.ends x y e
        by_cases hfx : f x = t
        · rw [hxt x hfx] at hxa
          subst hxa
          by_cases hfy : f y = t
          · rw [hxt y hfy] at hyb; exact absurd hyb hne
          · rw [hx y hfy] at hyb
            exact Or.inr (Or.inl ⟨rfl, Ne.symm hne, (h.edge t b).2 ⟨hft, hb,
              Or.inl ⟨Ne.symm hbt, x, y, hfx, hyb, e⟩⟩⟩)
        · rw [hx x hfx] at hxa
          by_cases hfy : f y = t
          · rw [hxt y hfy] at hyb
            subst hyb
            exact Or.inr (Or.inr ⟨rfl, hne, (h.edge a t).2 ⟨ha, hft,
              Or.inl ⟨hat, x, y, hxa, hfy, e⟩⟩⟩)
          · rw [hx y hfy] at hyb
            exact Or.inl ((h.edge a b).2 ⟨ha, hb, Or.inl ⟨hne, x, y, hxa, hyb, e⟩⟩)
      · exact ⟨hat, hbt, Or.inl ((h.edge a a).2 ⟨ha, ha, Or.inr ⟨rfl, e⟩⟩)⟩

/-! ## The loops -/

/-- The state between two components. -/
structure Base (g0 : Graph V) (f : V → V) (c : Cond V) : Prop where
  quo : Quo g0 f c.g
  equ : ∀ v ∈ g0.vertices, g0.R v (f v) ∧ g0.R (f v) v
  cont : ∀ a ∈ c.g.vertices, (content c.calls a).Nodup ∧
    ∀ x, x ∈ content c.calls a ↔ x ∈ g0.vertices ∧ f x = a

/-- The state inside the component `C`. -/
structure Within (g0 : Graph V) (C : List V) (f0 f : V → V) (c : Cond V) : Prop where
  base : Base g0 f c
  sorted : c.alive.Pairwise (· < ·)
  alive : ∀ v, v ∈ c.alive ↔ v ∈ C ∧ f v = v
  same : ∀ x ∈ g0.vertices, x ∉ C → f x = f0 x

/-- A strong component with more than one vertex and no loops. -/
structure Big (g0 : Graph V) (C : List V) : Prop where
  wf : g0.WF
  vert : ∀ x ∈ C, x ∈ g0.vertices
  equiv : ∀ x ∈ C, ∀ y, y ∈ C ↔ g0.R x y ∧ g0.R y x
  loop : ∀ x ∈ C, ¬ g0.E x x

variable {g0 : Graph V} {C : List V} {f0 f : V → V} {c : Cond V} {m : V → V → V}

theorem Within.mem (hC : Big g0 C) (h : Within g0 C f0 f c) {v : V} (hv : v ∈ c.alive) :
    v ∈ c.g.vertices := by
  obtain ⟨h1, h2⟩ := (h.alive v).1 hv
  exact (h.base.quo.vert v).2 ⟨hC.vert v h1, h2⟩

theorem edge_step (hC : Big g0 C) (hm : ∀ s t, m s t = s) (h : Within g0 C f0 f c) {u v : V}
    (hu : u ∈ c.alive) (hv : v ∈ c.alive) (huv : u ≠ v) (e : c.g.E u v) :
    Within g0 C f0 (into u v f) (Cond.edge m u c v) ∧ (Cond.edge m u c v).alive = del v c.alive ∧
      (∀ w, w ≠ v → c.g.E u w → (Cond.edge m u c v).g.E u w) := by
  obtain ⟨hu1, hu2⟩ := (h.alive u).1 hu
  obtain ⟨hv1, hv2⟩ := (h.alive v).1 hv
  obtain ⟨k1, k2, k3, k4⟩ := contractEdge_ok h.base.quo.wf (hm u v) huv e
  have hin : ∀ x ∈ g0.vertices, f x = v → x ∈ C := by
    intro x hx hf
    have := h.base.equ x hx
    rw [hf] at this
    exact (hC.equiv v hv1 x).2 ⟨this.2, this.1⟩
  unfold Cond.edge
  rw [if_pos hv]
  refine ⟨⟨⟨h.base.quo.contract hC.wf (hm u v) huv e, ?_, ?_⟩, sorted_del h.sorted, ?_, ?_⟩, rfl, ?_⟩
  · intro x hx
    unfold into
    split
    · rename_i hf
      have h1 := (hC.equiv x (hin x hx hf) u).1 hu1
      exact h1
    · exact h.base.equ x hx
  · intro a ha
    simp only [k1, if_true]
    rw [content_append]
    rw [k3, mem_del] at ha
    obtain ⟨hav, hat⟩ := ha
    obtain ⟨n1, n2⟩ := h.base.cont u (h.mem hC hu)
    obtain ⟨n3, n4⟩ := h.base.cont v (h.mem hC hv)
    by_cases hau : a = u
    · subst hau
      rw [upd_same]
      refine ⟨List.nodup_append.2 ⟨n1, n3, ?_⟩, fun x => ?_⟩
      · rintro x hx y hy rfl
        exact huv (((n2 x).1 hx).2.symm.trans ((n4 x).1 hy).2)
      · rw [List.mem_append, n2, n4]
        unfold into
        split
        · rename_i hf; simp [hf, Ne.symm hat]
        · rename_i hf; simp [hf]
    · rw [upd_ne _ _ hau]
      obtain ⟨n5, n6⟩ := h.base.cont a hav
      refine ⟨n5, fun x => ?_⟩
      rw [n6]
      unfold into
      split
      · rename_i hf
        rw [hf]
        constructor
        · rintro ⟨-, rfl⟩; exact absurd rfl hat
        · rintro ⟨-, rfl⟩; exact absurd rfl hau
      · rfl
  · intro x
    show x ∈ del v c.alive ↔ _
    rw [mem_del, h.alive]
    unfold into
    split
    · rename_i hf
      constructor
      · rintro ⟨⟨-, h1⟩, h2⟩; exact absurd (h1.symm.trans hf) h2
      · rintro ⟨-, rfl⟩; rw [hu2] at hf; exact absurd hf huv
    · rename_i hf
      constructor
      · rintro ⟨h1, -⟩; exact h1
      · rintro ⟨h1, h2⟩
        refine ⟨⟨h1, h2⟩, ?_⟩
        rintro rfl; exact hf h2
  · intro x hxv hx
    unfold into
    split
    · rename_i hf
      exact absurd (hin x hxv hf) hx
    · exact h.same x hxv hx
  · intro w hw hew
    exact (k4 u w).2 ⟨huv, hw, Or.inl hew⟩

theorem length_del {v : V} {l : List V} (h : v ∈ l) : (del v l).length < l.length := by
  have := filter_lt (p := fun _ => true) (q := fun x => decide (x ≠ v)) (l := l) (by simp) h rfl
    (by simp)
  simpa [del] using this

theorem edges_fold (hC : Big g0 C) (hm : ∀ s t, m s t = s) {u : V} : ∀ (L : List V) (f : V → V)
    (c : Cond V), Within g0 C f0 f c → u ∈ c.alive → L.Nodup → u ∉ L →
    (∀ v ∈ L, c.g.E u v) →
    ∃ f', Within g0 C f0 f' (L.foldl (Cond.edge m u) c) ∧
      (L.foldl (Cond.edge m u) c).alive.length ≤ c.alive.length ∧
      ((∃ v ∈ L, v ∈ c.alive) → (L.foldl (Cond.edge m u) c).alive.length < c.alive.length)
  | [], f, c, h, _, _, _, _ => ⟨f, h, le_rfl, by simp⟩
  | v :: L, f, c, h, hu, hn, hL, he => by
    rw [List.nodup_cons] at hn
    simp only [List.mem_cons, not_or] at hL
    by_cases hv : v ∈ c.alive
    · obtain ⟨h1, h2, h3⟩ := edge_step hC hm h hu hv hL.1 (he v List.mem_cons_self)
      obtain ⟨f', h4, h5, -⟩ := edges_fold hC hm L _ _ h1 (by rw [h2, mem_del]; exact ⟨hu, hL.1⟩)
        hn.2 hL.2 (fun w hw => h3 w (fun e => hn.1 (e ▸ hw)) (he w (List.mem_cons_of_mem _ hw)))
      have := length_del hv
      rw [h2] at h5
      exact ⟨f', h4, by rw [List.foldl_cons]; omega, fun _ => by rw [List.foldl_cons]; omega⟩
    · have : Cond.edge m u c v = c := if_neg hv
      obtain ⟨f', h4, h5, h6⟩ := edges_fold hC hm L f c h hu hn.2 hL.2
        fun w hw => he w (List.mem_cons_of_mem _ hw)
      refine ⟨f', by rw [List.foldl_cons, this]; exact h4, by rw [List.foldl_cons, this]; exact h5, ?_⟩
      rw [List.foldl_cons, this]
      rintro ⟨w, hw, hwa⟩
      rcases List.mem_cons.1 hw with rfl | hw
      · exact absurd hwa hv
      · exact h6 ⟨w, hw, hwa⟩

theorem vertex_ok (hC : Big g0 C) (hm : ∀ s t, m s t = s) (h : Within g0 C f0 f c) (u : V) :
    ∃ f', Within g0 C f0 f' (Cond.vertex m c u) ∧ (Cond.vertex m c u).alive.length ≤ c.alive.length ∧
      (u ∈ c.alive → (∃ v ∈ c.alive, c.g.E u v) →
        (Cond.vertex m c u).alive.length < c.alive.length) := by
  unfold Cond.vertex
  by_cases hu : u ∈ c.alive
  · rw [if_pos hu]
    have he : c.g.edgesOutOf u = c.g.out u := by simp [edgesOutOf, h.mem hC hu]
    rw [he]
    obtain ⟨hu1, hu2⟩ := (h.alive u).1 hu
    have hloop : u ∉ c.g.out u := by
      intro hc
      obtain ⟨-, -, h3 | ⟨-, h3⟩⟩ := (h.base.quo.edge u u).1 hc
      · exact h3.1 rfl
      · exact hC.loop u hu1 h3
    obtain ⟨f', h1, h2, h3⟩ := edges_fold hC hm (c.g.out u) f c h hu
      (sorted_nodup (h.base.quo.wf.out u)) hloop fun v hv => hv
    refine ⟨f', h1, h2, fun _ => ?_⟩
    rintro ⟨v, hv, e⟩
    exact h3 ⟨v, e, hv⟩
  · rw [if_neg hu]
    exact ⟨f, h, le_rfl, fun k => absurd k hu⟩

theorem vertices_fold (hC : Big g0 C) (hm : ∀ s t, m s t = s) : ∀ (L : List V) (f : V → V)
    (c : Cond V), Within g0 C f0 f c →
    ∃ f', Within g0 C f0 f' (L.foldl (Cond.vertex m) c) ∧
      (L.foldl (Cond.vertex m) c).alive.length ≤ c.alive.length
  | [], f, c, h => ⟨f, h, le_rfl⟩
  | u :: L, f, c, h => by
    obtain ⟨f1, h1, h2, -⟩ := vertex_ok hC hm h u
    obtain ⟨f2, h3, h4⟩ := vertices_fold hC hm L f1 _ h1
    exact ⟨f2, h3, h4.trans h2⟩

/-- A vertex of the component that is not alone has an edge to another one. -/
theorem exists_edge (hC : Big g0 C) (h : Within g0 C f0 f c) {u w : V} (hu : u ∈ c.alive)
    (hw : w ∈ c.alive) (huw : u ≠ w) : ∃ v ∈ c.alive, c.g.E u v := by
  obtain ⟨hu1, hu2⟩ := (h.alive u).1 hu
  obtain ⟨hw1, hw2⟩ := (h.alive w).1 hw
  have key : ∀ z, g0.R u z → g0.R z u → f z = u ∨ ∃ v ∈ c.alive, c.g.E u v := by
    intro z hz
    induction hz with
    | refl => intro _; exact Or.inl hu2
    | tail hb e ih =>
      rename_i b d
      intro hdu
      rcases ih (hdu.head e) with hfb | hfb
      · by_cases hfd : f d = u
        · exact Or.inl hfd
        · refine Or.inr ⟨f d, ?_, ?_⟩
          · have hd : d ∈ C := (hC.equiv u hu1 d).2 ⟨hb.tail e, hdu⟩
            have hdv := hC.vert d hd
            have := h.base.equ d hdv
            exact (h.alive _).2 ⟨(hC.equiv d hd _).2 this, h.base.quo.idem hdv⟩
          · have hdv := (hC.wf.ends b d e).2
            exact (h.base.quo.edge u (f d)).2 ⟨hu2, h.base.quo.idem hdv,
              Or.inl ⟨Ne.symm hfd, b, d, hfb, rfl, e⟩⟩
      · exact Or.inr hfb
  have := (hC.equiv u hu1 w).1 hw1
  rcases key w this.1 this.2 with h1 | h1
  · exact absurd (h1.symm.trans hw2) huw
  · exact h1

theorem passes_ok (hC : Big g0 C) (hm : ∀ s t, m s t = s) : ∀ (k : Nat) (f : V → V) (c : Cond V),
    Within g0 C f0 f c → c.alive.length ≤ k + 1 →
    ∃ f' c', Cond.passes m k c = some c' ∧ Within g0 C f0 f' c' ∧ c'.alive.length ≤ 1
  | k, f, c, h, hk => by
    unfold Cond.passes
    by_cases hl : 1 < c.alive.length
    · rw [if_pos hl]
      match k, hk with
      | 0, hk => omega
      | k + 1, hk =>
        simp only
        have hlt : ∃ f', Within g0 C f0 f' (c.alive.foldl (Cond.vertex m) c) ∧
            (c.alive.foldl (Cond.vertex m) c).alive.length < c.alive.length := by
          rcases ha : c.alive with _ | ⟨u, _ | ⟨w, L⟩⟩
          · simp [ha] at hl
          · simp [ha] at hl
          · have hs := h.sorted
            rw [ha, List.pairwise_cons] at hs
            have hu : u ∈ c.alive := by simp [ha]
            obtain ⟨f1, h1, h2, h3⟩ := vertex_ok hC hm h u
            obtain ⟨f2, h4, h5⟩ := vertices_fold hC hm (w :: L) f1 _ h1
            refine ⟨f2, h4, ?_⟩
            rw [List.foldl_cons, ← ha]
            exact lt_of_le_of_lt h5 (h3 hu (exists_edge hC h hu (by simp [ha]) (ne_of_lt (hs.1 w (by simp)))))
        obtain ⟨f1, h1, h2⟩ := hlt
        exact passes_ok hC hm k f1 _ h1 (by omega)
    · rw [if_neg hl]
      exact ⟨f, c, rfl, h, by omega⟩

theorem component_ok (h0 : g0.WF) (hm : ∀ s t, m s t = s) {k : Nat} (hb : Base g0 f c)
    (hs : C.Pairwise (· < ·)) (hv : ∀ x ∈ C, x ∈ g0.vertices)
    (he : ∀ x ∈ C, ∀ y, y ∈ C ↔ g0.R x y ∧ g0.R y x)
    (hloop : ∀ a, g0.E a a → ∀ b, g0.R a b → g0.R b a → b = a)
    (hid : ∀ x ∈ C, f x = x) (hk : C.length ≤ k + 1) :
    ∃ f' c', Cond.component m k c C = some c' ∧ Base g0 f' c' ∧
      (∀ x ∈ g0.vertices, x ∉ C → f' x = f x) ∧ ∀ x ∈ C, ∀ y ∈ C, f' x = f' y := by
  unfold Cond.component
  by_cases hl : C.length ≤ 1
  · rw [if_pos hl]
    refine ⟨f, c, rfl, hb, fun _ _ _ => rfl, fun x hx y hy => ?_⟩
    rcases C with _ | ⟨a, _ | ⟨b, l⟩⟩
    · simp at hx
    · rw [List.mem_singleton] at hx hy; rw [hx, hy]
    · simp at hl
  · rw [if_neg hl]
    have hC : Big g0 C := by
      refine ⟨h0, hv, he, fun x hx e => ?_⟩
      have hn := sorted_nodup hs
      rcases C with _ | ⟨a, _ | ⟨b, l⟩⟩
      · simp at hx
      · simp at hl
      · have h1 : ∀ y ∈ a :: b :: l, y = x := fun y hy => by
          have := (he x hx y).1 hy
          exact hloop x e y this.1 this.2
        have h2 := h1 a (by simp)
        have h3 := h1 b (by simp)
        rw [h2, h3] at hn
        simp at hn
    have hw : Within g0 C f f { c with alive := C } := by
      refine ⟨⟨hb.quo, hb.equ, hb.cont⟩, hs, fun v => ?_, fun _ _ _ => rfl⟩
      exact ⟨fun h => ⟨h, hid v h⟩, fun h => h.1⟩
    obtain ⟨f', c', h1, h2, h3⟩ := passes_ok hC hm k f _ hw hk
    refine ⟨f', c', h1, h2.base, h2.same, fun x hx y hy => ?_⟩
    have hal : ∀ z ∈ C, f' z ∈ c'.alive := by
      intro z hz
      exact (h2.alive _).2 ⟨(he z hz _).2 (h2.base.equ z (hv z hz)), h2.base.quo.idem (hv z hz)⟩
    have hx' := hal x hx
    have hy' := hal y hy
    rcases ha : c'.alive with _ | ⟨a, _ | ⟨b, l⟩⟩
    · rw [ha] at hx'; simp at hx'
    · rw [ha, List.mem_singleton] at hx' hy'; rw [hx', hy']
    · rw [ha] at h3; simp at h3

theorem components_ok (h0 : g0.WF) (hm : ∀ s t, m s t = s) {k : Nat}
    (hloop : ∀ a, g0.E a a → ∀ b, g0.R a b → g0.R b a → b = a) :
    ∀ (l : List (List V)) (f : V → V) (c : Cond V), Base g0 f c →
    (∀ C ∈ l, C.Pairwise (· < ·) ∧ (∀ x ∈ C, x ∈ g0.vertices) ∧
      (∀ x ∈ C, ∀ y, y ∈ C ↔ g0.R x y ∧ g0.R y x) ∧ C.length ≤ k + 1) →
    l.flatten.Nodup → (∀ x ∈ l.flatten, f x = x) →
    ∃ f' c', l.foldlM (Cond.component m k) c = some c' ∧ Base g0 f' c' ∧
      (∀ x ∈ g0.vertices, x ∉ l.flatten → f' x = f x) ∧
      ∀ C ∈ l, ∀ x ∈ C, ∀ y ∈ C, f' x = f' y
  | [], f, c, hb, _, _, _ => ⟨f, c, rfl, hb, fun _ _ _ => rfl, by simp⟩
  | C :: l, f, c, hb, hl, hn, hid => by
    obtain ⟨h1, h2, h3, h4⟩ := hl C List.mem_cons_self
    rw [List.flatten_cons] at hn
    obtain ⟨n1, n2, n3⟩ := List.nodup_append.1 hn
    obtain ⟨f1, c1, k1, k2, k3, k4⟩ := component_ok (k := k) h0 hm hb h1 h2 h3 hloop
      (fun x hx => hid x (by simp [hx])) h4
    have hlv : ∀ x ∈ l.flatten, x ∈ g0.vertices := by
      intro x hx
      obtain ⟨D, hD, hxD⟩ := List.mem_flatten.1 hx
      exact (hl D (List.mem_cons_of_mem _ hD)).2.1 x hxD
    obtain ⟨f2, c2, k5, k6, k7, k8⟩ := components_ok h0 hm hloop l f1 c1 k2
      (fun D hD => hl D (List.mem_cons_of_mem _ hD)) n2 (fun x hx => by
        rw [k3 x (hlv x hx) (fun hc => n3 x hc x hx rfl)]
        exact hid x (by rw [List.flatten_cons]; exact List.mem_append_right _ hx))
    refine ⟨f2, c2, by rw [List.foldlM_cons, k1]; exact k5, k6, ?_, ?_⟩
    · intro x hxv hx
      rw [List.flatten_cons, List.mem_append, not_or] at hx
      rw [k7 x hxv hx.2, k3 x hxv hx.1]
    · intro D hD
      rcases List.mem_cons.1 hD with rfl | hD
      · intro x hx y hy
        rw [k7 x (h2 x hx) (fun hc => n3 x hx x hc rfl), k7 y (h2 y hy) (fun hc => n3 y hy y hc rfl)]
        exact k4 x hx y hy
      · exact k8 D hD

theorem condense_ok (h0 : g0.WF) (hm : ∀ s t, m s t = s)
    (hloop : ∀ a, g0.E a a → ∀ b, g0.R a b → g0.R b a → b = a) {k : Nat}
    (hk : g0.vertices.length ≤ k + 1) :
    ∃ f c, condenseGraph m g0 k = some c ∧ Base g0 f c ∧
      ∀ x ∈ g0.vertices, ∀ y ∈ g0.vertices, f x = f y ↔ g0.R x y ∧ g0.R y x := by
  obtain ⟨l, h1, h2⟩ := scc_ok h0
  have hsub : ∀ C ∈ l, ∀ x ∈ C, x ∈ g0.vertices := fun C hC x hx =>
    (h2.mem x).1 (List.mem_flatten.2 ⟨C, hC, hx⟩)
  obtain ⟨f, c, h3, h4, -, h6⟩ := components_ok (m := m) (k := k) h0 hm hloop l id ⟨g0, [], []⟩
    ⟨Quo.refl h0, fun v _ => ⟨.refl, .refl⟩, fun a ha => ⟨by simp [content], fun x => by
      simp only [content, List.foldl_nil, List.mem_singleton, id_eq]
      constructor
      · rintro rfl; exact ⟨ha, rfl⟩
      · exact fun h => h.2⟩⟩
    (fun C hC => ⟨(h2.sorted C hC).2, hsub C hC, h2.equiv C hC,
      ((List.subperm_of_subset (sorted_nodup (h2.sorted C hC).2) (hsub C hC)).length_le).trans hk⟩)
    h2.nodup (fun _ _ => rfl)
  refine ⟨f, c, by simp [condenseGraph, h1, h3], h4, fun x hx y hy => ⟨fun e => ?_, fun e => ?_⟩⟩
  · have a := h4.equ x hx
    have b := h4.equ y hy
    rw [e] at a
    exact ⟨a.1.trans b.2, b.1.trans a.2⟩
  · obtain ⟨C, hC, hxC⟩ := List.mem_flatten.1 ((h2.mem x).2 hx)
    exact h6 C hC x hxC y ((h2.equiv C hC x hxC y).2 e)

end Graph

end Heir.Graph
