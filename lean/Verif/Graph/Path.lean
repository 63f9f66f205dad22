import Verif.Graph.Colour

/-! # Breadth-first search with unit weights -/

namespace Heir.Graph

open Graph

variable {V : Type} [LinearOrder V]

/-- A vertex has a distance. -/
def Found (s : Search V) (v : V) : Prop := s.dist v ≠ BitVec.allOnes 64

/-- Number of steps to a vertex. -/
def Graph.Search.at (s : Search V) (v : V) : Nat := (s.dist v).toNat

/-- The invariant of the search; the edges from the vertex in `skip` may still be unexplored. -/
structure SInv (g : Graph V) (start : V) (s : Search V) (skip : V → V → Prop) : Prop where
  walk : ∀ v, Found s v → Walk (fun a b => b ∈ g.out a) start v (s.at v)
  begins : Found s start ∧ s.at start = 0
  visited : ∀ u ∈ s.visited, Found s u ∧ u ∈ g.vertices
  nodup : s.visited.Nodup
  relaxed : ∀ u ∈ s.visited, ∀ w ∈ g.out u, skip u w ∨ (Found s w ∧ s.at w ≤ s.at u + 1)
  queued : ∀ v, Found s v → v ∉ s.visited → v ∈ s.queue
  found : ∀ v ∈ s.queue, Found s v ∧ v ∈ g.vertices
  order : ∀ a x b, s.queue = a ++ x :: b → x ∉ s.visited →
    ∀ y, Found s y → y ∉ s.visited → s.at y < s.at x → y ∈ a
  spread : ∀ x y, Found s x → x ∉ s.visited → Found s y → s.at y ≤ s.at x + 1
  below : ∀ u ∈ s.visited, ∀ x, Found s x → x ∉ s.visited → s.at u ≤ s.at x
  link : ∀ u w, s.link u = some w → w ∈ g.out u ∧ u ∈ s.visited ∧ (u = start ∨ s.at w = s.at u + 1)
  small : ∀ v, Found s v → s.at v ≤ s.visited.length

theorem relax_ok {g : Graph V} (hg : g.WF) (hV : g.vertices.length < 2 ^ 64 - 2)
    {w : V → V → BitVec 64} {curr next start : V} {s : Search V} {skip : V → V → Prop}
    (hw : w curr next = 1#64) (hm : next ∈ g.out curr) (hc : curr ∈ s.visited)
    (hall : ∀ v, Found s v → s.at v ≤ s.at curr + 1)
    (hlow : ∀ v, Found s v → v ∉ s.visited → s.at curr ≤ s.at v)
    (hsm : s.at curr + 1 ≤ s.visited.length)
    (h : SInv g start s skip) :
    SInv g start (relax w curr s next) (fun u v => skip u v ∧ ¬ (u = curr ∧ v = next)) ∧
    (relax w curr s next).visited = s.visited ∧
    (relax w curr s next).at curr = s.at curr ∧
    (relax w curr s next).queue.length = s.queue.length + 1 ∧
    (∀ v, Found (relax w curr s next) v → (relax w curr s next).at v ≤ s.at curr + 1) ∧
    (∀ v, Found (relax w curr s next) v → v ∉ s.visited → s.at curr ≤ (relax w curr s next).at v) := by
  have hvl : s.visited.length ≤ g.vertices.length :=
    (h.nodup.subperm fun u hu => (h.visited u hu).2).length_le
  have hnv : next ∈ g.vertices := (hg.ends curr next hm).2
  have hcf := (h.visited curr hc).1
  have hmax : ∀ v, ¬ Found s v → (s.dist v).toNat = 2 ^ 64 - 1 := by
    intro v hv
    have : s.dist v = BitVec.allOnes 64 := not_not.1 hv
    rw [this]; decide
  have hsum : (s.dist curr + 1#64).toNat = s.at curr + 1 := by
    have := h.small curr hcf
    unfold Graph.Search.at at this ⊢
    rw [BitVec.toNat_add]
    simp only [BitVec.toNat_ofNat]
    omega
  by_cases hf : Found s next
  · -- already discovered
    have hng : ¬ s.dist next > s.dist curr + w curr next := by
      rw [hw]
      intro hgt
      have := BitVec.lt_def.1 hgt
      rw [hsum] at this
      have := hall next hf
      unfold Graph.Search.at at *
      omega
    have hs : ∃ link', relax w curr s next = ⟨s.queue ++ [next], s.visited, s.dist, link'⟩ ∧
        (link' = s.link ∨ (s.at curr = 0 ∧ link' = upd s.link curr (some next))) := by
      unfold relax
      rw [if_neg hng]
      by_cases h0 : s.dist curr = 0#64
      · rw [if_pos h0]
        exact ⟨_, rfl, Or.inr ⟨by unfold Graph.Search.at; rw [h0]; rfl, rfl⟩⟩
      · rw [if_neg h0]
        exact ⟨_, rfl, Or.inl rfl⟩
    obtain ⟨link', he, hl⟩ := hs
    rw [he]
    have hF : ∀ v, Found (⟨s.queue ++ [next], s.visited, s.dist, link'⟩ : Search V) v ↔ Found s v :=
      fun v => Iff.rfl
    have hA : ∀ v, (⟨s.queue ++ [next], s.visited, s.dist, link'⟩ : Search V).at v = s.at v :=
      fun v => rfl
    refine ⟨⟨h.walk, h.begins, h.visited, h.nodup, ?_, ?_, ?_, ?_, h.spread, h.below, ?_, h.small⟩,
      rfl, rfl, by simp, hall, hlow⟩
    · intro u hu v hv
      by_cases he : u = curr ∧ v = next
      · obtain ⟨rfl, rfl⟩ := he
        exact Or.inr ⟨hf, hall v hf⟩
      · rcases h.relaxed u hu v hv with h' | h'
        · exact Or.inl ⟨h', he⟩
        · exact Or.inr h'
    · intro v hv hnv
      exact List.mem_append_left _ (h.queued v hv hnv)
    · intro v hv
      rcases List.mem_append.1 hv with hv | hv
      · exact h.found v hv
      · rw [List.mem_singleton] at hv
        subst hv
        exact ⟨hf, hnv⟩
    · intro a x b e hx y hy hyv hlt
      rcases List.eq_nil_or_concat b with rfl | ⟨b, d, rfl⟩
      · obtain ⟨h1, _⟩ := List.append_inj' e rfl
        exact h1 ▸ h.queued y hy hyv
      · rw [List.concat_eq_append, ← List.cons_append, ← List.append_assoc] at e
        obtain ⟨h1, _⟩ := List.append_inj' e rfl
        exact h.order a x b h1 hx y hy hyv hlt
    · intro u v huv
      simp only [hA]
      rcases hl with rfl | ⟨h0, rfl⟩
      · exact h.link u v huv
      · by_cases huc : u = curr
        · subst huc
          simp only [upd_same, Option.some.injEq] at huv
          subst huv
          refine ⟨hm, hc, Or.inl ?_⟩
          have := h.walk u hcf
          rw [h0] at this
          cases this
          rfl
        · simp only [upd_ne _ _ huc] at huv
          exact h.link u v huv
  · -- new
    have hgt : s.dist next > s.dist curr + w curr next := by
      rw [hw]
      refine BitVec.lt_def.2 ?_
      rw [hsum, hmax next hf]
      omega
    have hcn : curr ≠ next := by rintro rfl; exact hf hcf
    have he : relax w curr s next = ⟨s.queue ++ [next], s.visited,
        upd s.dist next (s.dist curr + 1#64), upd s.link curr (some next)⟩ := by
      unfold relax
      rw [if_pos hgt, hw]
    rw [he]
    generalize hs' : (⟨s.queue ++ [next], s.visited, upd s.dist next (s.dist curr + 1#64),
      upd s.link curr (some next)⟩ : Search V) = s'
    have hd : s'.dist = upd s.dist next (s.dist curr + 1#64) := by rw [← hs']
    have hvis : s'.visited = s.visited := by rw [← hs']
    have hqueue : s'.queue = s.queue ++ [next] := by rw [← hs']
    have hlink : s'.link = upd s.link curr (some next) := by rw [← hs']
    have hA1 : s'.at next = s.at curr + 1 := by
      unfold Graph.Search.at
      rw [hd, upd_same, hsum]; rfl
    have hA2 : ∀ v, v ≠ next → s'.at v = s.at v := by
      intro v hv
      unfold Graph.Search.at
      rw [hd, upd_ne _ _ hv]
    have hF1 : Found s' next := by
      unfold Found
      intro he
      have := congrArg BitVec.toNat he
      rw [BitVec.toNat_allOnes] at this
      change s'.at next = _ at this
      rw [hA1] at this
      omega
    have hF2 : ∀ v, v ≠ next → (Found s' v ↔ Found s v) := by
      intro v hv
      unfold Found
      rw [hd, upd_ne _ _ hv]
    have hFA : ∀ v, Found s' v → (v = next ∧ s'.at v = s.at curr + 1) ∨
        (v ≠ next ∧ Found s v ∧ s'.at v = s.at v) := by
      intro v hv
      by_cases hvn : v = next
      · subst hvn; exact Or.inl ⟨rfl, hA1⟩
      · exact Or.inr ⟨hvn, (hF2 v hvn).1 hv, hA2 v hvn⟩
    have hvisne : ∀ u ∈ s.visited, u ≠ next := by
      rintro u hu rfl
      exact hf (h.visited u hu).1
    refine ⟨⟨?_, ?_, ?_, ?_, ?_, ?_, ?_, ?_, ?_, ?_, ?_, ?_⟩, hvis, hA2 curr hcn, ?_, ?_, ?_⟩
    · intro v hv
      rcases hFA v hv with ⟨rfl, e⟩ | ⟨_, hv, e⟩
      · rw [e]
        have h1 := h.walk curr hcf
        have : ∀ {a b c : V} {n : Nat}, Walk (fun a b => b ∈ g.out a) a b n → c ∈ g.out b →
            Walk (fun a b => b ∈ g.out a) a c (n + 1) := by
          intro a b c n h
          induction h with
          | nil v => intro hc; exact .cons hc (.nil _)
          | cons h1 _ ih => intro hc; exact .cons h1 (ih hc)
        exact this h1 hm
      · rw [e]; exact h.walk v hv
    · have hne : start ≠ next := by rintro rfl; exact hf h.begins.1
      exact ⟨(hF2 _ hne).2 h.begins.1, by rw [hA2 _ hne]; exact h.begins.2⟩
    · intro u hu
      rw [hvis] at hu
      exact ⟨(hF2 u (hvisne u hu)).2 (h.visited u hu).1, (h.visited u hu).2⟩
    · rw [hvis]; exact h.nodup
    · intro u hu v hv
      rw [hvis] at hu
      rw [hA2 u (hvisne u hu)]
      by_cases hvn : v = next
      · subst hvn
        by_cases huc : u = curr
        · subst huc; exact Or.inr ⟨hF1, hA1.le⟩
        · rcases h.relaxed u hu v hv with h' | h'
          · exact Or.inl ⟨h', fun e => huc e.1⟩
          · exact absurd h'.1 hf
      · rcases h.relaxed u hu v hv with h' | h'
        · exact Or.inl ⟨h', fun e => hvn e.2⟩
        · exact Or.inr ⟨(hF2 v hvn).2 h'.1, by rw [hA2 v hvn]; exact h'.2⟩
    · intro v hv hnv
      rw [hvis] at hnv
      rw [hqueue]
      rcases hFA v hv with ⟨rfl, _⟩ | ⟨_, hv, _⟩
      · simp
      · exact List.mem_append_left _ (h.queued v hv hnv)
    · intro v hv
      rw [hqueue] at hv
      rcases List.mem_append.1 hv with hv | hv
      · have hvn : v ≠ next := fun e => hf (e ▸ (h.found v hv).1)
        exact ⟨(hF2 v hvn).2 (h.found v hv).1, (h.found v hv).2⟩
      · rw [List.mem_singleton] at hv
        subst hv
        exact ⟨hF1, hnv⟩
    · intro a x b e hx y hy hyv hlt
      rw [hqueue] at e
      rw [hvis] at hx hyv
      rcases List.eq_nil_or_concat b with rfl | ⟨b, d, rfl⟩
      · obtain ⟨h1, h2⟩ := List.append_inj' e rfl
        have hxn : next = x := by simpa using h2
        subst hxn
        rcases hFA y hy with ⟨rfl, _⟩ | ⟨_, hy, _⟩
        · omega
        · exact h1 ▸ h.queued y hy hyv
      · rw [List.concat_eq_append, ← List.cons_append, ← List.append_assoc] at e
        obtain ⟨h1, _⟩ := List.append_inj' e rfl
        have hxq : x ∈ s.queue := by rw [h1]; simp
        have hxf := (h.found x hxq).1
        have hxn : x ≠ next := by rintro rfl; exact hf hxf
        rw [hA2 x hxn] at hlt
        rcases hFA y hy with ⟨rfl, e1⟩ | ⟨_, hy, e1⟩
        · have := hall x hxf
          omega
        · exact h.order a x b h1 hx y hy hyv (by omega)
    · intro x y hx hxv hy
      rw [hvis] at hxv
      rcases hFA x hx with ⟨rfl, e1⟩ | ⟨_, hx, e1⟩ <;> rcases hFA y hy with ⟨rfl, e2⟩ | ⟨_, hy, e2⟩
      · omega
      · have := hall y hy; omega
      · have := hlow x hx hxv; omega
      · have := h.spread x y hx hxv hy; omega
    · intro u hu x hx hxv
      rw [hvis] at hu hxv
      rw [hA2 u (hvisne u hu)]
      rcases hFA x hx with ⟨rfl, e1⟩ | ⟨_, hx, e1⟩
      · have := hall u (h.visited u hu).1; omega
      · have := h.below u hu x hx hxv; omega
    · intro u v huv
      rw [hlink] at huv
      rw [hvis]
      by_cases huc : u = curr
      · subst huc
        simp only [upd_same, Option.some.injEq] at huv
        subst huv
        exact ⟨hm, hc, Or.inr (by rw [hA1, hA2 u hcn])⟩
      · rw [upd_ne _ _ huc] at huv
        obtain ⟨h1, h2, h3⟩ := h.link u v huv
        refine ⟨h1, h2, ?_⟩
        rcases h3 with h3 | h3
        · exact Or.inl h3
        · right
          rw [hA2 u (hvisne u h2)]
          by_cases hvn : v = next
          · -- an undiscovered vertex has no link to it
            exfalso
            subst hvn
            have := hmax v hf
            unfold Graph.Search.at at h3
            have := h.small u (h.visited u h2).1
            unfold Graph.Search.at at this
            omega
          · rw [hA2 v hvn]; exact h3
    · intro v hv
      rw [hvis]
      rcases hFA v hv with ⟨rfl, e⟩ | ⟨_, hv, e⟩
      · omega
      · rw [e]; exact h.small v hv
    · rw [hqueue]; simp
    · intro v hv
      rcases hFA v hv with ⟨rfl, e⟩ | ⟨_, hv, e⟩
      · omega
      · rw [e]; exact hall v hv
    · intro v hv hvv
      rcases hFA v hv with ⟨rfl, e⟩ | ⟨_, hv, e⟩
      · omega
      · rw [e]; exact hlow v hv hvv

theorem foldl_relax_ok {g : Graph V} (hg : g.WF) (hV : g.vertices.length < 2 ^ 64 - 2)
    {w : V → V → BitVec 64} {curr start : V} : ∀ (L : List V) (s : Search V),
    (∀ v ∈ L, w curr v = 1#64 ∧ v ∈ g.out curr) → curr ∈ s.visited →
    (∀ v, Found s v → s.at v ≤ s.at curr + 1) →
    (∀ v, Found s v → v ∉ s.visited → s.at curr ≤ s.at v) →
    s.at curr + 1 ≤ s.visited.length →
    SInv g start s (fun u v => u = curr ∧ v ∈ L) →
    SInv g start (L.foldl (relax w curr) s) (fun _ _ => False) ∧
    (L.foldl (relax w curr) s).visited = s.visited ∧
    (L.foldl (relax w curr) s).queue.length = s.queue.length + L.length := by
  intro L
  induction L with
  | nil =>
    intro s _ _ _ _ _ h
    refine ⟨?_, rfl, rfl⟩
    simpa using h
  | cons a L ih =>
    intro s hL hc hall hlow hsm h
    obtain ⟨h1, h2, h3, h4, h5, h6⟩ := relax_ok hg hV (hL a (by simp)).1 (hL a (by simp)).2 hc hall
      hlow hsm h
    obtain ⟨k1, k2, k3⟩ := ih (relax w curr s a) (fun v hv => hL v (by simp [hv])) (h2 ▸ hc)
      (by rw [h3]; exact h5) (by rw [h3, h2]; exact h6) (by rw [h3, h2]; exact hsm)
      (by
        refine ⟨h1.walk, h1.begins, h1.visited, h1.nodup, ?_, h1.queued, h1.found, h1.order,
          h1.spread, h1.below, h1.link, h1.small⟩
        intro u hu v hv
        rcases h1.relaxed u hu v hv with ⟨⟨rfl, hm⟩, hn⟩ | h'
        · left
          refine ⟨rfl, ?_⟩
          rcases List.mem_cons.1 hm with rfl | hm
          · exact absurd ⟨rfl, rfl⟩ hn
          · exact hm
        · exact Or.inr h')
    refine ⟨k1, k2.trans h2, ?_⟩
    rw [List.foldl_cons, k3, h4, List.length_cons]
    omega

/-- Remaining work of the search. -/
def searchWork (g : Graph V) (s : Search V) : Nat :=
  s.queue.length + (g.vertices.map fun v => if v ∈ s.visited then 0 else (g.out v).length).sum

theorem search_ok {g : Graph V} (hg : g.WF) (hV : g.vertices.length < 2 ^ 64 - 2)
    {start target : V} : ∀ (fuel : Nat) (s : Search V),
    SInv g start s (fun _ _ => False) → target ∉ s.visited → searchWork g s < fuel →
    ∃ s' r, search g (unitWeight g) target fuel s = some r ∧
      SInv g start s' (fun _ _ => False) ∧ target ∉ s'.visited ∧ r.link = s'.link ∧
      ((s'.queue = [] ∧ r = s') ∨ ((∃ q, s'.queue = target :: q) ∧
        r.dist = upd s'.dist target 0#64)) := by
  intro fuel
  induction fuel with
  | zero => intro s _ _ h; omega
  | succ fuel ih =>
    intro s h ht hw
    cases hq : s.queue with
    | nil =>
      refine ⟨s, s, ?_, h, ht, rfl, Or.inl ⟨hq, rfl⟩⟩
      simp [search, hq]
    | cons curr q =>
      by_cases hct : curr = target
      · subst hct
        refine ⟨s, { s with queue := q, dist := upd s.dist curr 0#64 }, ?_, h, ht, rfl,
          Or.inr ⟨⟨q, hq⟩, rfl⟩⟩
        simp [search, hq]
      · by_cases hcv : curr ∈ s.visited
        · have e : search g (unitWeight g) target (fuel + 1) s =
              search g (unitWeight g) target fuel { s with queue := q } := by
            simp [search, hq, hct, hcv]
          rw [e]
          refine ih { s with queue := q } ?_ ht ?_
          · refine ⟨h.walk, h.begins, h.visited, h.nodup, h.relaxed, ?_, ?_, ?_, h.spread, h.below,
              h.link, h.small⟩
            · intro v hv hnv
              have := h.queued v hv hnv
              rw [hq] at this
              rcases List.mem_cons.1 this with rfl | this
              · exact absurd hcv hnv
              · exact this
            · intro v hv
              exact h.found v (by rw [hq]; exact List.mem_cons_of_mem _ hv)
            · intro a x b e hx y hy hyv hlt
              have e' : q = a ++ x :: b := e
              have := h.order (curr :: a) x b (by rw [hq, e']; rfl) hx y hy hyv hlt
              rcases List.mem_cons.1 this with rfl | this
              · exact absurd hcv hyv
              · exact this
          · unfold searchWork at hw ⊢
            rw [hq, List.length_cons] at hw
            simp only
            omega
        · have hcq : curr ∈ s.queue := by rw [hq]; exact List.mem_cons_self
          obtain ⟨hcf, hcV⟩ := h.found curr hcq
          have hmin : ∀ y, Found s y → y ∉ s.visited → s.at curr ≤ s.at y := by
            intro y hy hyv
            by_contra hlt
            have := h.order [] curr q hq hcv y hy hyv (by omega)
            simp at this
          have e : search g (unitWeight g) target (fuel + 1) s =
              search g (unitWeight g) target fuel ((g.out curr).foldl (relax (unitWeight g) curr)
                { s with queue := q, visited := curr :: s.visited }) := by
            simp [search, hq, hct, hcv]
          obtain ⟨k1, k2, k3⟩ := foldl_relax_ok hg hV (w := unitWeight g) (curr := curr)
            (start := start) (g.out curr) { s with queue := q, visited := curr :: s.visited }
            (by
              intro v hv
              refine ⟨?_, hv⟩
              have := hg.ends curr v hv
              simp [unitWeight, hasEdge, this, hv])
            (by simp)
            (fun v hv => h.spread curr v hcf hcv hv)
            (fun v hv hvv => hmin v hv (fun h' => hvv (List.mem_cons_of_mem _ h')))
            (by
              have := h.small curr hcf
              simp only [List.length_cons]
              change s.at curr + 1 ≤ _
              omega)
            (by
              refine ⟨h.walk, h.begins, ?_, List.nodup_cons.2 ⟨hcv, h.nodup⟩, ?_, ?_, ?_, ?_, ?_, ?_,
                ?_, ?_⟩
              · intro u hu
                rcases List.mem_cons.1 hu with rfl | hu
                · exact ⟨hcf, hcV⟩
                · exact h.visited u hu
              · intro u hu v hv
                rcases List.mem_cons.1 hu with rfl | hu
                · exact Or.inl ⟨rfl, hv⟩
                · exact Or.inr ((h.relaxed u hu v hv).resolve_left id)
              · intro v hv hnv
                have hne : v ≠ curr := fun e => hnv (e ▸ List.mem_cons_self)
                have := h.queued v hv (fun h' => hnv (List.mem_cons_of_mem _ h'))
                rw [hq] at this
                exact (List.mem_cons.1 this).resolve_left hne
              · intro v hv
                exact h.found v (by rw [hq]; exact List.mem_cons_of_mem _ hv)
              · intro a x b e hx y hy hyv hlt
                have e' : q = a ++ x :: b := e
                have hyc : y ≠ curr := fun e => hyv (e ▸ List.mem_cons_self)
                have := h.order (curr :: a) x b (by rw [hq, e']; rfl)
                  (fun h' => hx (List.mem_cons_of_mem _ h')) y hy
                  (fun h' => hyv (List.mem_cons_of_mem _ h')) hlt
                exact (List.mem_cons.1 this).resolve_left hyc
              · intro x y hx hxv hy
                exact h.spread x y hx (fun h' => hxv (List.mem_cons_of_mem _ h')) hy
              · intro u hu x hx hxv
                have hxv' : x ∉ s.visited := fun h' => hxv (List.mem_cons_of_mem _ h')
                rcases List.mem_cons.1 hu with rfl | hu
                · exact hmin x hx hxv'
                · exact h.below u hu x hx hxv'
              · intro u v huv
                obtain ⟨h1, h2, h3⟩ := h.link u v huv
                exact ⟨h1, List.mem_cons_of_mem _ h2, h3⟩
              · intro v hv
                have := h.small v hv
                simp only [List.length_cons]
                change s.at v ≤ _
                omega)
          rw [e]
          refine ih _ k1 ?_ ?_
          · rw [k2]
            intro h'
            rcases List.mem_cons.1 h' with h' | h'
            · exact hct h'.symm
            · exact ht h'
          · have := sum_drop (sorted_nodup hg.vertices) hcV
              (fun v => if v ∈ s.visited then 0 else (g.out v).length)
              (fun v => if v ∈ curr :: s.visited then 0 else (g.out v).length)
              (by simp) (fun v hv => by simp [hv])
            rw [if_neg hcv] at this
            unfold searchWork at hw ⊢
            rw [k2, k3]
            rw [hq, List.length_cons] at hw
            simp only
            omega

/-- Vertices closer than the target are found along every walk. -/
theorem closest {g : Graph V} {start target : V} {s : Search V}
    (h : SInv g start s (fun _ _ => False)) (ht : target ∉ s.visited)
    (hq : s.queue = [] ∨ ∃ q, s.queue = target :: q) {n : Nat}
    (hw : Walk (fun a b => b ∈ g.out a) start target n) : Found s target ∧ s.at target ≤ n := by
  have key : ∀ {a : V} {n : Nat}, Walk (fun a b => b ∈ g.out a) a target n → Found s a →
      Found s target ∧ s.at target ≤ s.at a + n := by
    intro a n hw
    induction n generalizing a with
    | zero => cases hw; intro h'; exact ⟨h', by omega⟩
    | succ n ih =>
      cases hw with
      | cons e hw =>
        rename_i b
        intro ha
        by_cases hav : a ∈ s.visited
        · obtain ⟨h1, h2⟩ := (h.relaxed a hav b e).resolve_left id
          obtain ⟨h3, h4⟩ := ih hw h1
          exact ⟨h3, by omega⟩
        · -- an unvisited vertex: the queue starts with the target
          rcases hq with hq | ⟨q, hq⟩
          · have := h.queued a ha hav
            rw [hq] at this
            simp at this
          · have hf := (h.found target (by rw [hq]; exact List.mem_cons_self)).1
            refine ⟨hf, ?_⟩
            by_contra hlt
            have := h.order [] target q hq ht a ha hav (by omega)
            simp at this
  have := key hw h.begins.1
  rw [h.begins.2] at this
  simpa using this

theorem follow_mono (dflt : V) (link : V → Option V) (target : V) : ∀ (k : Nat) (u : V) (l : List V),
    follow dflt link target k u = some l → ∀ j, follow dflt link target (k + j) u = some l := by
  intro k
  induction k with
  | zero => intro u l h; simp [follow] at h
  | succ k ih =>
    intro u l h j
    rw [show k + 1 + j = (k + j) + 1 by omega]
    simp only [follow] at h ⊢
    split at h
    · rename_i hu; rw [if_pos hu]; exact h
    · rename_i hu
      rw [if_neg hu]
      cases hf : follow dflt link target k ((link u).getD dflt) with
      | none => rw [hf] at h; simp at h
      | some l' => rw [ih _ _ hf j]; rw [hf] at h; exact h

theorem follow_dead (dflt : V) (link : V → Option V) (target : V) (hd : link dflt = none)
    (ht : dflt ≠ target) : ∀ k, follow dflt link target k dflt = none := by
  intro k
  induction k with
  | zero => rfl
  | succ k ih => simp [follow, ht, hd, ih]

/-- The path that is followed. -/
theorem follow_ok {g : Graph V} {start target dflt : V} {s : Search V}
    (h : SInv g start s (fun _ _ => False)) (ht : target ∉ s.visited) (hd : dflt ∉ g.vertices)
    (htv : target ∈ g.vertices) : ∀ (k : Nat) (u : V) (l : List V), Found s u →
    follow dflt s.link target k u = some l →
    List.IsChain (fun a b => b ∈ g.out a) l ∧ l.head? = some u ∧ l.getLast? = some target ∧
      s.at u + l.length = s.at target + 1 := by
  have hdl : s.link dflt = none := by
    cases hl : s.link dflt with
    | none => rfl
    | some w => exact absurd (h.visited dflt (h.link dflt w hl).2.1).2 hd
  have hdt : dflt ≠ target := by rintro rfl; exact hd htv
  intro k
  induction k with
  | zero => intro u l _ hf; simp [follow] at hf
  | succ k ih =>
    intro u l hu hf
    simp only [follow] at hf
    split at hf
    · rename_i hut
      subst hut
      obtain rfl := Option.some.inj hf
      exact ⟨by simp, by simp, by simp, by simp⟩
    · rename_i hut
      cases hl : s.link u with
      | none =>
        rw [hl, Option.getD_none, follow_dead dflt s.link target hdl hdt] at hf
        simp at hf
      | some w =>
        rw [hl, Option.getD_some] at hf
        cases hf' : follow dflt s.link target k w with
        | none => rw [hf'] at hf; simp at hf
        | some l' =>
          rw [hf'] at hf
          obtain rfl := Option.some.inj hf
          obtain ⟨h1, h2, h3⟩ := h.link u w hl
          obtain ⟨hwf, hwle⟩ := (h.relaxed u h2 w h1).resolve_left id
          obtain ⟨i1, i2, i3, i4⟩ := ih w l' hwf hf'
          obtain ⟨x, t, rfl⟩ : ∃ x t, l' = x :: t := by
            cases l' with
            | nil => simp at i2
            | cons x t => exact ⟨x, t, rfl⟩
          obtain rfl : x = w := by simpa using i2
          have hat : s.at x = s.at u + 1 := by
            rcases h3 with rfl | h3
            · -- from the start
              have h0 := h.begins.2
              by_cases hx : x = u
              · exfalso
                subst hx
                have m1 := follow_mono dflt s.link target k x (x :: t) hf' 1
                rw [show k + 1 = k + 1 from rfl] at m1
                simp only [follow, if_neg hut, hl, Option.getD_some, hf', Option.map_some] at m1
                have := congrArg List.length (Option.some.inj m1)
                simp at this
              · have : s.at x ≠ 0 := by
                  intro hx0
                  have := h.walk x hwf
                  rw [hx0] at this
                  cases this
                  exact hx rfl
                omega
            · exact h3
          refine ⟨List.IsChain.cons_cons h1 i1, rfl, by simpa using i3, ?_⟩
          simp only [List.length_cons] at i4 ⊢
          omega

theorem getShortestPath_unit {g : Graph V} (hg : g.WF) (hV : g.vertices.length < 2 ^ 64 - 2)
    {dflt start target : V} (hs : start ∈ g.vertices) (ht : target ∈ g.vertices)
    (hd : dflt ∉ g.vertices) :
    (g.getShortestPath dflt (unitWeight g) start target = .failure ↔
      ¬ ∃ n, Walk (fun a b => b ∈ g.out a) start target n) ∧
    (∀ l, g.getShortestPath dflt (unitWeight g) start target = .path l →
      List.IsChain (fun a b => b ∈ g.out a) l ∧ l.head? = some start ∧ l.getLast? = some target ∧
      ∀ n, Walk (fun a b => b ∈ g.out a) start target n → l.length ≤ n + 1) := by
  have hf0 : ∀ v, Found (⟨[start], [], upd (fun _ => BitVec.allOnes 64) start 0#64,
      fun _ => none⟩ : Search V) v ↔ v = start := by
    intro v
    unfold Found
    by_cases hv : v = start
    · subst hv; simp
    · simp [upd_ne _ _ hv, hv]
  have ha0 : (⟨[start], [], upd (fun _ => BitVec.allOnes 64) start 0#64,
      fun _ => none⟩ : Search V).at start = 0 := by simp [Graph.Search.at]
  have h0 : SInv g start ⟨[start], [], upd (fun _ => BitVec.allOnes 64) start 0#64, fun _ => none⟩
      (fun _ _ => False) := by
    refine ⟨?_, ⟨(hf0 _).2 rfl, ha0⟩, by simp, List.nodup_nil, by simp, ?_, ?_, ?_, ?_, by simp,
      by simp, ?_⟩
    · intro v hv
      obtain rfl := (hf0 v).1 hv
      rw [ha0]; exact .nil _
    · intro v hv _
      rw [(hf0 v).1 hv]; simp
    · intro v hv
      obtain rfl : v = start := by simpa using hv
      exact ⟨(hf0 v).2 rfl, hs⟩
    · intro a x b e _ y hy _ hlt
      obtain rfl := (hf0 y).1 hy
      rw [ha0] at hlt
      cases a with
      | nil =>
        obtain rfl : y = x := by simp at e; exact e.1
        rw [ha0] at hlt; omega
      | cons c a => simp at e
    · intro x y hx _ hy
      rw [(hf0 x).1 hx, (hf0 y).1 hy]; omega
    · intro v hv
      rw [(hf0 v).1 hv, ha0]; simp
  obtain ⟨s', r, hr, hi, htv, hl, hend⟩ := search_ok hg hV (target := target)
    ((g.vertices.map fun v => (g.out v).length).sum + 2) _ h0 (by simp)
    (by unfold searchWork; simp; omega)
  have hq : s'.queue = [] ∨ ∃ q, s'.queue = target :: q := by
    rcases hend with ⟨h, _⟩ | ⟨h, _⟩
    · exact Or.inl h
    · exact Or.inr h
  have hfound : Found r target ↔ Found s' target := by
    rcases hend with ⟨_, rfl⟩ | ⟨⟨q, hq⟩, hd⟩
    · exact Iff.rfl
    · have := (hi.found target (by rw [hq]; exact List.mem_cons_self)).1
      refine ⟨fun _ => this, fun _ => ?_⟩
      unfold Found
      rw [hd, upd_same]
      decide
  have hreach : Found s' target ↔ ∃ n, Walk (fun a b => b ∈ g.out a) start target n :=
    ⟨fun h => ⟨_, hi.walk target h⟩, fun ⟨n, hn⟩ => (closest hi htv hq hn).1⟩
  unfold getShortestPath
  simp only [hr]
  constructor
  · rw [← hreach, ← hfound]
    by_cases hf : Found r target
    · have : r.dist target ≠ BitVec.allOnes 64 := hf
      rw [if_pos this]
      split <;> simp [hf]
    · have : ¬ r.dist target ≠ BitVec.allOnes 64 := hf
      rw [if_neg this]
      simp [hf]
  · intro l hl'
    split at hl'
    · split at hl'
      · rename_i l₂ hfl
        obtain rfl : l₂ = l := by simpa using hl'
        rw [hl] at hfl
        obtain ⟨i1, i2, i3, i4⟩ := follow_ok hi htv hd ht _ _ _ hi.begins.1 hfl
        refine ⟨i1, i2, i3, fun n hn => ?_⟩
        have := (closest hi htv hq hn).2
        rw [hi.begins.2] at i4
        omega
      · simp at hl'
    · simp at hl'

end Heir.Graph
