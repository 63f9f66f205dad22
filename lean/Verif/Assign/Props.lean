import Verif.Assign.Steps

/-!
# C141–C143: packing, unpacking, permuting
-/

namespace Heir.Assign

open Heir.Codegen (Node trace Expr Kind)

variable {β : Type}

/-! ## C141: packing -/

theorem part_iff {src : Src β} {L : Pt → Prop} {dom : Nat} (hl : ∀ p, L p → p.1.length = dom)
    (hr : (∃ c a, src = .scalar c a) ∨ src.shape.length = dom) (p : Pt) :
    (L p ∧ bounded src p = true) ↔ src.part L p := by
  have key : ∀ s : List Nat, s.length = dom → ((L p ∧ (p.1.zip s).all
      (fun x => decide (0 ≤ x.1) && decide (x.1 < (x.2 : Int))) = true) ↔ within s L p) := by
    intro s h
    exact ⟨fun ⟨a, b⟩ => ⟨a, (bounds_iff ((hl p a).trans h.symm)).1 b⟩,
      fun ⟨a, b⟩ => ⟨a, (bounds_iff ((hl p a).trans h.symm)).2 b⟩⟩
  cases src with
  | scalar c a => simp [Src.part, bounded]
  | tensor o t =>
    rcases hr with ⟨_, _, h⟩ | h
    · simp at h
    · exact key _ h
  | empty s =>
    rcases hr with ⟨_, _, h⟩ | h
    · simp at h
    · exact key _ h

theorem part_some {src : Src β} (hw : src.Well) (he : ∀ s, src ≠ .empty s) {L : Pt → Prop} {p : Pt}
    (h : src.part L p) : (src.at p.1).isSome := by
  cases src with
  | scalar c a => rfl
  | tensor o t =>
    have hf : t.Full := by
      cases o with
      | const b => cases b with
        | true => exact hw.1
        | false => exact hw
      | value => exact hw
      | resource => exact hw
    obtain ⟨v, hv⟩ := Tensor.get_some hf h.2
    simp [Src.at, hv]
  | empty s => exact absurd rfl (he s)

theorem splat_value {src : Src β} (hw : src.Well) {a : β} (h : src.splat? = some a) {d : List Int}
    (hd : (src.at d).isSome) : src.at d = some a := by
  match src, hw, h, hd with
  | .tensor (.const true) t, hw, h, hd =>
    obtain ⟨b, hb⟩ := Option.isSome_iff_exists.1 hd
    rw [hb]
    have hm : b ∈ t.vals := by
      have := get_inB hd
      simp only [Src.at, Tensor.get, this, if_true] at hb
      exact List.mem_of_getElem? hb
    rw [hw.2 b hm a (List.mem_of_mem_head? (by simpa [Src.splat?] using h))]

theorem zero_value [DecidableEq β] [Zero β] {src : Src β} (hw : src.Well) (h : src.isZero = true)
    {d : List Int} (hd : (src.at d).isSome) : src.at d = some 0 := by
  cases src with
  | scalar c a =>
    simp only [Src.isZero, Bool.and_eq_true, decide_eq_true_eq] at h
    simp [Src.at, h.2]
  | tensor o t => exact splat_value hw (by simpa [Src.isZero] using h) hd
  | empty s => simp [Src.isZero, Src.splat?] at h

theorem replicate_one (n : Nat) (x : β) : ∀ a ∈ List.replicate n x, ∀ b ∈ List.replicate n x, a = b := by
  intro a ha b hb
  rw [(List.mem_replicate.1 ha).2, (List.mem_replicate.1 hb).2]

/-- Partial for what isl answers, which is assumed to be right and, where loops are made, to be a tree
that `C140_forward_partial` covers.  Whatever the input and whichever way is taken, for a strategy and a
layout that puts at most one value in a slot and nothing outside the ciphertexts, the result has in each
slot the element that the layout puts there, and zero in all others. -/
theorem C141_packs_partial [DecidableEq β] [Zero β] (s : Strategy) {src : Src β} (hw : src.Well)
    (he : ∀ sh, src ≠ .empty sh) {L : Pt → Prop} {isl : Isl} {dom rng : Nat} {target : List Nat}
    (hr : (∃ c a, src = .scalar c a) ∨ src.shape.length = dom)
    (hl : ∀ p, L p → p.1.length = dom)
    (hi : isl.Right (fun p => L p ∧ bounded src p = true) dom rng src.shape target)
    (hu : Unambiguous src.at (src.part L)) (hin : ∀ p, src.part L p → inB target p.2 = true) :
    ∃ o t, assignStep s src isl dom rng target = some (.tensor o t) ∧ t.shape = target ∧
      (Src.tensor o t).Well ∧ Packs src.at (src.part L) t := by
  have hR : (fun p => L p ∧ bounded src p = true) = src.part L := by
    funext p; exact propext (part_iff hl hr p)
  rw [hR] at hi
  have hs : ∀ p, src.part L p → (src.at p.1).isSome := fun p hp => part_some hw he hp
  have hsplat : ∀ a : β, (Src.tensor (.const true) (splat target a)).Well := fun a =>
    ⟨splat_full _ _, replicate_one _ _⟩
  unfold assignStep
  by_cases hz : src.isZero = true
  · rw [if_pos hz]
    refine ⟨_, _, rfl, rfl, hsplat 0, fun r hr => ⟨fun d hd => ?_, fun _ => splat_get hr⟩⟩
    rw [zero_value hw hz (hs _ hd)]
    exact splat_get hr
  · rw [if_neg hz]
    cases src with
    | empty sh => exact absurd rfl (he sh)
    | scalar c a =>
      dsimp only
      by_cases hd : isl.dense = true
      · rw [if_pos hd]
        exact ⟨_, _, rfl, rfl, splat_full _ _, splat_packs (hi.dense hd) (fun p _ => rfl)⟩
      · rw [if_neg hd]
        obtain ⟨t, h1, h2, h3, h4⟩ := loops_packs (rank := 0) hu hi.tree hi.lengths hs
          (fun p _ => ⟨rfl, Nat.zero_le _⟩) hin
        exact ⟨.value, t, by rw [h1]; rfl, h2, h3, h4⟩
    | tensor o t =>
      dsimp only
      have hrank : t.shape.length = dom := by
        rcases hr with ⟨_, _, h⟩ | h
        · simp at h
        · exact h
      by_cases hc : isl.crt = true
      · rw [if_pos hc]
        obtain ⟨c, n, htar, hcr⟩ := hi.crt hc
        obtain ⟨t', h1, h2, h3, h4⟩ := crt_packs (t := t) hu htar hcr hs
        exact ⟨.value, t', by rw [h1]; rfl, h2, h3, h4⟩
      · rw [if_neg hc]
        by_cases hd : (isl.dense && ((Src.tensor o t).splat?.isSome ||
            decide (numElements t.shape = 1))) = true
        · rw [if_pos hd]
          simp only [Bool.and_eq_true, Bool.or_eq_true, decide_eq_true_eq] at hd
          cases hsp : (Src.tensor o t).splat? with
          | some a =>
            exact ⟨_, _, rfl, rfl, hsplat a, splat_packs (hi.dense hd.1)
              (fun p hp => splat_value hw hsp (hs p hp))⟩
          | none =>
            have h1 : numElements t.shape = 1 := by
              rcases hd.2 with h | h
              · simp [hsp] at h
              · exact h
            have hf : t.Full := by
              cases o with
              | const b => cases b with
                | true => exact hw.1
                | false => exact hw
              | value => exact hw
              | resource => exact hw
            have hzero : ∀ sh : List Nat, numElements sh = 1 → inB sh (sh.map fun _ => (0 : Int)) = true := by
              intro sh
              induction sh with
              | nil => intro _; rfl
              | cons d ds ih =>
                intro h
                have hm : d * numElements ds = 1 := h
                have hd : d = 1 := Nat.eq_one_of_mul_eq_one_right hm
                have hds : numElements ds = 1 := Nat.eq_one_of_mul_eq_one_left hm
                simp only [List.map_cons, inB, ih hds, Bool.and_true]
                simp [hd]
            obtain ⟨a, ha⟩ := Tensor.get_some hf (hzero _ h1)
            refine ⟨.value, splat target a, by simp only [ha]; rfl, rfl, splat_full _ _,
              splat_packs (hi.dense hd.1) (fun p hp => ?_)⟩
            have hb := hp.2
            have e : p.1 = t.shape.map fun _ => (0 : Int) := by
              apply flat_inj hb (hzero _ h1)
              have := flat_bounds hb
              have := flat_bounds (hzero _ h1)
              simp only [Src.shape] at *
              omega
            rw [e]; exact ha
        · rw [if_neg hd]
          by_cases hf : shouldFold s o isl = true
          · rw [if_pos hf]
            obtain ⟨t', h1, h2, h3, h4⟩ := fold_packs (t := t)
              (isSplat := (Src.tensor o t).splat?.isSome) hu hi.points hs hin (by
                intro h
                match o, hw, h with
                | .const true, hw, _ => exact hw.2)
            refine ⟨packedOrigin o isl.stored t', t', by rw [h1]; rfl, h2, ?_, h4⟩
            unfold packedOrigin
            have key : ∀ b : Bool, (b = true → ∀ a ∈ t'.vals, ∀ b ∈ t'.vals, a = b) →
                (Src.tensor (.const b) t').Well := by
              intro b hb
              cases b with
              | true => exact ⟨h3, hb rfl⟩
              | false => exact h3
            split
            · exact h3
            · apply key
              intro h a ha b hb
              simp only [Bool.and_eq_true, List.all_eq_true, decide_eq_true_eq] at h
              exact h.2 a ha b hb
          · rw [if_neg hf]
            obtain ⟨t', h1, h2, h3, h4⟩ := loops_packs (rank := t.shape.length) hu hi.tree hi.lengths hs
              (fun p hp => by
                have := (hi.lengths p hp).1
                rw [hrank, ← this, List.take_length]
                exact ⟨rfl, Nat.le_refl _⟩) hin
            exact ⟨.value, t', by rw [h1]; rfl, h2, h3, h4⟩

/-- What was packed for an unspecified tensor is unspecified. -/
theorem C141_empty [DecidableEq β] [Zero β] (s : Strategy) (sh : List Nat) (isl : Isl) (dom rng : Nat)
    (target : List Nat) :
    assignStep s (.empty sh : Src β) isl dom rng target = some (.empty target) := by
  simp [assignStep, Src.isZero, Src.splat?]

/-- Two steps pack by one layout after the other. -/
theorem packs_after [Zero β] {src : List Int → Option β} {R S : Pt → Prop} {t out : Tensor β}
    (h1 : Packs src R t) (h2 : Packs t.get (within t.shape S) out)
    (hr : ∀ p, R p → inB t.shape p.2 = true) : Packs src (after R S) out := by
  intro r hrb
  obtain ⟨a, b⟩ := h2 r hrb
  refine ⟨fun d ⟨m, hm, hs⟩ => ?_, fun hn => ?_⟩
  · have hb := hr _ hm
    rw [a m ⟨hs, hb⟩]
    exact (h1 m hb).1 d hm
  · by_cases h : ∃ m, within t.shape S (m, r)
    · obtain ⟨m, hm⟩ := h
      rw [a m hm]
      exact (h1 m hm.2).2 (fun d hd => hn d ⟨m, hd, hm.1⟩)
    · exact b (fun m hm => h ⟨m, hm⟩)

/-- The layouts of a list, one after the other. -/
def composite : (Pt → Prop) → List (Pt → Prop) → Pt → Prop
  | R, [] => R
  | R, S :: Ss => composite (after R S) Ss

/-- The layers after the first are right for tensors of the shape of the layer before. -/
def Chained : List Nat → List (Layer × (Pt → Prop)) → Prop
  | _, [] => True
  | sh, (l, L) :: ls =>
    sh.length = l.dom ∧ (∀ p, L p → p.1.length = l.dom) ∧
    l.isl.Right (fun p => L p ∧
      (p.1.zip sh).all (fun x => decide (0 ≤ x.1) && decide (x.1 < (x.2 : Int))) = true)
      l.dom l.rng sh l.target ∧
    Injective L ∧ (∀ p, within sh L p → inB l.target p.2 = true) ∧ Chained l.target ls

/-- The shape of the last layer. -/
def lastShape : List Nat → List (Layer × (Pt → Prop)) → List Nat
  | sh, [] => sh
  | _, (l, _) :: ls => lastShape l.target ls

theorem chain_packs [DecidableEq β] [Zero β] (s : Strategy) : ∀ (ls : List (Layer × (Pt → Prop)))
    {o : Origin} {t : Tensor β}, (Src.tensor o t).Well → Chained t.shape ls →
    ∀ {src : List Int → Option β} {R : Pt → Prop}, Packs src R t → (∀ p, R p → inB t.shape p.2 = true) →
    ∃ o' out, assignChain s (.tensor o t) (ls.map Prod.fst) = some (.tensor o' out) ∧
      (Src.tensor o' out).Well ∧ Packs src (composite R (ls.map Prod.snd)) out ∧
      out.shape = lastShape t.shape ls
  | [], o, t, hw, _, src, R, hp, _ => ⟨o, t, rfl, hw, hp, rfl⟩
  | (l, L) :: ls, o, t, hw, hc, src, R, hp, hin => by
    obtain ⟨c1, c2, c3, c4, c5, c6⟩ := hc
    obtain ⟨o', t', h1, h2, h3, h4⟩ := C141_packs_partial s hw (by intro sh h; simp at h) (L := L)
      (isl := l.isl) (dom := l.dom) (rng := l.rng) (target := l.target) (.inr c1) c2 c3
      (by intro d d' r hd hd'; rw [c4 d d' r hd.1 hd'.1]) c5
    obtain ⟨o2, out, g1, g2, g3, g4⟩ := chain_packs s ls h3 (by rw [h2]; exact c6)
      (packs_after (R := R) (S := L) hp h4 hin) (by
        rintro ⟨d, r⟩ ⟨m, hm, hs⟩
        rw [h2]
        exact c5 (m, r) ⟨hs, hin _ hm⟩)
    exact ⟨o2, out, by simp only [List.map_cons, assignChain, h1, Option.bind_some]; exact g1, g2, g3,
      by rw [g4, h2]; rfl⟩

/-- Partial as above: a list of layouts packs as the layouts one after the other. -/
theorem C141_chain_partial [DecidableEq β] [Zero β] (s : Strategy) {src : Src β} (hw : src.Well)
    (he : ∀ sh, src ≠ .empty sh) {L : Pt → Prop} {l : Layer} {ls : List (Layer × (Pt → Prop))}
    (hr : (∃ c a, src = .scalar c a) ∨ src.shape.length = l.dom)
    (hl : ∀ p, L p → p.1.length = l.dom)
    (hi : l.isl.Right (fun p => L p ∧ bounded src p = true) l.dom l.rng src.shape l.target)
    (hu : Unambiguous src.at (src.part L)) (hin : ∀ p, src.part L p → inB l.target p.2 = true)
    (hc : Chained l.target ls) :
    ∃ o out, assignChain s src (l :: ls.map Prod.fst) = some (.tensor o out) ∧
      out.shape = lastShape l.target ls ∧
      Packs src.at (composite (src.part L) (ls.map Prod.snd)) out := by
  obtain ⟨o, t, h1, h2, h3, h4⟩ := C141_packs_partial s hw he hr hl hi hu hin
  obtain ⟨o2, out, g1, -, g3, g4⟩ := chain_packs s ls h3 (by rw [h2]; exact hc) h4
    (by intro p hp; rw [h2]; exact hin p hp)
  exact ⟨o2, out, by simp only [assignChain, h1, Option.bind_some]; exact g1, by rw [g4, h2], g3⟩

/-! ## C142: unpacking -/

/-- Partial for isl as above, and for layouts of negative indices, which are not excluded by bounds.  The
elements of the result are those of their slots; elements that have none are zero. -/
theorem C142_unpacks_partial [Zero β] {ct : Tensor β} (hct : ct.Full) {L : Pt → Prop} {isl : Isl}
    {rng : Nat} {s : List Nat} (hl : ∀ p, L p → p.1.length = s.length) (hn : ∀ p, L p → ∀ i ∈ p.1, 0 ≤ i)
    (hi : isl.Right (fun p => L p ∧ below s p = true) s.length rng s ct.shape)
    (hin : ∀ p, within s L p → inB ct.shape p.2 = true)
    (h1 : numElements s = 1 → ∃ p, within s L p) :
    ∃ t, unpackStep ct isl (some s) = some t ∧ t.shape = s ∧ t.Full ∧ Unpacks ct (within s L) t := by
  have hR : (fun p => L p ∧ below s p = true) = within s L := by
    funext p
    exact propext ⟨fun ⟨a, b⟩ => ⟨a, (below_iff (hl p a) (hn p a)).1 b⟩,
      fun ⟨a, b⟩ => ⟨a, (below_iff (hl p a) (hn p a)).2 b⟩⟩
  rw [hR] at hi
  simp only [unpackStep]
  by_cases hone : numElements s = 1
  · rw [if_pos hone]
    obtain ⟨p, hp⟩ := h1 hone
    cases hs : isl.sample with
    | none => exact absurd hp (hi.found hs p)
    | some r =>
      obtain ⟨d, hd⟩ := hi.sample r hs
      obtain ⟨v, hv⟩ := Tensor.get_some hct (hin _ hd)
      refine ⟨⟨s, [v]⟩, by simp only [Option.bind_some, hv, Option.map_some], rfl,
        by simp [Tensor.Full, hone], ?_⟩
      intro d' hd'
      have e : d = d' := by
        apply flat_inj hd.2 hd'
        have := flat_bounds hd.2
        have := flat_bounds hd'
        simp only at *
        omega
      subst e
      refine ⟨fun _ => ⟨r, hd, ?_⟩, fun hno => absurd hd (hno r)⟩
      rw [hv]
      have := flat_bounds hd'
      have e0 : flat s d = 0 := by simp only at this; omega
      simp only [Tensor.get, e0]
      rw [if_pos hd']
      rfl
  · rw [if_neg hone]
    exact loops_unpacks hct hi.tree (fun p hp => hp.2) hin

/-- A scalar is unpacked from one of its slots. -/
theorem C142_scalar [Zero β] {ct : Tensor β} (hct : ct.Full) {L : Pt → Prop} {isl : Isl} {dom rng : Nat}
    (hi : isl.Right L dom rng [] ct.shape) (hin : ∀ p, L p → inB ct.shape p.2 = true) (hne : ∃ p, L p) :
    ∃ a d r, unpackStep ct isl none = some ⟨[], [a]⟩ ∧ L (d, r) ∧ ct.get r = some a := by
  obtain ⟨p, hp⟩ := hne
  cases hs : isl.sample with
  | none => exact absurd hp (hi.found hs p)
  | some r =>
    obtain ⟨d, hd⟩ := hi.sample r hs
    obtain ⟨v, hv⟩ := Tensor.get_some hct (hin _ hd)
    exact ⟨v, d, r, by simp only [unpackStep, hs, Option.bind_some, hv, Option.map_some], hd, hv⟩

theorem full {o : Origin} {t : Tensor β} (hw : (Src.tensor o t).Well) : t.Full := by
  cases o with
  | const b => cases b with
    | true => exact hw.1
    | false => exact hw
  | value => exact hw
  | resource => exact hw

/-- Partial as above: what is packed and unpacked by the same layout is what it was, if each element has a
slot. -/
theorem C142_roundtrip_partial [DecidableEq β] [Zero β] (s : Strategy) {o : Origin} {t : Tensor β}
    (hw : (Src.tensor o t).Well) {L : Pt → Prop} {isl isl' : Isl} {rng : Nat} {target : List Nat}
    (hl : ∀ p, L p → p.1.length = t.shape.length) (hn : ∀ p, L p → ∀ i ∈ p.1, 0 ≤ i)
    (hi : isl.Right (fun p => L p ∧ bounded (.tensor o t) p = true) t.shape.length rng t.shape target)
    (hi' : isl'.Right (fun p => L p ∧ below t.shape p = true) t.shape.length rng t.shape target)
    (hu : Unambiguous t.get (within t.shape L)) (hin : ∀ p, within t.shape L p → inB target p.2 = true)
    (htot : ∀ d, inB t.shape d = true → ∃ r, L (d, r)) :
    ∃ o' ct, assignStep s (.tensor o t) isl t.shape.length rng target = some (.tensor o' ct) ∧
      unpackStep ct isl' (some t.shape) = some t := by
  obtain ⟨o', ct, h1, h2, h3, h4⟩ := C141_packs_partial s hw (by intro sh h; simp at h) (L := L)
    (.inr rfl) hl hi hu hin
  have hone : numElements t.shape = 1 → ∃ p, within t.shape L p := by
    intro h
    obtain ⟨a, -⟩ := unflat_ok (shape := t.shape) (k := 0) (by omega)
    obtain ⟨r, hr⟩ := htot _ a
    exact ⟨_, hr, a⟩
  obtain ⟨u, g1, g2, g3, g4⟩ := C142_unpacks_partial (full h3) (L := L) (isl := isl') (rng := rng)
    (s := t.shape) hl hn (by rw [h2]; exact hi') (by rw [h2]; exact hin) hone
  refine ⟨o', ct, h1, ?_⟩
  rw [g1]
  congr 1
  apply Tensor.ext_get g3 (full hw) g2
  intro d hd
  obtain ⟨r, hr⟩ := htot d hd
  obtain ⟨r', hr', e⟩ := (g4 d (by rw [g2]; exact hd)).1 ⟨r, hr, hd⟩
  rw [e]
  exact (h4 r' (by rw [h2]; exact hin _ hr')).1 d hr'

/-- The layouts one after the other, none for the empty list. -/
def route : List (Pt → Prop) → Pt → Prop
  | [], p => p.1 = p.2
  | L :: Ls, p => ∃ m, L (p.1, m) ∧ route Ls (m, p.2)

theorem composite_iff : ∀ (R : Pt → Prop) (Ss : List (Pt → Prop)) (d r : List Int),
    composite R Ss (d, r) ↔ ∃ m, R (d, m) ∧ route Ss (m, r)
  | R, [], d, r => by simp [composite, route]
  | R, S :: Ss, d, r => by
    rw [composite, composite_iff]
    simp only [after, route]
    constructor
    · rintro ⟨m, ⟨k, a, b⟩, c⟩; exact ⟨k, a, m, b, c⟩
    · rintro ⟨k, a, m, b, c⟩; exact ⟨m, ⟨k, a, b⟩, c⟩

/-- The shape of what a layout is to be undone from: the shape of the domain of the next one. -/
def shapeOf (final : List Nat) : List (Isl × List Nat × (Pt → Prop)) → List Nat
  | [] => final
  | (_, s, _) :: _ => s

/-- The elements `A` have slots by all layouts, and no layout has slots that the next one has no place
for. -/
def Undoes (final : List Nat) (A : List Int → Prop) : List (Isl × List Nat × (Pt → Prop)) → Prop
  | [] => ∀ d, A d → inB final d = true
  | (isl, s, L) :: ls =>
    (∀ p, L p → p.1.length = s.length) ∧ (∀ p, L p → ∀ i ∈ p.1, 0 ≤ i) ∧
    isl.Right (fun p => L p ∧ below s p = true) s.length (shapeOf final ls).length s (shapeOf final ls) ∧
    (∀ p, within s L p → inB (shapeOf final ls) p.2 = true) ∧
    (numElements s = 1 → ∃ p, within s L p) ∧ (∀ d, A d → inB s d = true ∧ ∃ r, L (d, r)) ∧
    Undoes final (fun r => ∃ d, A d ∧ L (d, r)) ls

theorem chain_unpacks [Zero β] {ct : Tensor β} (hct : ct.Full) :
    ∀ (ls : List (Isl × List Nat × (Pt → Prop))) (A : List Int → Prop), Undoes ct.shape A ls →
    ∃ t, unpackChain ct (ls.map fun l => (l.1, some l.2.1)) = some t ∧ t.shape = shapeOf ct.shape ls ∧
      t.Full ∧ ∀ d, A d → inB t.shape d = true ∧
        ∃ r, route (ls.map fun l => l.2.2) (d, r) ∧ t.get d = ct.get r
  | [], A, h => ⟨ct, rfl, rfl, hct, fun d hd => ⟨h d hd, d, rfl, rfl⟩⟩
  | (isl, s, L) :: ls, A, ⟨u1, u2, u3, u4, u5, u6, u7⟩ => by
    obtain ⟨t, h1, h2, h3, h4⟩ := chain_unpacks hct ls _ u7
    obtain ⟨u, g1, g2, g3, g4⟩ := C142_unpacks_partial h3 (L := L) (isl := isl)
      (rng := (shapeOf ct.shape ls).length) (s := s) u1 u2 (by rw [h2]; exact u3) (by rw [h2]; exact u4) u5
    refine ⟨u, by simp only [List.map_cons, unpackChain, h1, Option.bind_some]; exact g1, g2, g3, ?_⟩
    intro d hd
    obtain ⟨hb, r, hr⟩ := u6 d hd
    rw [g2]
    refine ⟨hb, ?_⟩
    obtain ⟨m, hm, e⟩ := (g4 d (by rw [g2]; exact hb)).1 ⟨r, hr, hb⟩
    obtain ⟨-, r', hr', e'⟩ := h4 m ⟨d, hd, hm.1⟩
    exact ⟨r', ⟨m, hm.1, hr'⟩, e.trans e'⟩

/-- Partial as above: what is packed and unpacked by the same list of layouts is what it was, if each
element has a slot by all of them. -/
theorem C142_chain_partial [DecidableEq β] [Zero β] (s : Strategy) {o : Origin} {t : Tensor β}
    (hw : (Src.tensor o t).Well) {L : Pt → Prop} {l : Layer} {ls : List (Layer × (Pt → Prop))}
    (hr : t.shape.length = l.dom) (hl : ∀ p, L p → p.1.length = l.dom)
    (hi : l.isl.Right (fun p => L p ∧ bounded (.tensor o t) p = true) l.dom l.rng t.shape l.target)
    (hu : Unambiguous t.get (within t.shape L)) (hin : ∀ p, within t.shape L p → inB l.target p.2 = true)
    (hc : Chained l.target ls) {isl : Isl} {us : List (Isl × List Nat × (Pt → Prop))}
    (hus : us.map (fun u => u.2.2) = ls.map Prod.snd)
    (hback : Undoes (lastShape l.target ls) (fun d => inB t.shape d = true) ((isl, t.shape, L) :: us)) :
    ∃ o' ct, assignChain s (.tensor o t) (l :: ls.map Prod.fst) = some (.tensor o' ct) ∧
      unpackChain ct (((isl, t.shape, L) :: us).map fun u => (u.1, some u.2.1)) = some t := by
  obtain ⟨o1, t1, h1, h2, h3, h4⟩ := C141_packs_partial s hw (by intro sh h; simp at h) (L := L)
    (.inr hr) hl hi hu hin
  obtain ⟨o', ct, g1, g2, g3, g4⟩ := chain_packs s ls h3 (by rw [h2]; exact hc) h4
    (by intro p hp; rw [h2]; exact hin p hp)
  have hA : assignChain s (.tensor o t) (l :: ls.map Prod.fst) = some (.tensor o' ct) := by
    simp only [assignChain, h1, Option.bind_some]; exact g1
  obtain ⟨u, k1, k2, k3, k4⟩ := chain_unpacks (full g2) _ _
    (show Undoes ct.shape _ ((isl, t.shape, L) :: us) by rw [g4, h2]; exact hback)
  refine ⟨o', ct, hA, ?_⟩
  rw [k1]
  congr 1
  apply Tensor.ext_get k3 (full hw) k2
  intro d hd
  obtain ⟨hb, r, ⟨m, hm, hr⟩, e⟩ := k4 d hd
  rw [e]
  obtain ⟨v, hv⟩ := Tensor.get_some k3 hb
  have hrb : inB ct.shape r = true := get_inB (by rw [← e, hv]; rfl)
  refine (g3 r hrb).1 d ((composite_iff _ _ _ _).2 ⟨m, ⟨hm, hd⟩, ?_⟩)
  rw [← hus]; exact hr

/-! ## C143: permutations -/

/-- The slot of an entry's source. -/
def Move.src (m : Move) (rank : Nat) : List Int := if rank = 2 then [m.srcCt, m.srcSlot] else [m.srcSlot]

def Move.dst (m : Move) : List Int := [m.dstCt, m.dstSlot]

/-- The entries are of slots that exist. -/
def Move.Ok (m : Move) (cts slots minSlots : Nat) : Prop :=
  (0 ≤ m.srcCt ∧ m.srcCt < cts) ∧ (0 ≤ m.srcSlot ∧ m.srcSlot < slots) ∧
  (0 ≤ m.dstCt ∧ m.dstCt < cts) ∧ (0 ≤ m.dstSlot ∧ m.dstSlot < minSlots)

theorem moves_ok [Zero β] {t : Tensor β} (ht : t.Full) {cts slots minSlots : Nat}
    (hsh : t.shape = [cts, slots] ∨ (cts = 1 ∧ t.shape = [slots])) {moves : List Move}
    (hm : ∀ m ∈ moves, m.Ok cts slots minSlots) :
    ∃ t', assignPermutation t moves minSlots = some t' ∧ t'.shape = [cts, minSlots] ∧ t'.Full ∧
      ∀ r, inB [cts, minSlots] r = true →
        t'.get r = lastAt (fun m => t.get (m.src t.shape.length)) Move.dst moves r (some 0) := by
  have hc : (if t.shape.length = 2 then t.shape.headD 1 else 1) = cts ∧
      t.shape.getLast?.getD 0 = slots ∧ t.shape.length ≤ 2 ∧ t.shape ≠ [] := by
    rcases hsh with h | ⟨rfl, h⟩ <;> simp [h]
  have hb : ∀ m ∈ moves, inB t.shape (m.src t.shape.length) = true ∧
      inB [cts, minSlots] m.dst = true := by
    intro m h
    obtain ⟨a, b, c, d⟩ := hm m h
    rcases hsh with h | ⟨rfl, h⟩ <;> simp [h, Move.src, Move.dst, inB, a, b, c, d] <;> omega
  obtain ⟨t', h1, h2, h3, h4⟩ := inserts (ts := moves) (shape := [cts, minSlots])
    (step := moveStep t cts slots minSlots) (S := fun m => t.get (m.src t.shape.length)) (D := Move.dst)
    (fun m h u _ => by
      obtain ⟨a, b, c, d⟩ := hm m h
      simp only [moveStep, Option.bind_some]
      rw [if_neg (by simp [moveOk, a, b, c, d])]
      rfl)
    (fun m h => by obtain ⟨v, hv⟩ := Tensor.get_some ht (hb m h).1; simp [hv])
    (fun m h => (hb m h).2) (splat [cts, minSlots] 0) (splat_full _ _) rfl
  refine ⟨t', ?_, h2, h3, fun r hr => ?_⟩
  · simp only [assignPermutation]
    rw [if_pos ⟨hc.2.2.1, hc.2.2.2⟩, hc.1, hc.2.1]
    exact h1
  · rw [h4 r hr, splat_get hr]

/-- Partial for entries that are not negative: with at most one entry for each slot, the slot of each
entry has the element of the entry, and the other slots are zero. -/
theorem C143_permutes_partial [Zero β] {t : Tensor β} (ht : t.Full) {cts slots minSlots : Nat}
    (hsh : t.shape = [cts, slots] ∨ (cts = 1 ∧ t.shape = [slots])) {moves : List Move}
    (hm : ∀ m ∈ moves, m.Ok cts slots minSlots)
    (hu : ∀ m ∈ moves, ∀ m' ∈ moves, m.dst = m'.dst → m = m') :
    ∃ t', assignPermutation t moves minSlots = some t' ∧ t'.shape = [cts, minSlots] ∧
      (∀ m ∈ moves, t'.get m.dst = t.get (m.src t.shape.length)) ∧
      ∀ r, inB [cts, minSlots] r = true → (∀ m ∈ moves, m.dst ≠ r) → t'.get r = some 0 := by
  obtain ⟨t', h1, h2, -, h4⟩ := moves_ok ht hsh hm
  refine ⟨t', h1, h2, fun m h => ?_, fun r hr hn => ?_⟩
  · obtain ⟨a, b, c, d⟩ := hm m h
    rw [h4 _ (by simp [Move.dst, inB, c, d])]
    obtain ⟨m', h', e, e'⟩ := lastAt_some (S := fun m : Move => t.get (m.src t.shape.length))
      (D := Move.dst) (ts := moves) (r := m.dst) (old := some 0) ⟨m, h, rfl⟩
    rw [e', hu m' h' m h e]
  · rw [h4 r hr, lastAt_none hn]

/-- Entries too large for the input or the ciphertexts are rejected. -/
theorem C143_rejects [Zero β] {t : Tensor β} {moves : List Move} {minSlots : Nat}
    (h : ∃ m ∈ moves, (if t.shape.length = 2 then t.shape.headD 1 else 1 : Nat) ≤ m.srcCt ∨
      (t.shape.getLast?.getD 0 : Nat) ≤ m.srcSlot ∨
      (if t.shape.length = 2 then t.shape.headD 1 else 1 : Nat) ≤ m.dstCt ∨ (minSlots : Int) ≤ m.dstSlot) :
    assignPermutation t moves minSlots = none := by
  obtain ⟨m, hm, hb⟩ := h
  unfold assignPermutation
  split
  · have hnone : ∀ (ms : List Move) (a b c : Int),
        ms.foldl (moveStep t a b c) none = none := by
      intro ms a b c
      induction ms with
      | nil => rfl
      | cons x xs ih => rw [List.foldl_cons]; exact ih
    obtain ⟨xs, ys, rfl⟩ := List.append_of_mem hm
    dsimp only
    rw [List.foldl_append, List.foldl_cons]
    generalize List.foldl _ _ xs = acc
    cases acc with
    | none => exact hnone ys _ _ _
    | some u =>
      have : moveStep t ((if t.shape.length = 2 then t.shape.headD 1 else 1 : Nat) : Int)
          ((t.shape.getLast?.getD 0 : Nat) : Int) minSlots (some u) m = none := by
        simp only [moveStep, Option.bind_some]
        rw [if_pos (by
          simp only [moveOk, Bool.not_not, Bool.or_eq_true, decide_eq_true_eq]
          rcases hb with h | h | h | h
          · exact .inl (.inl (.inl h))
          · exact .inl (.inl (.inr h))
          · exact .inl (.inr h)
          · exact .inr h)]
      rw [this]
      exact hnone ys _ _ _
  · rfl

/-! ## Examples -/

namespace Ex

def num (n : Int) : Expr := .int n
def var (x : Nat) : Expr := .id x
def bin (k : Heir.Codegen.Bin) (a b : Expr) : Expr := .op (.bin k) [a, b]

/-- Two elements, each in two slots, and a third for inputs that are longer. -/
def pts : List Pt := [([0], [0, 0]), ([0], [0, 2]), ([1], [0, 1]), ([1], [0, 3]), ([2], [0, 4])]

/-- `for (c0 = 0; c0 < 2; c0 += 1) for (c1 = 0; c1 < 2; c1 += 1) S(c0, 0, c0 + 2 * c1)` -/
def tree : Node := .loop 0 (num 0) false (num 2) (num 1) (.loop 1 (num 0) false (num 2) (num 1)
  (.user [var 0, num 0, bin .add (var 0) (bin .mul (num 2) (var 1))]))

def isl : Isl := ⟨pts.take 4, tree, false, false, 4, 0, true, some [0, 2]⟩

def data : Tensor Int := ⟨[2], [7, 9]⟩

theorem tree_visits : Visits tree (· ∈ pts.take 4) := by
  refine ⟨rfl, ?_, [[0, 0, 0], [0, 0, 2], [1, 0, 1], [1, 0, 3]], by decide +kernel, ?_⟩
  · simp only [tree, Node.Served]
    exact ⟨by decide, by decide, by decide, by decide, by decide, by decide, by decide, by decide,
      ⟨[false, false, false], by decide, by decide⟩⟩
  · intro is; simp [pts]

theorem right {R : Pt → Prop} (hR : ∀ p, R p ↔ p ∈ pts.take 4) (shape target : List Nat) :
    isl.Right R 1 2 shape target := by
  have e : R = (· ∈ pts.take 4) := by funext p; exact propext (hR p)
  subst e
  refine ⟨?_, fun p => Iff.rfl, tree_visits, by simp [isl], by simp [isl], ?_, by simp [isl]⟩
  · intro p hp; revert p; decide
  · intro r hr; cases hr; exact ⟨[0], by decide⟩

theorem bounded_iff (p : Pt) : (p ∈ pts ∧ bounded (.tensor .value data) p = true) ↔ p ∈ pts.take 4 := by
  rw [← List.mem_filter (p := bounded (.tensor .value data))]
  have : pts.filter (bounded (.tensor .value data)) = pts.take 4 := by decide
  rw [this]

theorem below_iff (p : Pt) : (p ∈ pts ∧ below data.shape p = true) ↔ p ∈ pts.take 4 := by
  rw [← List.mem_filter (p := below data.shape)]
  have : pts.filter (below data.shape) = pts.take 4 := by decide
  rw [this]

theorem pts_len : ∀ p ∈ pts, p.1.length = 1 := by decide

theorem pts_inj : Injective (· ∈ pts) := by
  have h : ∀ p ∈ pts, ∀ q ∈ pts, p.2 = q.2 → p.1 = q.1 := by decide
  intro d d' r hd hd'
  exact h _ hd _ hd' rfl

theorem pts_in : ∀ p, within data.shape (· ∈ pts) p → inB [1, 5] p.2 = true := by
  have h : ∀ p ∈ pts, inB [1, 5] p.2 = true := by decide
  exact fun p hp => h p hp.1

theorem well : (Src.tensor .value data).Well := rfl

theorem data_total : ∀ d, inB data.shape d = true → ∃ r, (d, r) ∈ pts := by
  intro d hd
  match d, hd with
  | [i], hd =>
    simp only [data, inB, Bool.and_true, Bool.and_eq_true, decide_eq_true_eq] at hd
    have : i = 0 ∨ i = 1 := by omega
    rcases this with rfl | rfl
    · exact ⟨[0, 0], by decide⟩
    · exact ⟨[0, 1], by decide⟩
  | [], hd => simp [data, inB] at hd
  | _ :: _ :: _, hd => simp [data, inB] at hd

example (s : Strategy) : ∃ o t, assignStep s (.tensor .value data) isl 1 2 [1, 5] = some (.tensor o t) ∧
    t.shape = [1, 5] ∧ (Src.tensor o t).Well ∧ Packs data.get (within [2] (· ∈ pts)) t :=
  C141_packs_partial s well (by intro _ h; simp at h) (L := (· ∈ pts)) (.inr rfl) pts_len
    (right bounded_iff _ _) (by intro d d' r hd hd'; rw [pts_inj d d' r hd.1 hd'.1]) pts_in

example : assignStep .auto (.tensor .value data) isl 1 2 [1, 5] =
    some (.tensor .value ⟨[1, 5], [7, 9, 7, 9, 0]⟩) := by decide +kernel

example (s : Strategy) : ∃ o' ct, assignStep s (.tensor .value data) isl 1 2 [1, 5] =
    some (.tensor o' ct) ∧ unpackStep ct isl (some [2]) = some data :=
  C142_roundtrip_partial s well (L := (· ∈ pts)) pts_len (by decide) (right bounded_iff _ _)
    (right below_iff _ _) (by intro d d' r hd hd'; rw [pts_inj d d' r hd.1 hd'.1]) pts_in data_total

example : ∃ t, unpackStep (⟨[1, 5], [7, 9, 7, 8, 0]⟩ : Tensor Int) isl (some [2]) = some t ∧ t.shape = [2] ∧
    t.Full ∧ Unpacks ⟨[1, 5], [7, 9, 7, 8, 0]⟩ (within [2] (· ∈ pts)) t :=
  C142_unpacks_partial (ct := ⟨[1, 5], [7, 9, 7, 8, 0]⟩) rfl (L := (· ∈ pts)) (rng := 2) (s := [2]) pts_len
    (by decide) (right below_iff _ _) pts_in (by intro h; simp [numElements] at h)

/-- The first slot in the order of the tree is the one that is read. -/
example : unpackStep (⟨[1, 5], [7, 9, 7, 8, 0]⟩ : Tensor Int) isl (some [2]) = some ⟨[2], [7, 9]⟩ := by
  decide +kernel

/-- The slots of a ciphertext, moved by one. -/
def pts2 : List Pt := [([0, 0], [0, 1]), ([0, 1], [0, 2]), ([0, 2], [0, 3]), ([0, 3], [0, 4]),
  ([0, 4], [0, 5])]

/-- `for (c0 = 0; c0 <= 4; c0 += 1) S(0, c0, 0, c0 + 1)` -/
def tree2 : Node := .loop 0 (num 0) true (num 4) (num 1)
  (.user [num 0, var 0, num 0, bin .add (var 0) (num 1)])

def isl2 : Isl := ⟨pts2, tree2, false, false, 5, 0, true, some [0, 3]⟩

theorem right2 {R : Pt → Prop} (hR : ∀ p, R p ↔ p ∈ pts2) (shape target : List Nat) :
    isl2.Right R 2 2 shape target := by
  have e : R = (· ∈ pts2) := by funext p; exact propext (hR p)
  subst e
  refine ⟨?_, fun p => Iff.rfl, ?_, by simp [isl2], by simp [isl2], ?_, by simp [isl2]⟩
  · intro p hp; revert p; decide
  · refine ⟨rfl, ?_, [[0, 0, 0, 1], [0, 1, 0, 2], [0, 2, 0, 3], [0, 3, 0, 4], [0, 4, 0, 5]],
      by decide +kernel, ?_⟩
    · simp only [isl2, tree2, Node.Served]
      exact ⟨by decide, by decide, by decide, by decide,
        ⟨[false, false, false, false], by decide, by decide⟩⟩
    · intro is; simp [pts2]
  · intro r hr; cases hr; exact ⟨[0, 2], by decide⟩

theorem chained : Chained [1, 5] [(⟨isl2, 2, 2, [1, 8]⟩, (· ∈ pts2))] := by
  refine ⟨rfl, by decide, right2 ?_ _ _, ?_, ?_, trivial⟩
  · intro p
    have h : ∀ p ∈ pts2, (p.1.zip ([1, 5] : List Nat)).all
        (fun x => decide (0 ≤ x.1) && decide (x.1 < (x.2 : Int))) = true := by decide
    exact ⟨fun a => a.1, fun a => ⟨a, h p a⟩⟩
  · have h : ∀ p ∈ pts2, ∀ q ∈ pts2, p.2 = q.2 → p.1 = q.1 := by decide
    intro d d' r hd hd'
    exact h _ hd _ hd' rfl
  · have h : ∀ p ∈ pts2, inB [1, 8] p.2 = true := by decide
    exact fun p hp => h p hp.1

example (s : Strategy) : ∃ o out, assignChain s (.tensor .value data)
      [⟨isl, 1, 2, [1, 5]⟩, ⟨isl2, 2, 2, [1, 8]⟩] = some (.tensor o out) ∧ out.shape = [1, 8] ∧
      Packs data.get (after (within [2] (· ∈ pts)) (· ∈ pts2)) out :=
  C141_chain_partial s well (by intro _ h; simp at h) (L := (· ∈ pts)) (l := ⟨isl, 1, 2, [1, 5]⟩)
    (ls := [(⟨isl2, 2, 2, [1, 8]⟩, (· ∈ pts2))]) (.inr rfl) pts_len (right bounded_iff _ _)
    (by intro d d' r hd hd'; rw [pts_inj d d' r hd.1 hd'.1]) pts_in chained

example (s : Strategy) : ∃ o' ct, assignChain s (.tensor .value data)
      [⟨isl, 1, 2, [1, 5]⟩, ⟨isl2, 2, 2, [1, 8]⟩] = some (.tensor o' ct) ∧
      unpackChain ct [(isl, some [2]), (isl2, some [1, 5])] = some data := by
  refine C142_chain_partial s well (L := (· ∈ pts)) (l := ⟨isl, 1, 2, [1, 5]⟩)
    (ls := [(⟨isl2, 2, 2, [1, 8]⟩, (· ∈ pts2))]) rfl pts_len (right bounded_iff _ _)
    (by intro d d' r hd hd'; rw [pts_inj d d' r hd.1 hd'.1]) pts_in chained (isl := isl)
    (us := [(isl2, [1, 5], (· ∈ pts2))]) rfl ?_
  refine ⟨pts_len, by decide, right below_iff _ _, pts_in,
    by intro h; simp [data, numElements] at h, fun d hd => ⟨hd, data_total d hd⟩, by decide, by decide,
    right2 ?_ _ _, ?_, by intro h; simp [numElements] at h, ?_, ?_⟩
  · intro p
    have h : ∀ p ∈ pts2, below [1, 5] p = true := by decide
    exact ⟨fun a => a.1, fun a => ⟨a, h p a⟩⟩
  · have h : ∀ p ∈ pts2, inB [1, 8] p.2 = true := by decide
    exact fun p hp => h p hp.1
  · rintro r ⟨d, -, hr⟩
    have h : ∀ p ∈ pts, inB [1, 5] p.2 = true ∧ ∃ q ∈ pts2, q.1 = p.2 := by decide
    obtain ⟨a, ⟨q1, q2⟩, hq, e⟩ := h _ hr
    simp only at e
    subst e
    exact ⟨a, q2, hq⟩
  · rintro r ⟨m, -, hr⟩
    have h : ∀ p ∈ pts2, inB [1, 8] p.2 = true := by decide
    exact h _ hr

example : ∃ t', assignPermutation (⟨[2, 2], [1, 2, 3, 4]⟩ : Tensor Int)
    [⟨0, 1, 1, 2⟩, ⟨1, 0, 0, 0⟩] 3 = some t' ∧ t'.shape = [2, 3] ∧
      (∀ m ∈ ([⟨0, 1, 1, 2⟩, ⟨1, 0, 0, 0⟩] : List Move),
        t'.get m.dst = (⟨[2, 2], [1, 2, 3, 4]⟩ : Tensor Int).get (m.src 2)) ∧
      ∀ r, inB [2, 3] r = true → (∀ m ∈ ([⟨0, 1, 1, 2⟩, ⟨1, 0, 0, 0⟩] : List Move), m.dst ≠ r) →
        t'.get r = some 0 :=
  C143_permutes_partial (t := ⟨[2, 2], [1, 2, 3, 4]⟩) rfl (.inl rfl) (by simp [Move.Ok]) (by decide)

example : assignPermutation (⟨[2, 2], [1, 2, 3, 4]⟩ : Tensor Int)
    [⟨0, 1, 1, 2⟩, ⟨1, 0, 2, 0⟩] 3 = none := C143_rejects ⟨⟨1, 0, 2, 0⟩, by simp, by decide⟩

/-! ## Violations -/

/-- The two elements off the diagonal of a matrix in one slot. -/
def ptsA : List Pt := [([0, 0], [0, 0]), ([0, 1], [0, 1]), ([1, 0], [0, 1]), ([1, 1], [0, 0])]

/-- `for (c0 = 0; c0 < 2; c0 += 1) for (c1 = 0; c1 < 2; c1 += 1) S(c1, c0, 0, (c0 + c1) % 2)`, for the
schedule `[1, 0]`. -/
def treeA : Node := .loop 0 (num 0) false (num 2) (num 1) (.loop 1 (num 0) false (num 2) (num 1)
  (.user [var 1, var 0, num 0, .op .pdivr [bin .add (var 0) (var 1), num 2]]))

def islA : Isl := ⟨ptsA, treeA, false, false, 4, 0, true, some [0, 0]⟩

/-- Where a layout puts two elements in one slot, it depends on the strategy which one is there. -/
theorem C141_violated_ambiguous :
    trace treeA (fun _ => none) =
      some (([ptsA[0], ptsA[2], ptsA[1], ptsA[3]] : List Pt).map fun p => p.1 ++ p.2) ∧
    assignStep .fold (.tensor (.const false) ⟨[2, 2], [1, 2, 3, (4 : Int)]⟩) islA 2 2 [1, 2] =
      some (.tensor (.const false) ⟨[1, 2], [4, 3]⟩) ∧
    assignStep .loops (.tensor (.const false) ⟨[2, 2], [1, 2, 3, (4 : Int)]⟩) islA 2 2 [1, 2] =
      some (.tensor .value ⟨[1, 2], [4, 2]⟩) := by decide +kernel

/-- `for (c0 = 0; c0 < 1; c0 += 1) S(c0, 0, 5)` -/
def islO : Isl := ⟨[([0], [0, 5])], .loop 0 (num 0) false (num 1) (num 1)
  (.user [var 0, num 0, num 5]), false, false, 1, 0, true, some [0, 5]⟩

/-- A slot that a ciphertext does not have is one of the next ciphertext when a constant is packed, and
undefined in loops. -/
theorem C141_violated_outside :
    assignStep .fold (.tensor (.const false) ⟨[1], [(7 : Int)]⟩) islO 1 2 [2, 4] =
      some (.tensor (.const false) ⟨[2, 4], [0, 0, 0, 0, 0, 7, 0, 0]⟩) ∧
    assignStep .loops (.tensor (.const false) ⟨[1], [(7 : Int)]⟩) islO 1 2 [2, 4] = none := by
  decide +kernel

def ptsN : List Pt := [([-2], [0, 0]), ([-1], [0, 1]), ([0], [0, 0]), ([1], [0, 1])]

/-- `for (c0 = 0; c0 < 2; c0 += 1) S(c0, 0, c0)` with the bounds of `assign_layout`. -/
def islN : Isl := ⟨ptsN.drop 2, .loop 0 (num 0) false (num 2) (num 1)
  (.user [var 0, num 0, .op .pdivr [var 0, num 2]]), false, false, 2, 0, true, some [0, 0]⟩

/-- `for (c0 = -2; c0 < 2; c0 += 1) S(c0, 0, (c0 + 2) % 2)` with the bounds of `unpack`. -/
def islN' : Isl := ⟨ptsN, .loop 0 (num (-2)) false (num 2) (num 1)
  (.user [var 0, num 0, .op .pdivr [bin .add (var 0) (num 2), num 2]]), false, false, 4, 0, true,
  some [0, 0]⟩

/-- A layout with negative indices packs, as they are excluded, and does not unpack, as they are not. -/
theorem C142_violated_negative :
    ptsN.filter (bounded (.tensor .value data)) = ptsN.drop 2 ∧ ptsN.filter (below [2]) = ptsN ∧
    trace islN.tree (fun _ => none) = some (islN.points.map fun p => p.1 ++ p.2) ∧
    trace islN'.tree (fun _ => none) = some (islN'.points.map fun p => p.1 ++ p.2) ∧
    assignStep .auto (.tensor .value data) islN 1 2 [1, 2] = some (.tensor .value ⟨[1, 2], [7, 9]⟩) ∧
    unpackStep (⟨[1, 2], [7, 9]⟩ : Tensor Int) islN' (some [2]) = none := by decide +kernel

/-- Negative entries of permutations are accepted and undefined. -/
theorem C143_violated_negative :
    moveOk 2 2 3 ⟨-1, 0, 0, 0⟩ = true ∧
    assignPermutation (⟨[2, 2], [1, 2, 3, 4]⟩ : Tensor Int) [⟨-1, 0, 0, 0⟩] 3 = none := by decide +kernel

/-- Of two entries for a slot the last one counts. -/
theorem C143_violated_twice :
    assignPermutation (⟨[2], [1, 2]⟩ : Tensor Int) [⟨0, 0, 0, 0⟩, ⟨0, 1, 0, 0⟩] 2 =
      some ⟨[1, 2], [2, 0]⟩ := by decide +kernel

end Ex

end Heir.Assign
