import Verif.Assign.Lemmas

/-!
# Each way to pack and to unpack
-/

namespace Heir.Assign

open Heir.Codegen (Node trace generateForLoop result walk walk_false walk_perm)

variable {β : Type}

theorem bounds_iff : ∀ {shape : List Nat} {d : List Int}, d.length = shape.length →
    ((d.zip shape).all (fun x => decide (0 ≤ x.1) && decide (x.1 < (x.2 : Int))) = true ↔
      inB shape d = true)
  | [], [], _ => by simp [inB]
  | n :: ns, i :: is, h => by
    have := bounds_iff (shape := ns) (d := is) (by simpa using h)
    simp only [List.zip_cons_cons, List.all_cons, inB, Bool.and_eq_true, this]
  | [], _ :: _, h => by simp at h
  | _ :: _, [], h => by simp at h

theorem below_iff : ∀ {shape : List Nat} {d : List Int}, d.length = shape.length → (∀ i ∈ d, 0 ≤ i) →
    ((d.zip shape).all (fun x => decide (x.1 < (x.2 : Int))) = true ↔ inB shape d = true)
  | [], [], _, _ => by simp [inB]
  | n :: ns, i :: is, h, hn => by
    have := below_iff (shape := ns) (d := is) (by simpa using h) (fun j hj => hn j (by simp [hj]))
    have h0 := hn i (by simp)
    simp only [List.zip_cons_cons, List.all_cons, inB, Bool.and_eq_true, this, decide_eq_true_eq, h0,
      true_and]
  | [], _ :: _, h, _ => by simp at h
  | _ :: _, [], h, _ => by simp at h

theorem get_inB {t : Tensor β} {d : List Int} (h : (t.get d).isSome) : inB t.shape d = true := by
  unfold Tensor.get at h
  split at h
  · assumption
  · simp at h

/-- Insertions of the elements of a relation pack. -/
theorem packs_of_last [Zero β] {γ : Type} {S : γ → Option β} {D : γ → List Int} {ts : List γ}
    {src : List Int → Option β} {R : Pt → Prop} {out : Tensor β} (hu : Unambiguous src R)
    (h1 : ∀ x ∈ ts, ∃ p, R p ∧ D x = p.2 ∧ S x = src p.1) (h2 : ∀ p, R p → ∃ x ∈ ts, D x = p.2)
    (ho : ∀ r, inB out.shape r = true → out.get r = lastAt S D ts r (some 0)) : Packs src R out := by
  intro r hr
  rw [ho r hr]
  refine ⟨fun d hd => ?_, fun hn => ?_⟩
  · obtain ⟨x, hx, hxr⟩ := h2 _ hd
    obtain ⟨y, hy, hyr, e⟩ := lastAt_some (S := S) (old := some 0) ⟨x, hx, hxr⟩
    obtain ⟨p, hp, p1, p2⟩ := h1 y hy
    rw [e, p2]
    refine hu p.1 d r ?_ hd
    have : p.2 = r := p1.symm.trans hyr
    rw [← this]; exact hp
  · apply lastAt_none
    intro x hx c
    obtain ⟨p, hp, p1, -⟩ := h1 x hx
    have : p.2 = r := p1.symm.trans c
    exact hn p.1 (by rw [← this]; exact hp)

theorem splat_packs [Zero β] {src : List Int → Option β} {R : Pt → Prop} {target : List Nat} {a : β}
    (hd : ∀ r, inB target r = true → ∃ d, R (d, r)) (hs : ∀ p, R p → src p.1 = some a) :
    Packs src R (splat target a) := by
  intro r hr
  refine ⟨fun d h => ?_, fun hn => ?_⟩
  · rw [splat_get (shape := target) hr, hs _ h]
  · obtain ⟨d, h⟩ := hd r hr
    exact absurd h (hn d)

/-! ## Loops -/

theorem loops_packs [Zero β] {src : List Int → Option β} {R : Pt → Prop} {tree : Node} {target : List Nat}
    {rank dom rng : Nat} (hu : Unambiguous src R) (hv : Visits tree R)
    (hl : ∀ p, R p → p.1.length = dom ∧ p.2.length = rng) (hs : ∀ p, R p → (src p.1).isSome)
    (hr : ∀ p, R p → src (p.1.take rank) = src p.1 ∧ rank ≤ p.1.length)
    (hin : ∀ p, R p → inB target p.2 = true) :
    ∃ t, runLoops tree false (assignBody src rank dom rng) (splat target 0) = some t ∧
      t.shape = target ∧ t.Full ∧ Packs src R t := by
  obtain ⟨hloop, hserved, ts, ht, hts⟩ := hv
  have hp : ∀ is ∈ ts, ∃ p, R p ∧ (is.drop dom).take rng = p.2 ∧ src (is.take rank) = src p.1 := by
    intro is h
    obtain ⟨p, hp, rfl⟩ := (hts is).1 h
    refine ⟨p, hp, ?_, ?_⟩
    · rw [← (hl p hp).1, List.drop_left, ← (hl p hp).2, List.take_length]
    · rw [List.take_append_of_le_length (hr p hp).2, (hr p hp).1]
  obtain ⟨t, h1, h2, h3, h4⟩ := inserts (ts := ts) (shape := target)
    (step := fun a is => a.bind (assignBody src rank dom rng is)) (S := fun is => src (is.take rank))
    (D := fun is => (is.drop dom).take rng) (fun x _ t _ => rfl)
    (fun x hx => by obtain ⟨p, a, _, c⟩ := hp x hx; rw [c]; exact hs p a)
    (fun x hx => by obtain ⟨p, a, b, _⟩ := hp x hx; rw [b]; exact hin p a)
    (splat target 0) (splat_full _ _) rfl
  refine ⟨t, ?_, h2, h3, ?_⟩
  · rw [runLoops_ok hloop hserved (by rw [walk_false]; exact ht)]
    exact h1
  · apply packs_of_last hu hp
    · intro p hR
      obtain ⟨q, hq, h⟩ : ∃ x ∈ ts, x = p.1 ++ p.2 := ⟨_, (hts _).2 ⟨p, hR, rfl⟩, rfl⟩
      refine ⟨q, hq, ?_⟩
      subst h
      rw [← (hl p hR).1, List.drop_left, ← (hl p hR).2, List.take_length]
    · intro r hr
      rw [h2] at hr
      rw [h4 r hr, splat_get hr]

/-! ## Constants -/

theorem fold_eq {t : Tensor β} {isSplat : Bool} {target : List Nat} {pts : List Pt}
    (hs : ∀ p ∈ pts, (t.get p.1).isSome) (hin : ∀ p ∈ pts, inB target p.2 = true)
    (hsp : isSplat = true → ∀ a ∈ t.vals, ∀ b ∈ t.vals, a = b) (out : Tensor β)
    (ho : out.shape = target) :
    pts.foldl (foldStep t isSplat target) (some out.vals) =
      (pts.foldl (fun a p => a.bind fun o => (t.get p.1).bind fun v => o.insert v p.2)
        (some out)).map Tensor.vals := by
  induction pts generalizing out with
  | nil => rfl
  | cons p ps ih =>
    obtain ⟨v, hv⟩ := Option.isSome_iff_exists.1 (hs p (by simp))
    have hb := hin p (by simp)
    obtain ⟨x, y⟩ := flat_bounds hb
    have hd := get_inB (hs p (by simp))
    obtain ⟨u, w⟩ := flat_bounds hd
    have hi : t.vals[(flat t.shape p.1).toNat]? = some v := by
      simpa [Tensor.get, hd] using hv
    have key : foldStep t isSplat target (some out.vals) p =
        some (out.vals.set (flat target p.2).toNat v) := by
      simp only [foldStep, Option.bind_some, flatten_eq]
      rw [if_neg (by omega)]
      cases isSplat with
      | false => simp [hi, u]
      | true =>
        have hm : v ∈ t.vals := List.mem_of_getElem? hi
        cases hvs : t.vals with
        | nil => rw [hvs] at hm; simp at hm
        | cons a as =>
          have : a = v := hsp rfl a (by simp [hvs]) v hm
          simp [this]
    rw [List.foldl_cons, List.foldl_cons, key]
    have hb' : inB out.shape p.2 = true := by rw [ho]; exact hb
    have e : (some out).bind (fun o => (t.get p.1).bind fun v => o.insert v p.2) =
        some { out with vals := out.vals.set (flat target p.2).toNat v } := by
      simp [hv, Tensor.insert, ho, hb]
    rw [e]
    exact ih (fun q hq => hs q (by simp [hq])) (fun q hq => hin q (by simp [hq]))
      { out with vals := out.vals.set (flat target p.2).toNat v } ho

theorem fold_packs [Zero β] {t : Tensor β} {isSplat : Bool} {target : List Nat} {pts : List Pt}
    {R : Pt → Prop} (hu : Unambiguous t.get R) (hp : ∀ p, p ∈ pts ↔ R p)
    (hs : ∀ p, R p → (t.get p.1).isSome) (hin : ∀ p, R p → inB target p.2 = true)
    (hsp : isSplat = true → ∀ a ∈ t.vals, ∀ b ∈ t.vals, a = b) :
    ∃ t', foldConst t isSplat target pts = some t' ∧ t'.shape = target ∧ t'.Full ∧ Packs t.get R t' := by
  obtain ⟨t', h1, h2, h3, h4⟩ := inserts (ts := pts) (shape := target)
    (step := fun a p => a.bind fun o => (t.get p.1).bind fun v => o.insert v p.2)
    (S := fun p => t.get p.1) (D := fun p => p.2) (fun x _ t _ => rfl)
    (fun x hx => hs x ((hp x).1 hx)) (fun x hx => hin x ((hp x).1 hx)) (splat target 0)
    (splat_full _ _) rfl
  have e := fold_eq (t := t) (isSplat := isSplat) (target := target) (pts := pts)
    (fun p h => hs p ((hp p).1 h)) (fun p h => hin p ((hp p).1 h)) hsp (splat target 0) rfl
  rw [h1] at e
  refine ⟨t', ?_, h2, h3, ?_⟩
  · have e' : pts.foldl (foldStep t isSplat target) (some (List.replicate (numElements target) 0)) =
        some t'.vals := e
    rw [foldConst, e', Option.map_some, ← h2]
  · apply packs_of_last hu (S := fun p => t.get p.1) (D := fun p => p.2) (ts := pts)
    · intro x hx; exact ⟨x, (hp x).1 hx, rfl, rfl⟩
    · intro p h; exact ⟨p, (hp p).2 h, rfl⟩
    · intro r hr
      rw [h2] at hr
      rw [h4 r hr, splat_get hr]

/-! ## Remainders -/

theorem crt_packs [Zero β] {t : Tensor β} {target : List Nat} {R : Pt → Prop} {c n : Nat}
    (hu : Unambiguous t.get R) (htar : target = [c, n])
    (hR : ∀ p, R p ↔ ∃ ct slot : Nat, ct < c ∧ slot < n ∧
      p = (t.shape.map fun d => ((ct * n + slot : Nat) : Int) % d, [(ct : Int), (slot : Int)]))
    (hs : ∀ p, R p → (t.get p.1).isSome) :
    ∃ t', crtAssign t target = some t' ∧ t'.shape = target ∧ t'.Full ∧ Packs t.get R t' := by
  subst htar
  have hmap : ∀ k : Nat, (t.shape.map fun d => (k : Int).tmod d) = t.shape.map fun d => (k : Int) % d := by
    intro k; apply List.map_congr_left
    intro d _; exact Int.tmod_eq_emod_of_nonneg (by omega)
  let D : Nat → List Int := fun k => if c = 1 then [0, (k : Int)] else [(k : Int) / n, (k : Int) % n]
  have hp : ∀ k ∈ List.range (c * n), ∃ p, R p ∧ D k = p.2 ∧
      t.get (t.shape.map fun d => (k : Int).tmod d) = t.get p.1 := by
    intro k hk
    have hk := List.mem_range.1 hk
    have hn : 0 < n := Nat.pos_of_ne_zero (by rintro rfl; simp at hk)
    refine ⟨_, (hR _).2 ⟨k / n, k % n, Nat.div_lt_of_lt_mul (by rwa [Nat.mul_comm] at hk),
      Nat.mod_lt _ hn, rfl⟩, ?_, ?_⟩
    · dsimp only [D]
      split
      · rename_i h; subst h
        rw [Nat.one_mul] at hk
        rw [Nat.div_eq_of_lt hk, Nat.mod_eq_of_lt hk]; rfl
      · push_cast; rfl
    · rw [hmap]; rw [Nat.div_add_mod' k n]
  have hcov : ∀ p, R p → ∃ k ∈ List.range (c * n), D k = p.2 := by
    intro p h
    obtain ⟨ct, slot, h1, h2, rfl⟩ := (hR p).1 h
    refine ⟨ct * n + slot, ?_, ?_⟩
    · rw [List.mem_range]
      calc ct * n + slot < ct * n + n := by omega
        _ = (ct + 1) * n := by ring
        _ ≤ c * n := Nat.mul_le_mul_right _ h1
    · dsimp only [D]
      split
      · rename_i h; subst h
        have : ct = 0 := by omega
        subst this; simp
      · have a1 : (ct * n + slot) / n = ct := by
          rw [Nat.add_comm, Nat.add_mul_div_right _ _ (by omega), Nat.div_eq_of_lt h2, Nat.zero_add]
        have a2 : (ct * n + slot) % n = slot := by
          rw [Nat.add_comm, Nat.add_mul_mod_self_right, Nat.mod_eq_of_lt h2]
        rw [← Int.natCast_ediv, ← Int.natCast_emod, a1, a2]
  have hinR : ∀ p, R p → inB [c, n] p.2 = true := by
    intro p h
    obtain ⟨ct, slot, h1, h2, rfl⟩ := (hR p).1 h
    simp [inB, h1, h2]
  obtain ⟨t', h1, h2, h3, h4⟩ := inserts (ts := List.range (c * n)) (shape := [c, n])
    (step := crtStep t [c, n]) (S := fun k => t.get (t.shape.map fun d => (k : Int).tmod d)) (D := D)
    (fun x _ t _ => by simp only [crtStep, D]; rfl)
    (fun x hx => by obtain ⟨p, a, _, e⟩ := hp x hx; rw [e]; exact hs p a)
    (fun x hx => by obtain ⟨p, a, e, _⟩ := hp x hx; rw [e]; exact hinR p a)
    (splat [c, n] 0) (splat_full _ _) rfl
  refine ⟨t', h1, h2, h3, ?_⟩
  apply packs_of_last hu hp hcov
  intro r hr
  rw [h2] at hr
  rw [h4 r hr, splat_get hr]

/-! ## Unpacking -/

theorem loops_unpacks [Zero β] {ct : Tensor β} (hct : ct.Full) {R : Pt → Prop} {tree : Node}
    {s : List Nat} (hv : Visits tree R) (hs : ∀ p, R p → inB s p.1 = true)
    (hin : ∀ p, R p → inB ct.shape p.2 = true) :
    ∃ t, runLoops tree true (unpackBody ct s.length) (splat s 0) = some t ∧
      t.shape = s ∧ t.Full ∧ Unpacks ct R t := by
  obtain ⟨hloop, hserved, ts, ht, hts⟩ := hv
  obtain ⟨us, hw, hperm⟩ := walk_perm tree _ ts ht
  have hus : ∀ is, is ∈ us ↔ ∃ p, R p ∧ is = p.1 ++ p.2 := fun is => (hperm.mem_iff).trans (hts is)
  have cut : ∀ p, R p → (p.1 ++ p.2).drop s.length = p.2 ∧
      (p.1 ++ p.2).take ((p.1 ++ p.2).length - ct.shape.length) = p.1 := by
    intro p hp
    have a := inB_len (hs p hp)
    have b := inB_len (hin p hp)
    refine ⟨by rw [← a, List.drop_left], ?_⟩
    rw [List.length_append, ← b, Nat.add_sub_cancel, List.take_left]
  have hp : ∀ is ∈ us, ∃ p, R p ∧ is.take (is.length - ct.shape.length) = p.1 ∧
      ct.get (is.drop s.length) = ct.get p.2 := by
    intro is h
    obtain ⟨p, hp, rfl⟩ := (hus is).1 h
    exact ⟨p, hp, (cut p hp).2, by rw [(cut p hp).1]⟩
  obtain ⟨t, h1, h2, h3, h4⟩ := inserts (ts := us) (shape := s)
    (step := fun a is => a.bind (unpackBody ct s.length is)) (S := fun is => ct.get (is.drop s.length))
    (D := fun is => is.take (is.length - ct.shape.length)) (fun x _ t _ => rfl)
    (fun x hx => by
      obtain ⟨p, a, _, c⟩ := hp x hx
      obtain ⟨v, hv⟩ := Tensor.get_some hct (hin p a)
      simp [c, hv])
    (fun x hx => by obtain ⟨p, a, b, _⟩ := hp x hx; rw [b]; exact hs p a)
    (splat s 0) (splat_full _ _) rfl
  refine ⟨t, ?_, h2, h3, ?_⟩
  · rw [runLoops_ok hloop hserved hw]
    exact h1
  · intro d hd
    rw [h2] at hd
    rw [h4 d hd, splat_get hd]
    refine ⟨fun ⟨r, hr⟩ => ?_, fun hn => ?_⟩
    · have hm : d ++ r ∈ us := (hus _).2 ⟨(d, r), hr, rfl⟩
      obtain ⟨y, hy, y1, y2⟩ := lastAt_some (S := fun is => ct.get (is.drop s.length)) (ts := us)
        (D := fun is : List Int => is.take (is.length - ct.shape.length)) (r := d) (old := some 0)
        ⟨_, hm, (cut (d, r) hr).2⟩
      obtain ⟨p, hR, p1, p2⟩ := hp y hy
      have : p.1 = d := p1.symm.trans y1
      exact ⟨p.2, by rw [← this]; exact hR, by rw [y2, p2]⟩
    · apply lastAt_none
      intro x hx c
      obtain ⟨p, hR, p1, -⟩ := hp x hx
      have : p.1 = d := p1.symm.trans c
      exact hn p.2 (by rw [← this]; exact hR)

/-! ## Tensors with the same elements -/

/-- The index at a position. -/
def unflat : List Nat → Nat → List Int
  | [], _ => []
  | _ :: ds, k => ((k / numElements ds : Nat) : Int) :: unflat ds (k % numElements ds)

theorem unflat_ok : ∀ {shape : List Nat} {k : Nat}, k < numElements shape →
    inB shape (unflat shape k) = true ∧ flat shape (unflat shape k) = k
  | [], k, h => by simp [numElements] at h; subst h; simp [unflat, inB, flat]
  | d :: ds, k, h => by
    simp only [numElements] at h
    have hp : 0 < numElements ds := Nat.pos_of_ne_zero (by rintro e; simp [e] at h)
    obtain ⟨a, b⟩ := unflat_ok (shape := ds) (Nat.mod_lt k hp)
    have hq : k / numElements ds < d := Nat.div_lt_of_lt_mul (by rwa [Nat.mul_comm] at h)
    refine ⟨?_, ?_⟩
    · simp only [unflat, inB, a, Bool.and_true, Bool.and_eq_true, decide_eq_true_eq]
      exact ⟨Int.natCast_nonneg _, by exact_mod_cast hq⟩
    · simp only [unflat, flat, b]
      exact_mod_cast Nat.div_add_mod' k (numElements ds)

theorem Tensor.ext_get {t u : Tensor β} (ht : t.Full) (hu : u.Full) (hs : t.shape = u.shape)
    (h : ∀ d, inB u.shape d = true → t.get d = u.get d) : t = u := by
  obtain ⟨s, v⟩ := t
  obtain ⟨s', v'⟩ := u
  simp only at hs
  subst hs
  congr 1
  apply List.ext_getElem?
  intro k
  by_cases hk : k < numElements s
  · obtain ⟨a, b⟩ := unflat_ok hk
    have := h _ a
    simpa [Tensor.get, a, b] using this
  · rw [List.getElem?_eq_none (by simp only [Tensor.Full] at ht; omega),
      List.getElem?_eq_none (by simp only [Tensor.Full] at hu; omega)]

end Heir.Assign
