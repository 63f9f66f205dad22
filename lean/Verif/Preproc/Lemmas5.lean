import Verif.Preproc.Lemmas4
import Verif.Preproc.LayoutModel

namespace Heir.Preproc

/-! ## Linear indices -/

/-- Number of the iteration. -/
def digit (l : Loop) (i : Int) : Nat := ((i - l.lb) / l.step).toNat

/-- Number of the iteration of a nest, given from inner to outer. -/
def radix : List Loop → List Int → Nat
  | l :: ls, i :: is => digit l i + l.trip * radix ls is
  | _, _ => 0

def trips (ls : List Loop) : Nat := (ls.map Loop.trip).prod

theorem mem_ivals {l : Loop} {i : Int} (h : i ∈ l.ivals) :
    0 < l.step ∧ digit l i < l.trip ∧ i = l.lb + (digit l i : Int) * l.step := by
  obtain ⟨k, hk, rfl⟩ := List.mem_map.mp h
  have hk := List.mem_range.mp hk
  have hs : 0 < l.step := by
    unfold Loop.trip at hk
    split at hk
    · assumption
    · omega
  have hd : digit l (l.lb + (k : Int) * l.step) = k := by
    unfold digit
    rw [add_sub_cancel_left, Int.mul_ediv_cancel _ hs.ne']
    simp
  exact ⟨hs, by rw [hd]; exact hk, by rw [hd]⟩

theorem dimOffset_eq {l : Loop} {i : Int} (h : i ∈ l.ivals) {s : Nat} (hs : 0 < s) :
    dimOffset l i s = (digit l i : Int) * s := by
  obtain ⟨h1, -, h3⟩ := mem_ivals h
  have hn : (if l.step = 1 then (if l.lb = 0 then i else i - l.lb) else (if l.lb = 0 then i else i - l.lb).fdiv l.step) =
      (digit l i : Int) := by
    have hi : (if l.lb = 0 then i else i - l.lb) = (digit l i : Int) * l.step := by
      split
      · rename_i h0; rw [h0] at h3; simpa using h3
      · omega
    rw [hi]
    split
    · rename_i h1; simp [h1]
    · rw [Int.fdiv_eq_ediv_of_nonneg _ h1.le, Int.mul_ediv_cancel _ h1.ne']
  simp only [dimOffset, hn]
  split
  · rfl
  · have : s = 1 := by omega
    simp [this]

theorem radix_lt : ∀ (ls : List Loop) (is : List Int), InNest ls is → radix ls is < trips ls := by
  intro ls is h
  induction h with
  | nil => simp [radix, trips]
  | @cons l i ls is hi _ ih =>
    obtain ⟨-, h2, -⟩ := mem_ivals hi
    simp only [radix, trips, List.map_cons, List.prod_cons] at ih ⊢
    have : l.trip * (radix ls is + 1) ≤ l.trip * (ls.map Loop.trip).prod := Nat.mul_le_mul_left _ ih
    rw [Nat.mul_add] at this
    omega

theorem radix_inj : ∀ (ls : List Loop) (is js : List Int), InNest ls is → InNest ls js → radix ls is = radix ls js →
    is = js := by
  intro ls is js h
  induction h generalizing js with
  | nil => intro h' _; cases h'; rfl
  | @cons l i ls is hi _ ih =>
    intro h' he
    cases h' with
    | @cons _ j _ js hj hjs =>
      obtain ⟨-, h2, h3⟩ := mem_ivals hi
      obtain ⟨-, h2', h3'⟩ := mem_ivals hj
      simp only [radix] at he
      have hm := congrArg (· % l.trip) he
      simp only [Nat.add_mul_mod_self_left, Nat.mod_eq_of_lt h2, Nat.mod_eq_of_lt h2'] at hm
      have hr : l.trip * radix ls is = l.trip * radix ls js := by omega
      rw [h3, h3', hm, ih _ hjs (Nat.eq_of_mul_eq_mul_left (by omega) hr)]

theorem addUp_eq : ∀ (ls : List Loop) (is : List Int) (cur : Nat) (ss : List Nat) (a : Int), InNest ls is → 0 < cur →
    strides ls cur = some ss → addUp ls is ss a = a + cur * radix ls is := by
  intro ls is cur ss a h
  induction h generalizing cur ss a with
  | nil => intro _ _; simp [addUp, radix]
  | @cons l i ls is hi _ ih =>
    intro hc hs
    obtain ⟨-, h2, -⟩ := mem_ivals hi
    simp only [strides] at hs
    split at hs
    · obtain ⟨ss', hss, rfl⟩ := Option.map_eq_some_iff.mp hs
      rw [addUp, ih _ _ _ (Nat.mul_pos hc (by omega)) hss, dimOffset_eq hi hc, radix]
      push_cast
      ring
    · simp at hs

theorem strides_of_size : ∀ (ls : List Loop) (cur n : Nat), calcSize ls cur = some n →
    (∃ ss, strides ls cur = some ss) ∧ n = cur * trips ls := by
  intro ls
  induction ls with
  | nil => intro cur n h; simp only [calcSize, Option.some.injEq] at h; simp [strides, trips, h]
  | cons l ls ih =>
    intro cur n h
    simp only [calcSize] at h
    split at h
    · rename_i hlt
      obtain ⟨⟨ss, hss⟩, hn⟩ := ih _ _ h
      refine ⟨⟨cur :: ss, by simp [strides, hlt, hss]⟩, ?_⟩
      rw [hn]; simp [trips, Nat.mul_assoc]
    · simp at h

theorem inNest_reverse {ls : List Loop} {is : List Int} (h : InNest ls is) : InNest ls.reverse is.reverse :=
  List.rel_reverse h

theorem linearIndex_eq {ls : List Loop} {is : List Int} (h : InNest ls is) {n : Nat} (hn : calcSize ls.reverse 1 = some n)
    (base : Nat) : linearIndex ls is base = some ((base : Int) + radix ls.reverse is.reverse) ∧
      radix ls.reverse is.reverse < n := by
  obtain ⟨⟨ss, hss⟩, hn'⟩ := strides_of_size _ _ _ hn
  refine ⟨?_, ?_⟩
  · simp only [linearIndex, List.Forall₂.length_eq h, if_true, hss, Option.map_some]
    rw [addUp_eq _ _ 1 ss _ (inNest_reverse h) (by omega) hss]
    simp
  · rw [hn', Nat.one_mul]; exact radix_lt _ _ (inNest_reverse h)

/-! ## The table -/

/-- The entries follow one another. -/
theorem place_spec : ∀ (as : List Access) (cur : Nat → Nat) (L : Layout), place as cur = some L →
    (∀ t, cur t ≤ L.total t) ∧
    List.Forall₂ (fun a e => e.ty = a.ty ∧ e.site = a.site ∧ calcSize a.loops.reverse 1 = some e.size) as L.table ∧
    (∀ e ∈ L.table, cur e.ty ≤ e.off ∧ e.off + e.size ≤ L.total e.ty) ∧
    L.table.Pairwise (fun e e' => e.ty = e'.ty → e.off + e.size ≤ e'.off) ∧ (∀ t, L.total t < 2 ^ 63 ∨ L.total t = cur t) := by
  intro as
  induction as with
  | nil =>
    intro cur L h
    simp only [place, Option.some.injEq] at h
    subst h
    exact ⟨fun t => le_rfl, .nil, by simp, .nil, by simp⟩
  | cons a as ih =>
    intro cur L h
    simp only [place] at h
    split at h
    · simp at h
    · rename_i n hn
      split at h
      · rename_i hlt
        obtain ⟨L', hL', rfl⟩ := Option.map_eq_some_iff.mp h
        obtain ⟨h1, h2, h3, h4, h5⟩ := ih _ _ hL'
        refine ⟨fun t => ?_, .cons ⟨rfl, rfl, hn⟩ h2, ?_, ?_, fun t => ?_⟩
        · have := h1 t; simp only at this ⊢; split at this
          · rename_i ht; rw [ht] at this ⊢; omega
          · exact this
        · refine List.forall_mem_cons.mpr ⟨⟨le_rfl, by have := h1 a.ty; simpa using this⟩, fun e he => ?_⟩
          obtain ⟨h6, h7⟩ := h3 e he
          refine ⟨?_, h7⟩
          split at h6
          · rename_i ht; rw [ht]; omega
          · exact h6
        · refine List.pairwise_cons.mpr ⟨fun e he ht => ?_, h4⟩
          obtain ⟨h6, -⟩ := h3 e he
          simp only at ht ⊢
          simpa [← ht] using h6
        · rcases h5 t with h | h
          · exact .inl h
          · simp only at h ⊢
            rw [h]
            split
            · rename_i ht; exact .inl (by rw [← ht] at hlt ⊢; simpa using hlt)
            · exact .inr rfl
      · simp at h

theorem forall2_mem_left {α β : Type*} {R : α → β → Prop} {l : List α} {l' : List β} (h : List.Forall₂ R l l') {a : α}
    (ha : a ∈ l) : ∃ b ∈ l', R a b := by
  induction h with
  | nil => simp at ha
  | @cons x y l l' hxy _ ih =>
    rcases List.mem_cons.mp ha with rfl | ha
    · exact ⟨y, by simp, hxy⟩
    · obtain ⟨b, hb, h⟩ := ih ha; exact ⟨b, by simp [hb], h⟩

theorem forall2_mem_right {α β : Type*} {R : α → β → Prop} {l : List α} {l' : List β} (h : List.Forall₂ R l l') {b : β}
    (hb : b ∈ l') : ∃ a ∈ l, R a b := by
  induction h with
  | nil => simp at hb
  | @cons x y l l' hxy _ ih =>
    rcases List.mem_cons.mp hb with rfl | hb
    · exact ⟨x, by simp, hxy⟩
    · obtain ⟨a, ha, h⟩ := ih hb; exact ⟨a, by simp [ha], h⟩

/-- Facts on the layout that the lowering uses. -/
theorem analyze_spec {stores loads : List Access} {L : Layout} (h : analyze stores loads = some L) :
    (∀ a ∈ stores, ∃ e ∈ L.table, e.ty = a.ty ∧ e.site = a.site ∧ calcSize a.loops.reverse 1 = some e.size ∧
      L.table.find? (fun e => e.ty = a.ty ∧ e.site = a.site) = some e) ∧
    (∀ e ∈ L.table, e.off + e.size ≤ L.total e.ty) ∧
    (∀ e ∈ L.table, ∀ e' ∈ L.table, e.ty = e'.ty → e = e' ∨ e.off + e.size ≤ e'.off ∨ e'.off + e'.size ≤ e.off) ∧
    (stores.map (·.site)).Nodup := by
  unfold analyze at h
  split at h
  · rename_i hc
    obtain ⟨-, h2, h3, h4, -⟩ := place_spec _ _ _ h
    have hperm := List.perm_insertionSort (fun a b : Access => a.site ≤ b.site) stores
    refine ⟨fun a ha => ?_, fun e he => (h3 e he).2, fun e he e' he' ht => ?_, hc.1⟩
    · obtain ⟨e, he, h5, h6, h7⟩ := forall2_mem_left h2 (hperm.mem_iff.mpr ha)
      have hnd : (L.table.map (·.site)).Nodup := by
        have : L.table.map (·.site) = (stores.insertionSort fun a b => a.site ≤ b.site).map (·.site) := by
          clear h3 h4 he
          generalize (stores.insertionSort fun a b => a.site ≤ b.site) = as at h2
          generalize L.table = tb at h2
          induction h2 with
          | nil => rfl
          | cons hxy _ ih => simp [hxy.2.1, ih]
        rw [this]
        exact (hperm.map _).nodup_iff.mpr hc.1
      refine ⟨e, he, h5, h6, h7, ?_⟩
      obtain ⟨e', he'⟩ : ∃ e', L.table.find? (fun e => e.ty = a.ty ∧ e.site = a.site) = some e' := by
        rw [← Option.isSome_iff_exists, List.find?_isSome]
        exact ⟨e, he, by simp [h5, h6]⟩
      have hm := List.mem_of_find?_eq_some he'
      have hp := List.find?_some he'
      simp only [decide_eq_true_eq] at hp
      rw [he', List.inj_on_of_nodup_map hnd hm he (hp.2.trans h6.symm)]
    · by_cases hee : e = e'
      · exact .inl hee
      · have hsym : L.table.Pairwise (fun e e' => e.ty = e'.ty → e.off + e.size ≤ e'.off ∨ e'.off + e'.size ≤ e.off) :=
          h4.imp fun hh ht => .inl (hh ht)
        haveI : Std.Symm (fun e e' : Entry => e.ty = e'.ty → e.off + e.size ≤ e'.off ∨ e'.off + e'.size ≤ e.off) :=
          ⟨fun a b hab ht => (hab ht.symm).symm⟩
        exact .inr (hsym.forall he he' hee ht)
  · simp at h

/-- Places of references. -/
theorem flatKey_eq {stores loads : List Access} {L : Layout} (h : analyze stores loads = some L) {r : Ref} {a : Access}
    (ha : a ∈ stores) (h1 : a.site = r.site) (h2 : a.ty = r.ty) (h3 : a.loops = r.loops) (hr : InNest r.loops r.idx) :
    ∃ e ∈ L.table, e.ty = r.ty ∧ e.site = r.site ∧ calcSize r.loops.reverse 1 = some e.size ∧
      radix r.loops.reverse r.idx.reverse < e.size ∧
      flatKey L r = some (r.ty, (e.off : Int) + radix r.loops.reverse r.idx.reverse) := by
  obtain ⟨g1, g2, -, -⟩ := analyze_spec h
  obtain ⟨e, he, k1, k2, k3, k4⟩ := g1 a ha
  rw [h3] at k3
  obtain ⟨l1, l2⟩ := linearIndex_eq hr k3 e.off
  refine ⟨e, he, k1.trans h2, k2.trans h1, k3, l2, ?_⟩
  have hb := g2 e he
  rw [k1, h2] at hb
  rw [h1, h2] at k4
  simp only [flatKey, k4, l1]
  rw [if_pos ⟨by omega, by omega⟩]

theorem flatKey_inj {stores loads : List Access} {L : Layout} (h : analyze stores loads = some L) {r r' : Ref}
    {a a' : Access} (ha : a ∈ stores) (h1 : a.site = r.site) (h2 : a.ty = r.ty) (h3 : a.loops = r.loops)
    (hr : InNest r.loops r.idx) (ha' : a' ∈ stores) (h1' : a'.site = r'.site) (h2' : a'.ty = r'.ty) (h3' : a'.loops = r'.loops)
    (hr' : InNest r'.loops r'.idx) (he : flatKey L r = flatKey L r') : r.site = r'.site ∧ r.idx = r'.idx := by
  obtain ⟨e, m, k1, k2, k3, k4, k5⟩ := flatKey_eq h ha h1 h2 h3 hr
  obtain ⟨e', m', k1', k2', k3', k4', k5'⟩ := flatKey_eq h ha' h1' h2' h3' hr'
  obtain ⟨-, -, g3, g4⟩ := analyze_spec h
  rw [k5, k5'] at he
  simp only [Option.some.injEq, Prod.mk.injEq] at he
  obtain ⟨ht, hoff⟩ := he
  rcases g3 e m e' m' (by rw [k1, k1', ht]) with hee | hlt | hlt
  · subst hee
    have hs : r.site = r'.site := k2.symm.trans k2'
    refine ⟨hs, ?_⟩
    have haa : a = a' := List.inj_on_of_nodup_map g4 ha ha' (by rw [h1, h1', hs])
    subst haa
    have hl : r'.loops = r.loops := by rw [← h3', h3]
    rw [hl] at hoff hr'
    have := radix_inj _ _ _ (inNest_reverse hr) (inNest_reverse hr') (by omega)
    simpa using congrArg List.reverse this
  · omega
  · omega

end Heir.Preproc
