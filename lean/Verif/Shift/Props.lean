import Verif.Shift.Network
import Verif.Kernel.Spec
import Verif.Graph.Props

/-! # C37: shift networks -/

namespace Heir.Shift

open Heir.Dag Heir.Kernel Heir.Graph

/-! ## The mapping -/

theorem distance_eq (m : Nat) (p q : CtSlot) : (distance m p q : Int) = slotsApart m p q := by
  unfold distance slotsApart
  push_cast
  rfl

theorem lookup_none_iff (mp : Mapping) (t : CtSlot) : mp.lookup t = none ↔ t ∉ mp.map (·.1) := by
  rw [List.lookup_eq_none_iff]
  constructor
  · intro h hm
    obtain ⟨e, he, rfl⟩ := List.mem_map.1 hm
    simpa using h e he
  · intro h e he
    simp only [bne_iff_ne, ne_eq, beq_iff_eq, Bool.not_eq_true, beq_eq_false_iff_ne]
    rintro rfl
    exact h (List.mem_map.2 ⟨e, he, rfl⟩)

theorem mem_of_lookup {mp : Mapping} {t s : CtSlot} (h : mp.lookup t = some s) : (t, s) ∈ mp := by
  obtain ⟨l1, l2, rfl, _⟩ := List.lookup_eq_some_iff.1 h
  simp

/-- Invariant of `add`. -/
def Selects (m : Nat) (pairs : List (CtSlot × CtSlot)) (mp : Mapping) : Prop :=
  (mp.map (·.1)).Nodup ∧ (∀ e ∈ mp, Closest m pairs e.2 e.1) ∧
    ∀ p ∈ pairs, p.2 ∈ mp.map (·.1)

theorem selects_add {m : Nat} {pairs : List (CtSlot × CtSlot)} {mp : Mapping}
    (h : Selects m pairs mp) (s t : CtSlot) : Selects m (pairs ++ [(s, t)]) (mp.add m s t) := by
  obtain ⟨h1, h2, h3⟩ := h
  unfold Mapping.add
  split
  · rename_i hl
    rw [lookup_none_iff] at hl
    refine ⟨?_, ?_, ?_⟩
    · rw [List.map_append, List.map_cons, List.map_nil, List.nodup_append]
      refine ⟨h1, by simp, ?_⟩
      intro a ha b hb
      simp only [List.mem_singleton] at hb
      rintro rfl
      exact hl (hb ▸ ha)
    · intro e he
      rcases List.mem_append.1 he with he | he
      · obtain ⟨g1, g2⟩ := h2 e he
        refine ⟨List.mem_append_left _ g1, fun q hq => ?_⟩
        rcases List.mem_append.1 hq with hq | hq
        · exact g2 q hq
        · simp only [List.mem_singleton, Prod.mk.injEq] at hq
          exact absurd (List.mem_map.2 ⟨e, he, hq.2⟩) hl
      · obtain rfl : e = (t, s) := by simpa using he
        refine ⟨by simp, fun q hq => ?_⟩
        rcases List.mem_append.1 hq with hq | hq
        · exact absurd (h3 _ hq) hl
        · simp only [List.mem_singleton, Prod.mk.injEq] at hq
          rw [hq.1]
    · intro p hp
      rw [List.map_append]
      rcases List.mem_append.1 hp with hp | hp
      · exact List.mem_append_left _ (h3 p hp)
      · obtain rfl : p = (s, t) := by simpa using hp
        simp
  · rename_i ex hl
    have hmem := mem_of_lookup hl
    split
    · rename_i hd
      have hfst : (mp.map fun e => if e.1 = t then (t, s) else e).map (·.1) = mp.map (·.1) := by
        rw [List.map_map]
        refine List.map_congr_left fun e _ => ?_
        simp only [Function.comp]
        split
        · rename_i he; exact he.symm
        · rfl
      refine ⟨by rw [hfst]; exact h1, ?_, ?_⟩
      · intro e' he'
        obtain ⟨e, he, rfl⟩ := List.mem_map.1 he'
        split
        · refine ⟨by simp, fun q hq => ?_⟩
          rcases List.mem_append.1 hq with hq | hq
          · have := (h2 _ hmem).2 q hq
            have hd' : slotsApart m t s < slotsApart m t ex := by
              rw [← distance_eq, ← distance_eq]; exact_mod_cast hd
            exact hd'.le.trans this
          · simp only [List.mem_singleton, Prod.mk.injEq] at hq
            rw [hq.1]
        · rename_i hne
          obtain ⟨g1, g2⟩ := h2 e he
          refine ⟨List.mem_append_left _ g1, fun q hq => ?_⟩
          rcases List.mem_append.1 hq with hq | hq
          · exact g2 q hq
          · simp only [List.mem_singleton, Prod.mk.injEq] at hq
            exact absurd hq.2 hne
      · intro p hp
        rw [hfst]
        rcases List.mem_append.1 hp with hp | hp
        · exact h3 p hp
        · obtain rfl : p = (s, t) := by simpa using hp
          exact List.mem_map.2 ⟨_, hmem, rfl⟩
    · rename_i hd
      refine ⟨h1, ?_, ?_⟩
      · intro e he
        obtain ⟨g1, g2⟩ := h2 e he
        refine ⟨List.mem_append_left _ g1, fun q hq => ?_⟩
        rcases List.mem_append.1 hq with hq | hq
        · exact g2 q hq
        · simp only [List.mem_singleton, Prod.mk.injEq] at hq
          have : e = (t, ex) := List.inj_on_of_nodup_map h1 he hmem hq.2
          rw [this, hq.1, ← distance_eq, ← distance_eq]
          exact_mod_cast not_lt.1 hd
      · intro p hp
        rcases List.mem_append.1 hp with hp | hp
        · exact h3 p hp
        · obtain rfl : p = (s, t) := by simpa using hp
          exact List.mem_map.2 ⟨_, hmem, rfl⟩

theorem selects_populate (m : Nat) (pairs : List (CtSlot × CtSlot)) :
    Selects m pairs (populate m pairs) := by
  have key : ∀ (l pre : List (CtSlot × CtSlot)) (mp : Mapping), Selects m pre mp →
      Selects m (pre ++ l) (l.foldl (fun mp p => mp.add m p.1 p.2) mp) := by
    intro l
    induction l with
    | nil => intro pre mp h; simpa using h
    | cons p l ih =>
      intro pre mp h
      have := ih _ _ (selects_add h p.1 p.2)
      simpa using this
  exact key pairs [] [] ⟨by simp, by simp, by simp⟩

/-- The mapping has each requested target once, with a closest source. -/
theorem C37_populate (m : Nat) (pairs : List (CtSlot × CtSlot)) :
    ((populate m pairs).map (·.1)).Nodup ∧
    (∀ t s, (t, s) ∈ populate m pairs → Closest m pairs s t) ∧
    (∀ s t, (s, t) ∈ pairs → ∃ q, (t, q) ∈ populate m pairs) := by
  obtain ⟨h1, h2, h3⟩ := selects_populate m pairs
  refine ⟨h1, fun t s h => h2 _ h, fun s t h => ?_⟩
  obtain ⟨e, he, heq⟩ := List.mem_map.1 (h3 _ h)
  exact ⟨e.2, by rw [← show e.1 = t from heq]; exact he⟩

example : populate 4 [(⟨0, 3⟩, ⟨0, 0⟩), (⟨0, 1⟩, ⟨0, 0⟩), (⟨1, 0⟩, ⟨0, 0⟩), (⟨1, 2⟩, ⟨1, 1⟩)] =
    [(⟨0, 0⟩, ⟨0, 1⟩), (⟨1, 1⟩, ⟨1, 2⟩)] := by decide

/-! ## The network -/

theorem orderOk_of_allPowers {n : Nat} (h0 : 0 < n) (hn : n ≤ 2 ^ 31) {order : List Nat}
    (h : order = [] ∨ AllPowers n order) : OrderOk n order := by
  rcases h with h | ⟨h1, h2⟩
  · exact Or.inl h
  · right
    obtain ⟨k, hk1, hk2, hd⟩ := defaultShiftOrder_ok h0 hn
    refine ⟨_, hd, ?_⟩
    rw [List.perm_ext_iff_of_nodup h1]
    · intro a
      rw [h2]
      constructor
      · rintro ⟨hlt, i, rfl⟩
        exact List.mem_map.2 ⟨i, List.mem_range.2
          ((Nat.pow_lt_pow_iff_right (by omega : 1 < 2)).1 (hlt.trans_le hk1)), rfl⟩
      · intro ha
        obtain ⟨i, hi, rfl⟩ := List.mem_map.1 ha
        have : 2 ^ (i + 1) ≤ 2 ^ k := Nat.pow_le_pow_right (by omega) (List.mem_range.1 hi)
        rw [pow_succ] at this
        exact ⟨by omega, i, rfl⟩
    · exact List.nodup_range.map fun a b h => Nat.pow_right_injective (le_refl 2) h

variable {R : Type} {m num : Nat} [CommRing R] [DecidableEq R]

/-- For requested pairs of positions (any number of targets for a source and of sources for a target),
the expressions built have in each slot the value of a closest source, and zero in the slots that are
not requested.  The order of iteration over the mapping, the shift order and the ties of the priority
queue are arbitrary.  The rotations need the keys for the powers of two below the number of slots. -/
theorem C37_network (hm : ∃ j, m = 2 ^ j) (hN : num * m ≤ 2 ^ 31) (pairs : List (CtSlot × CtSlot))
    (hne : pairs ≠ []) (hin : ∀ p ∈ pairs, InRange m num p.1 ∧ InRange m num p.2)
    (mp : Mapping) (hmp : mp.Perm (populate m pairs))
    (order : List Nat) (ho : order = [] ∨ AllPowers (num * m) order)
    (pop : List (UGraph.Info CtSlot) → Option (UGraph.Info CtSlot × List (UGraph.Info CtSlot)))
    (hpop : Pops pop) (cts : List (Slots R m)) (hl : cts.length = num) :
    ∃ es, lowerRemap pop mp order cts = some es ∧ es.length = num ∧
      ∀ c e, es[c]? = some e → ∃ w, Computes (powerKeys m) e w ∧ Realizes pairs cts c w := by
  have hmp0 : 0 < m := by obtain ⟨j, rfl⟩ := hm; positivity
  have : NeZero m := ⟨hmp0.ne'⟩
  obtain ⟨p0, hp0⟩ := List.exists_mem_of_ne_nil pairs hne
  have h0 : 0 < num := lt_of_le_of_lt (Nat.zero_le _) (hin p0 hp0).1.1
  obtain ⟨g1, g2, g3⟩ := C37_populate m pairs
  have hmpne : mp ≠ [] := by
    rintro rfl
    obtain ⟨q, hq⟩ := g3 p0.1 p0.2 hp0
    exact absurd (hmp.mem_iff.2 hq) (by simp)
  obtain ⟨es, hes, W, hW, hval⟩ := network_ok (ok := powerKeys m) hm h0 hN
    (by
      intro i hi
      unfold powerKeys
      rw [List.any_eq_true]
      refine ⟨i, List.mem_range.2 (Nat.lt_two_pow_self.trans hi), ?_⟩
      simp [hi])
    hmpne
    (by
      intro e he
      have := g2 e.1 e.2 (hmp.mem_iff.1 he)
      exact ⟨(hin _ this.1).2, (hin _ this.1).1⟩)
    ((hmp.map _).nodup_iff.2 g1) (orderOk_of_allPowers (Nat.mul_pos h0 hmp0) hN ho) hpop hl
  have hlen : es.length = num := (hW (fun _ => none)).1
  refine ⟨es, hes, hlen, fun c e hce => ?_⟩
  have hc : c < num := by
    rw [← hlen]
    exact (List.getElem?_eq_some_iff.1 hce).1
  refine ⟨W c, fun env => ?_, fun s hs => ⟨fun hno => ?_, ?_⟩⟩
  · obtain ⟨e', he', hev⟩ := (hW env).2 c hc
    rw [hce] at he'
    obtain rfl := Option.some.inj he'
    exact hev
  · refine (hval c hc s hs).2 fun q hq => ?_
    exact hno q (g2 _ _ (hmp.mem_iff.1 hq)).1
  · rintro ⟨q, hq⟩
    obtain ⟨q', hq'⟩ := g3 q _ hq
    have hcl := g2 _ _ hq'
    have hr := (hin _ hcl.1).1
    refine ⟨q', cts.getD q'.ct 0, hcl, ?_, (hval c hc s hs).1 q' (hmp.mem_iff.2 hq')⟩
    rw [List.getD_eq_getElem _ _ (by rw [hl]; exact hr.1), List.getElem?_eq_getElem]

omit [DecidableEq R] in
/-- Nothing requested: the assertion that there is a group fails. -/
theorem C37_empty (hm : ∃ j, m = 2 ^ j) (cts : List (Slots R m)) (h0 : 0 < cts.length)
    (hN : cts.length * m ≤ 2 ^ 31)
    (pop : List (UGraph.Info CtSlot) → Option (UGraph.Info CtSlot × List (UGraph.Info CtSlot))) :
    lowerRemap pop [] [] cts = none := by
  obtain ⟨L, _, _, _, hev⟩ := evaluate_ok hm h0 hN (mp := []) (by simp) (Or.inl rfl)
  have hg : conflictGraph [] (initial m cts.length [] ::
      roundList m cts.length (sourceShifts m cts.length []) ∅ L) = UGraph.empty := by
    have : ∀ (L : List Nat) (S : Finset Nat),
        (roundList m cts.length [] S L).foldl addConflicts UGraph.empty = UGraph.empty := by
      intro L
      induction L with
      | nil => intro S; rfl
      | cons i L ih => intro S; exact ih _
    exact this L ∅
  unfold lowerRemap findShiftScheme
  rw [hev]
  simp only [Option.bind_eq_bind, Option.bind_some, hg]
  cases hcol : (UGraph.empty : UGraph CtSlot).color pop with
  | none => rfl
  | some col => rfl

/-- The hypotheses of `C37_network` on two ciphertexts of four slots: one source for two targets in
different ciphertexts, two sources for one target, a shift order that is not the default. -/
example (cts : List (Slots Int 4)) (hl : cts.length = 2) :
    ∃ es, lowerRemap UGraph.popMax
        (populate 4 [(⟨0, 1⟩, ⟨1, 3⟩), (⟨0, 1⟩, ⟨0, 0⟩), (⟨1, 2⟩, ⟨0, 3⟩), (⟨0, 2⟩, ⟨0, 3⟩)]) [4, 1, 2] cts =
        some es ∧ es.length = 2 ∧
      ∀ c e, es[c]? = some e → ∃ w, Computes (powerKeys 4) e w ∧
        Realizes [(⟨0, 1⟩, ⟨1, 3⟩), (⟨0, 1⟩, ⟨0, 0⟩), (⟨1, 2⟩, ⟨0, 3⟩), (⟨0, 2⟩, ⟨0, 3⟩)] cts c w := by
  refine C37_network ⟨2, rfl⟩ (by decide) _ (by simp) (by unfold InRange; decide) _
    (List.Perm.refl _) _ (Or.inr ⟨by decide, fun a => ?_⟩) _ C40_priorityQueue cts hl
  constructor
  · intro h
    fin_cases h
    · exact ⟨by decide, 2, rfl⟩
    · exact ⟨by decide, 0, rfl⟩
    · exact ⟨by decide, 1, rfl⟩
  · rintro ⟨hlt, i, rfl⟩
    have : i < 3 := (Nat.pow_lt_pow_iff_right (by omega : 1 < 2)).1 (by omega : 2 ^ i < 2 ^ 3)
    interval_cases i <;> decide

/-! ## The best shift order -/

/-- The number of rotation groups for an order. -/
def numGroups (m num : Nat) (mp : Mapping) (order : List Nat) : Option Nat :=
  (findShiftScheme UGraph.popMax m num mp order).map fun q => q.1.length

/-- `findBestShiftScheme` compares the numbers of rounds, which are the same for all orders, and so
takes the first one: here it needs two groups where the other order needs one. -/
theorem C51_best_violated :
    bestOrder 4 1 [(⟨0, 2⟩, ⟨0, 0⟩), (⟨0, 0⟩, ⟨0, 1⟩)] [[1, 2], [2, 1]] = some [1, 2] ∧
    numGroups 4 1 [(⟨0, 2⟩, ⟨0, 0⟩), (⟨0, 0⟩, ⟨0, 1⟩)] [1, 2] = some 2 ∧
    numGroups 4 1 [(⟨0, 2⟩, ⟨0, 0⟩), (⟨0, 0⟩, ⟨0, 1⟩)] [2, 1] = some 1 := by
  refine ⟨by decide, by decide, by decide⟩

theorem roundsFrom_length (m num : Nat) (keys : List SourceShift) : ∀ (order : List Nat) (r : Round)
    (rs : List Round), roundsFrom m num keys r order = some rs → rs.length = order.length := by
  intro order
  induction order with
  | nil =>
    intro r rs h
    obtain rfl : [] = rs := Option.some.inj h
    rfl
  | cons a order ih =>
    intro r rs h
    rw [roundsFrom] at h
    simp only [Option.bind_eq_bind] at h
    obtain ⟨r', _, h⟩ := Option.bind_eq_some_iff.1 h
    obtain ⟨rs', h', h⟩ := Option.bind_eq_some_iff.1 h
    obtain rfl := Option.some.inj h
    rw [List.length_cons, List.length_cons, ih r' rs' h']

theorem evaluate_length {m num : Nat} {mp : Mapping} {order : List Nat} {rounds : List Round}
    (hne : order ≠ []) (h : evaluate m num mp order = some rounds) :
    rounds.length = order.length + 1 := by
  unfold evaluate chosenOrder at h
  rw [if_neg (by simpa using hne)] at h
  simp only [Option.bind_eq_bind] at h
  obtain ⟨_, _, h⟩ := Option.bind_eq_some_iff.1 h
  obtain ⟨o, ho, h⟩ := Option.bind_eq_some_iff.1 h
  obtain rfl := Option.some.inj ho
  obtain ⟨rs, hrs, rfl⟩ := Option.map_eq_some_iff.1 h
  rw [List.length_cons, roundsFrom_length _ _ _ _ _ _ hrs]

/-- What is true of `findBestShiftScheme`: it is defined and takes the first of the shuffled orders.
Missing: that no other order does better. -/
theorem C51_best_partial (hm : ∃ j, m = 2 ^ j) (h1 : 1 < num * m) (hN : num * m ≤ 2 ^ 31) (mp : Mapping)
    (hin : ∀ e ∈ mp, InRange m num e.1 ∧ InRange m num e.2) (first : List Nat)
    (rest : List (List Nat)) (ho : ∀ o ∈ first :: rest, AllPowers (num * m) o) :
    bestOrder m num mp (first :: rest) = some first := by
  have h0 : 0 < num := by rcases Nat.eq_zero_or_pos num with rfl | h; · simp at h1
                          · exact h
  obtain ⟨k, _, hk, hd⟩ := defaultShiftOrder_ok (by omega : 0 < num * m) hN
  have hev : ∀ o ∈ first :: rest, ∃ rounds, evaluate m num mp o = some rounds ∧
      rounds.length = k + 1 := by
    intro o hoo
    have hok := orderOk_of_allPowers (by omega) hN (Or.inr (ho o hoo))
    obtain ⟨L, _, _, _, he⟩ := evaluate_ok hm h0 hN hin hok
    have hone : 1 ∈ o := ((ho o hoo).2 1).2 ⟨h1, 0, rfl⟩
    have hne : o ≠ [] := List.ne_nil_of_mem hone
    refine ⟨_, he, ?_⟩
    rw [evaluate_length hne he]
    obtain ⟨d, hd', hp⟩ := hok.resolve_left hne
    rw [hd] at hd'
    obtain rfl := Option.some.inj hd'
    rw [hp.length_eq]
    simp
  have hk63 : k + 1 < 2 ^ 64 - 1 := by
    have : k < 2 ^ k := Nat.lt_two_pow_self
    omega
  have key : ∀ (l : List (List Nat)), (∀ o ∈ l, o ∈ first :: rest) →
      (l.foldlM (fun (best : Nat × List Nat) order => do
        let rounds ← evaluate m num mp order
        some (if rounds.length < best.1 then (rounds.length, order) else best)) (k + 1, first)) =
      some (k + 1, first) := by
    intro l
    induction l with
    | nil => intro _; rfl
    | cons o l ih =>
      intro h
      obtain ⟨rounds, hr, hlen⟩ := hev o (h o (by simp))
      rw [List.foldlM_cons, hr]
      simp only [Option.bind_eq_bind, Option.bind_some, hlen, lt_irrefl, if_false]
      exact ih fun o' ho' => h o' (by simp [ho'])
  obtain ⟨rounds, hr, hlen⟩ := hev first (by simp)
  unfold bestOrder
  rw [List.foldlM_cons, hr]
  simp only [Option.bind_eq_bind, Option.bind_some, hlen, hk63, if_true]
  have := key rest (fun o ho => by simp [ho])
  simp only [Option.bind_eq_bind] at this
  rw [this]
  rfl

end Heir.Shift
