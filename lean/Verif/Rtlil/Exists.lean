import Verif.Rtlil.Lemmas

/-! # A netlist without cycles has values for all inputs -/

namespace Heir.Rtlil

variable {m : Netlist}

def setBit (v : Values) (b : Bit) (x : Bool) : Values := fun w o =>
  if Bit.wire w o = b then x else v w o

theorem setBit_other {v : Values} {b c : Bit} {x : Bool} (h : c ≠ b) :
    c.value (setBit v b x) = c.value v := by
  cases c with
  | const c => rfl
  | wire w o => simp only [Bit.value, setBit]; rw [if_neg h]

theorem setBit_self {v : Values} {w : Wire} {o : Nat} {x : Bool} :
    (Bit.wire w o).value (setBit v (.wire w o) x) = x := by
  simp [Bit.value, setBit]

def setBits (v : Values) : List Bit → List Bool → Values
  | b :: bs, x :: xs => setBits (setBit v b x) bs xs
  | _, _ => v

theorem setBits_other {c : Bit} : ∀ {bs : List Bit} {xs : List Bool} {v : Values}, c ∉ bs →
    c.value (setBits v bs xs) = c.value v
  | [], _, _, _ => by simp [setBits]
  | b :: bs, [], _, _ => by simp [setBits]
  | b :: bs, x :: xs, v, h => by
    simp only [List.mem_cons, not_or] at h
    rw [setBits, setBits_other h.2, setBit_other h.1]

theorem setBits_self : ∀ {bs : List Bit} {xs : List Bool} {v : Values}, bs.length = xs.length →
    bs.Nodup → (∀ b ∈ bs, b.Drivable m) → bs.map (Bit.value (setBits v bs xs)) = xs
  | [], [], _, _, _, _ => rfl
  | [], _ :: _, _, h, _, _ => by simp at h
  | _ :: _, [], _, h, _, _ => by simp at h
  | b :: bs, x :: xs, v, h, hn, hd => by
    obtain ⟨h1, h2⟩ := List.nodup_cons.1 hn
    rw [setBits, List.map_cons, setBits_other h1, setBits_self (by simpa using h) h2
      fun c hc => hd c (by simp [hc])]
    congr 1
    cases b with
    | const b => exact absurd (hd (.const b) (by simp)) fun h => h
    | wire w o => exact setBit_self

/-- One cell agrees with the values. -/
def CellOk (v : Values) (c : Cell) : Prop :=
  ∃ (bs : List Bit) (o : Bit), c.ins = bs.map ([·]) ∧ c.out = [o] ∧
    c.kind.out (bs.map (Bit.value v)) = some (o.value v)

theorem lsbIndex_lt : ∀ l : List Bool, Lut.lsbIndex l < 2 ^ l.length
  | [] => by simp [Lut.lsbIndex]
  | b :: l => by
    have := lsbIndex_lt l
    cases b <;> simp only [Lut.lsbIndex, Bool.toNat_false, Bool.toNat_true, List.length_cons,
      pow_succ] <;> omega

theorem out_some {c : Cell} (hs : c.Shape) {xs : List Bool} (hl : xs.length = c.ins.length) :
    ∃ y, c.kind.out xs = some y := by
  obtain ⟨k, ins, out⟩ := c
  simp only [Cell.Shape] at hs hl ⊢
  cases k with
  | lut k ports =>
    obtain ⟨-, h2, h3⟩ := hs
    have : Lut.lsbIndex xs < ports.length := by
      rw [h2, ← h3, ← hl]; exact lsbIndex_lt xs
    exact ⟨_, List.getElem?_eq_getElem this⟩
  | gate g =>
    rcases hs with ⟨rfl, h⟩ | ⟨hg, h⟩
    · obtain ⟨a, rfl⟩ := List.length_eq_one_iff.1 (hl.trans h)
      exact ⟨_, rfl⟩
    · obtain ⟨a, b, rfl⟩ := List.length_eq_two.1 (hl.trans h)
      simp only [List.mem_cons, List.not_mem_nil, or_false] at hg
      rcases hg with rfl | rfl | rfl | rfl | rfl | rfl <;> exact ⟨_, rfl⟩

theorem ins_bits {before : List Cell} : ∀ {ss : List Sig},
    (∀ s ∈ ss, ∃ b : Bit, s = [b] ∧ b.Ready m before) →
    ∃ bs : List Bit, ss = bs.map ([·]) ∧ ∀ b ∈ bs, b.Ready m before
  | [], _ => ⟨[], rfl, by simp⟩
  | s :: ss, h => by
    obtain ⟨b, rfl, hb⟩ := h s (by simp)
    obtain ⟨bs, rfl, hbs⟩ := ins_bits (ss := ss) fun s hs => h s (by simp [hs])
    exact ⟨b :: bs, rfl, by simpa using ⟨hb, hbs⟩⟩

theorem cells_exist : ∀ {cs before : List Cell} {v : Values}, Ordered m before cs →
    (cs.flatMap (·.out)).Nodup →
    (∀ c ∈ before, ∀ b ∈ c.out, b ∉ cs.flatMap (·.out)) →
    (∀ w o, Bit.wire w o ∈ cs.flatMap (·.out) → ¬ w.isInput) →
    ∃ v', (∀ b, b ∉ cs.flatMap (·.out) → b.value v' = b.value v) ∧ ∀ c ∈ cs, CellOk v' c
  | [], _, v, _, _, _, _ => ⟨v, fun _ _ => rfl, by simp⟩
  | c :: cs, before, v, ho, hn, hb, hi => by
    obtain ⟨hs, hins, ⟨b, hout, hdr⟩, hrest⟩ := ho
    obtain ⟨bs, hbs, hready⟩ := ins_bits hins
    obtain ⟨y, hy⟩ := out_some hs (xs := bs.map (Bit.value v)) (by simp [hbs])
    rw [List.flatMap_cons, hout, List.singleton_append] at hn hb hi
    obtain ⟨hn1, hn2⟩ := List.nodup_cons.1 hn
    obtain ⟨v', h1, h2⟩ := cells_exist (v := setBit v b y) hrest hn2
      (by
        intro c' hc' d hd
        rcases List.mem_cons.1 hc' with rfl | hc'
        · rw [hout, List.mem_singleton] at hd
          rw [hd]; exact hn1
        · exact fun hm => hb c' hc' d hd (by simp [hm]))
      (fun w o hm => hi w o (by simp [hm]))
    refine ⟨v', ?_, ?_⟩
    · intro d hd
      rw [List.flatMap_cons, hout, List.singleton_append, List.mem_cons, not_or] at hd
      rw [h1 d hd.2, setBit_other hd.1]
    · intro c' hc'
      rcases List.mem_cons.1 hc' with rfl | hc'
      · refine ⟨bs, b, hbs, hout, ?_⟩
        have hsame : bs.map (Bit.value v') = bs.map (Bit.value v) := by
          refine List.map_congr_left fun d hd => ?_
          have hne : d ∉ b :: cs.flatMap (·.out) := by
            have := hready d hd
            cases d with
            | const d =>
              intro hm
              rcases List.mem_cons.1 hm with rfl | hm
              · exact hdr
              · exact const_not_out hrest hm
            | wire w o =>
              rcases this.2.2 with hw | ⟨c'', hc'', he⟩
              · exact fun hm => hi w o hm hw
              · exact hb c'' hc'' _ (by rw [he]; simp)
          simp only [List.mem_cons, not_or] at hne
          rw [h1 d hne.2, setBit_other hne.1]
        rw [hsame, hy, h1 b hn1]
        cases b with
        | const b => exact absurd hdr fun h => h
        | wire w o => rw [setBit_self]
      · exact h2 c' hc'
where
  const_not_out : ∀ {cs before : List Cell} {d : Bool}, Ordered m before cs →
      Bit.const d ∉ cs.flatMap (·.out)
    | [], _, _, _ => by simp
    | c :: cs, before, d, ho => by
      obtain ⟨-, -, ⟨b, hout, hdr⟩, hrest⟩ := ho
      rw [List.flatMap_cons, hout, List.singleton_append, List.mem_cons, not_or]
      refine ⟨?_, const_not_out hrest⟩
      rintro rfl
      exact hdr

theorem conns_exist : ∀ {ps : List (Sig × Sig)} {v : Values},
    (∀ p ∈ ps, p.1.length = p.2.length ∧ (∀ b ∈ p.1, b.Drivable m)) →
    (ps.flatMap (·.1)).Nodup → (∀ p ∈ ps, ∀ b ∈ p.2, ∀ q ∈ ps, b ∉ q.1) →
    ∃ v', (∀ b, b ∉ ps.flatMap (·.1) → b.value v' = b.value v) ∧
      ∀ p ∈ ps, p.1.map (Bit.value v') = p.2.map (Bit.value v')
  | [], v, _, _, _ => ⟨v, fun _ _ => rfl, by simp⟩
  | (l, r) :: ps, v, hc, hn, hr => by
    obtain ⟨hlen, hdr⟩ := hc (l, r) (by simp)
    simp only at hlen hdr
    rw [List.flatMap_cons, List.nodup_append'] at hn
    obtain ⟨hn1, hn2, hn3⟩ := hn
    obtain ⟨v', h1, h2⟩ := conns_exist (ps := ps) (v := setBits v l (r.map (Bit.value v)))
      (fun p hp => hc p (by simp [hp])) hn2
      (fun p hp b hb q hq => hr p (by simp [hp]) b hb q (by simp [hq]))
    refine ⟨v', ?_, ?_⟩
    · intro b hb
      rw [List.flatMap_cons, List.mem_append, not_or] at hb
      rw [h1 b hb.2, setBits_other hb.1]
    · intro p hp
      rcases List.mem_cons.1 hp with rfl | hp
      · have e1 : l.map (Bit.value v') = l.map (Bit.value (setBits v l (r.map (Bit.value v)))) :=
          List.map_congr_left fun b hb => h1 b fun hm => hn3 hb hm
        have e2 : r.map (Bit.value v') = r.map (Bit.value v) := by
          refine List.map_congr_left fun b hb => ?_
          have hno := hr (l, r) (by simp) b hb
          rw [h1 b, setBits_other (hno (l, r) (by simp))]
          intro hm
          obtain ⟨q, hq, hbq⟩ := List.mem_flatMap.1 hm
          exact hno q (by simp [hq]) hbq
        simp only
        rw [e1, e2]
        exact setBits_self (m := m) (by simpa using hlen) hn1 hdr
      · exact h2 p hp

/-- Values of the inputs. -/
def inputValues (ins : List Wire) (args : List (List Bool)) : Values := fun w o =>
  ((args[ins.idxOf w]?).bind fun x => x[o]?).getD false

theorem inputValues_bits {ins : List Wire} (hn : ins.Nodup) {args : List (List Bool)}
    (hl : args.map List.length = ins.map Wire.width) :
    ins.map (Wire.bits (inputValues ins args)) = args := by
  have hlen : args.length = ins.length := by simpa using congrArg List.length hl
  refine List.ext_getElem (by simp [hlen]) fun i h1 h2 => ?_
  have hi : i < ins.length := by simpa using h1
  have hw : (args[i]).length = (ins[i]).width := by
    have := congrArg (fun l : List Nat => l[i]?) hl
    simpa [List.getElem?_map, List.getElem?_eq_getElem h2, List.getElem?_eq_getElem hi] using this
  rw [List.getElem_map]
  refine List.ext_getElem (by simp [Wire.bits, hw]) fun j h3 h4 => ?_
  simp only [Wire.bits, List.getElem_map, List.getElem_range, inputValues]
  rw [List.Nodup.idxOf_getElem hn i hi, List.getElem?_eq_getElem h2]
  simp [List.getElem?_eq_getElem h4]

theorem valid_exists {ins outs : List Wire} (hs : m.Served ins outs) (hd : m.OneDriver)
    {args : List (List Bool)} (hl : args.map List.length = ins.map Wire.width) :
    ∃ v, Valid m v ∧ ins.map (Wire.bits v) = args := by
  have hins : ins.Nodup := by
    rw [List.nodup_iff_injective_getElem]
    rintro ⟨i, hi'⟩ ⟨j, hj'⟩ h
    simp only at h
    have h1 := ((hs.ports.inputs i ins[i]).1 (List.getElem?_eq_getElem hi')).2
    have h2 := ((hs.ports.inputs j ins[i]).1 (by rw [h]; exact List.getElem?_eq_getElem hj')).2
    rw [h1] at h2
    simpa using h2
  have honce := hd.once
  unfold Netlist.assigned at honce
  rw [List.nodup_append'] at honce
  obtain ⟨n1, n2, n3⟩ := honce
  obtain ⟨v1, a1, a2⟩ := cells_exist (v := inputValues ins args) hs.cells n1 (by simp)
    (fun w o hm => hd.inputs w o (by unfold Netlist.assigned; simp only [List.mem_append]; exact .inl hm))
  have hready : ∀ b : Bit, b.Ready m m.cells → b ∉ m.conns.flatMap (·.1) := by
    intro b hb hm
    cases b with
    | const b =>
      obtain ⟨p, hp, hbp⟩ := List.mem_flatMap.1 hm
      exact (hs.conns p hp).2.2.1 _ hbp
    | wire w o =>
      rcases hb.2.2 with hw | ⟨c, hc, he⟩
      · exact hd.inputs w o (by unfold Netlist.assigned; simp only [List.mem_append]; exact .inr hm) hw
      · exact n3 (List.mem_flatMap.2 ⟨c, hc, by rw [he]; simp⟩) hm
  obtain ⟨v2, b1, b2⟩ := conns_exist (m := m) (v := v1)
    (fun p hp => ⟨(hs.conns p hp).2.1, (hs.conns p hp).2.2.1⟩) n2
    (fun p hp b hb q hq hm => hready b ((hs.conns p hp).2.2.2.1 b hb)
      (List.mem_flatMap.2 ⟨q, hq, hm⟩))
  refine ⟨v2, ⟨?_, b2⟩, ?_⟩
  · intro c hc
    obtain ⟨bs, o, e1, e2, e3⟩ := a2 c hc
    refine ⟨bs, o, e1, e2, ?_⟩
    have ho : o ∉ m.conns.flatMap (·.1) := fun hm =>
      n3 (List.mem_flatMap.2 ⟨c, hc, by rw [e2]; simp⟩) hm
    have hbs : bs.map (Bit.value v2) = bs.map (Bit.value v1) := by
      refine List.map_congr_left fun b hb => b1 b (hready b ?_)
      exact ordered_ready hs.cells (by simp) hc (by rw [e1]; exact List.mem_map_of_mem hb)
    rw [hbs, b1 o ho, e3]
  · rw [← inputValues_bits hins hl]
    refine List.map_congr_left fun w hw => ?_
    have hwi := ((hs.ports.input_mem w).1 hw).2
    unfold Wire.bits
    refine List.map_congr_left fun o _ => ?_
    have hno : Bit.wire w o ∉ m.assigned := fun hm => hd.inputs w o hm hwi
    unfold Netlist.assigned at hno
    simp only [List.mem_append, not_or] at hno
    exact (b1 (.wire w o) hno.2).trans (a1 (.wire w o) hno.1)
where
  ordered_ready : ∀ {cs before : List Cell} {c : Cell} {b : Bit}, Ordered m before cs →
      (∀ d ∈ before ++ cs, d ∈ m.cells) → c ∈ cs → [b] ∈ c.ins → b.Ready m m.cells
    | [], _, _, _, _, _, hc, _ => by simp at hc
    | d :: cs, before, c, b, ho, hm, hc, hb => by
      obtain ⟨-, hins, -, hrest⟩ := ho
      rcases List.mem_cons.1 hc with rfl | hc
      · obtain ⟨b', he, hr⟩ := hins [b] hb
        simp only [List.cons.injEq, and_true] at he
        subst he
        cases b with
        | const b => trivial
        | wire w o =>
          refine ⟨hr.1, hr.2.1, hr.2.2.imp_right ?_⟩
          rintro ⟨c', hc', he⟩
          exact ⟨c', hm c' (by simp [hc']), he⟩
      · refine ordered_ready hrest ?_ hc hb
        intro e he
        refine hm e ?_
        simp only [List.mem_append, List.mem_cons] at he ⊢
        tauto

end Heir.Rtlil
