import Mathlib.Tactic.Linarith
import Mathlib.Tactic.Push
import Mathlib.Tactic.NormNum
import Verif.Mgmt.Secret
import Verif.Place.Emit

/-! # What a solution says in integers -/

namespace Heir.Place
open Heir.Mgmt

/-- The ciphertexts of a solution: of a value, before the management of a result, and of an operand after its
management. -/
def ctOf (s : Var → ℚ) (v : Nat) : Ct := ⟨rounded (s (.level v)), rounded (s (.scale v))⟩
def inCt (s : Var → ℚ) (op : Op) : Ct := ⟨rounded (s (.inLevel op.res)), rounded (s (.inScale op.res))⟩
def edgeCt (o : Opts) (s : Var → ℚ) (op : Op) (i : Nat) : Ct :=
  ⟨rounded (s (.inLevel op.res)), rounded (s (edgeVar o op i))⟩

theorem IntIn.spec {x : ℚ} {lo hi : Int} (h : IntIn x lo hi) : x = (rounded x : ℚ) ∧ lo ≤ rounded x ∧ rounded x ≤ hi := by
  obtain ⟨n, rfl, h1, h2⟩ := h
  rw [rounded_int]
  exact ⟨rfl, h1, h2⟩

theorem isConst_holds {x : Var} {b : Int} {s : Var → ℚ} (h : (isConst x b).Holds s) : s x = b := by
  simpa [isConst, Con.Holds, Con.lhs] using h

theorem isConst_rounded {x : Var} {b : Int} {s : Var → ℚ} (h : (isConst x b).Holds s) : rounded (s x) = b := by
  rw [isConst_holds h, rounded_int]

section
variable {o : Opts} {c : Ctx} {p : Prog} {s : Var → ℚ}

theorem Feasible.argCons (h : Feasible o c p s) {v : Nat} (hv : v ∈ secretArgs c p) :
    ∀ k ∈ argCons o c v, k.Holds s := fun k hk => h.cons k (by
  simp only [constraints, List.mem_append, List.mem_flatMap]
  exact Or.inl (Or.inl (Or.inl (Or.inl (Or.inl ⟨v, hv, hk⟩)))))

theorem Feasible.flatCons (h : Feasible o c p s) {op : Op} (hv : op ∈ tracked c p) :
    ∀ k ∈ flatCons o op, k.Holds s := fun k hk => h.cons k (by
  simp only [constraints, List.mem_append, List.mem_flatMap]
  exact Or.inl (Or.inl (Or.inl (Or.inl (Or.inr ⟨op, hv, hk⟩)))))

theorem Feasible.edgeCons (h : Feasible o c p s) {op : Op} (hv : op ∈ tracked c p) {x : Nat × Nat}
    (hx : x ∈ positions op) (hs : c.sec x.2 = true) : ∀ k ∈ edgeCons o op x.1 x.2, k.Holds s := fun k hk => h.cons k (by
  simp only [constraints, List.mem_append, List.mem_flatMap]
  refine Or.inl (Or.inl (Or.inl (Or.inr ⟨op, hv, ?_⟩)))
  simp only [edgesCons, List.mem_flatMap, List.mem_filter]
  exact ⟨x, ⟨hx, hs⟩, hk⟩)

theorem Feasible.mulCons (h : Feasible o c p s) {op : Op} (hv : op ∈ tracked c p) :
    ∀ k ∈ mulCons o c op, k.Holds s := fun k hk => h.cons k (by
  simp only [constraints, List.mem_append, List.mem_flatMap]
  exact Or.inl (Or.inl (Or.inr ⟨op, hv, hk⟩)))

theorem Feasible.yieldCons (h : Feasible o c p s) {x : Nat × Nat} (hv : x ∈ secretYields c p) :
    ∀ k ∈ yieldCons o c x.1 x.2, k.Holds s := fun k hk => h.cons k (by
  simp only [constraints, List.mem_append, List.mem_flatMap]
  exact Or.inl (Or.inr ⟨x, hv, hk⟩))

theorem Feasible.nodeCons (h : Feasible o c p s) {op : Op} (hv : op ∈ tracked c p) :
    ∀ k ∈ nodeCons o op, k.Holds s := fun k hk => h.cons k (by
  simp only [constraints, List.mem_append, List.mem_flatMap]
  exact Or.inr ⟨op, hv, hk⟩)

theorem mem_tracked {op : Op} : op ∈ tracked c p ↔ op ∈ p.ops ∧ c.sec op.res = true := by simp [tracked]

theorem mem_positions {op : Op} {i a : Nat} : (i, a) ∈ positions op ↔ op.args[i]? = some a := by
  simp only [positions, List.mem_map, Prod.exists, Prod.mk.injEq]
  constructor
  · rintro ⟨b, j, h, rfl, rfl⟩
    exact List.mem_zipIdx_iff_getElem?.1 h
  · intro h
    exact ⟨a, i, List.mem_zipIdx_iff_getElem?.2 h, rfl, rfl⟩

/-! ## Arguments -/

theorem Feasible.ct_arg (h : Feasible o c p s) {v : Nat} (hv : v ∈ secretArgs c p) :
    ctOf s v = ⟨initLevel o c v, initScale o c v⟩ := by
  have h1 := h.argCons hv (isConst (.level v) (initLevel o c v)) (by simp [Place.argCons])
  have h2 := h.argCons hv (isConst (.scale v) (initScale o c v)) (by simp [Place.argCons])
  rw [ctOf, isConst_rounded h1, isConst_rounded h2]

theorem Feasible.arg_valid (h : Feasible o c p s) (hsw : 0 < o.sw) {v : Nat} (hv : v ∈ secretArgs c p) :
    (ctOf s v).Valid o := by
  obtain ⟨h1, h2, h3⟩ := h.box.arg v hv
  obtain ⟨_, h4, h5⟩ := h3.spec
  refine ⟨le_rounded (by push_cast; exact h1), rounded_le h2, ?_, h5⟩
  simp only [ctOf]
  omega

theorem initScale_flat (hk : o.ckks = false) (v : Nat) : initScale o c v = o.sw := by
  unfold initScale
  split
  · simp [hk]
  · rfl

/-! ## Results -/

theorem Feasible.res_valid (h : Feasible o c p s) (hsw : 0 < o.sw) {op : Op} (hop : op ∈ tracked c p) :
    (ctOf s op.res).Valid o := by
  obtain ⟨h1, h2⟩ := h.box.level op hop
  obtain ⟨_, h4, h5⟩ := (h.box.scale op hop).spec
  refine ⟨le_rounded (by push_cast; exact h1), rounded_le h2, ?_, h5⟩
  simp only [ctOf]
  omega

theorem Feasible.in_valid (h : Feasible o c p s) (hsw : 0 < o.sw) {op : Op} (hop : op ∈ tracked c p) :
    (inCt s op).Valid o := by
  obtain ⟨_, h2, h3⟩ := (h.box.inLevel op hop).spec
  obtain ⟨_, h4, h5⟩ := (h.box.inScale op hop).spec
  refine ⟨h2, h3, ?_, h5⟩
  simp only [inCt]
  omega

theorem Feasible.edge_valid (h : Feasible o c p s) (hsw : 0 < o.sw) {op : Op} (hop : op ∈ tracked c p) {i a : Nat}
    (hi : op.args[i]? = some a) (ha : c.sec a = true) : (edgeCt o s op i).Valid o := by
  obtain ⟨_, h2, h3⟩ := (h.box.inLevel op hop).spec
  obtain ⟨_, h4, h5⟩ := (h.box.edgeScale op hop (i, a) (mem_positions.2 hi) ha).spec
  exact ⟨h2, h3, Int.lt_of_lt_of_le hsw h4, h5⟩

theorem Feasible.flat (h : Feasible o c p s) (hk : o.ckks = false) {op : Op} (hop : op ∈ tracked c p) :
    rounded (s (.inScale op.res)) = o.sw ∧ rounded (s (.scale op.res)) = o.sw := by
  have h1 := h.flatCons hop (isConst (.inScale op.res) o.sw) (by simp [Place.flatCons, hk])
  have h2 := h.flatCons hop (isConst (.scale op.res) o.sw) (by simp [Place.flatCons, hk])
  exact ⟨isConst_rounded h1, isConst_rounded h2⟩

/-- The levels and scales along an operand. -/
theorem Feasible.edge (h : Feasible o c p s) {op : Op} (hop : op ∈ tracked c p) {i a : Nat}
    (hi : op.args[i]? = some a) (ha : c.sec a = true) :
    0 ≤ rounded (s (.edgeRescale op.res i)) ∧
    rounded (s (.inLevel op.res)) + rounded (s (.edgeRescale op.res i)) ≤ rounded (s (.level a)) ∧
    (∀ n : Int, s (.scale a) = n →
      n - rounded (s (edgeVar o op i)) ≤ rounded (s (.edgeRescale op.res i)) * o.sf) := by
  have hx := mem_positions.2 hi
  obtain ⟨r1, r2, _⟩ := (h.box.edgeRescale op hop (i, a) hx ha).spec
  obtain ⟨l1, _, _⟩ := (h.box.inLevel op hop).spec
  obtain ⟨e1, _, _⟩ := (h.box.edgeScale op hop (i, a) hx ha).spec
  have c1 := h.edgeCons hop hx ha
    ⟨[(1, .inLevel op.res), (-1, .level a), (1, .edgeRescale op.res i)], false, 0⟩ (by simp [Place.edgeCons])
  have c2 := h.edgeCons hop hx ha
    ⟨[(1, .scale a), (-o.sf, .edgeRescale op.res i), (-1, edgeVar o op i)], false, 0⟩ (by simp [Place.edgeCons])
  simp only [Con.Holds, Con.lhs, Bool.false_eq_true, if_false, List.map_cons, List.map_nil, List.sum_cons, List.sum_nil,
    Int.cast_one, Int.cast_neg, Int.cast_zero] at c1 c2
  refine ⟨r2, ?_, ?_⟩
  · apply le_rounded
    push_cast
    rw [← r1, ← l1]
    linarith
  · intro n hn
    have : ((n - rounded (s (edgeVar o op i)) : Int) : ℚ) ≤ ((rounded (s (.edgeRescale op.res i)) * o.sf : Int) : ℚ) := by
      push_cast
      rw [← r1, ← e1, ← hn]
      linarith
    exact_mod_cast this

/-- The five inequalities of an operation. -/
theorem Feasible.node (h : Feasible o c p s) {op : Op} (hop : op ∈ tracked c p) :
    (boots s op.res = false →
      rounded (s (.level op.res)) + rounded (s (.rescale op.res)) + intrinsic o op ≤ rounded (s (.inLevel op.res)) ∧
      rounded (s (.inScale op.res)) - rounded (s (.scale op.res)) ≤ rounded (s (.rescale op.res)) * o.sf) ∧
    (boots s op.res = true →
      rounded (s (.inScale op.res)) ≤ o.sf * (rounded (s (.inLevel op.res)) - o.lower + 1) ∧
      o.sf ≤ rounded (s (.scale op.res)) ∧ o.lower + 1 ≤ rounded (s (.level op.res))) ∧
    0 ≤ rounded (s (.rescale op.res)) := by
  obtain ⟨r1, r2, _⟩ := (h.box.rescale op hop).spec
  obtain ⟨l1, _, _⟩ := (h.box.inLevel op hop).spec
  obtain ⟨i1, _, _⟩ := (h.box.inScale op hop).spec
  obtain ⟨s1, _, _⟩ := (h.box.scale op hop).spec
  obtain ⟨b, hb, hb0, hb1⟩ := h.box.boot op hop
  have c1 := h.nodeCons hop ⟨[(1, .level op.res), (-1, .inLevel op.res), (1, .rescale op.res), (-o.bigM, .boot op.res)],
    false, -intrinsic o op⟩ (by simp [Place.nodeCons])
  have c2 := h.nodeCons hop ⟨[(1, .inScale op.res), (-o.sf, .rescale op.res), (-o.scaleBigM, .boot op.res),
    (-1, .scale op.res)], false, 0⟩ (by simp [Place.nodeCons])
  have c3 := h.nodeCons hop ⟨[(1, .inScale op.res), (-o.sf, .inLevel op.res), (o.scaleBigM, .boot op.res)], false,
    o.sf * (1 - o.lower) + o.scaleBigM⟩ (by simp [Place.nodeCons])
  have c4 := h.nodeCons hop ⟨[(-1, .level op.res), (o.bigM, .boot op.res)], false, o.bigM - (o.lower + 1)⟩
    (by simp [Place.nodeCons])
  have c5 := h.nodeCons hop ⟨[(-1, .scale op.res), (o.scaleBigM, .boot op.res)], false, o.scaleBigM - o.sf⟩
    (by simp [Place.nodeCons])
  simp only [Con.Holds, Con.lhs, Bool.false_eq_true, if_false, List.map_cons, List.map_nil, List.sum_cons, List.sum_nil,
    Int.cast_one, Int.cast_neg, Int.cast_zero, hb] at c1 c2 c3 c4 c5
  have hbc : b = 0 ∨ b = 1 := by omega
  refine ⟨?_, ?_, r2⟩
  · intro hf
    have hb' : b = 0 := by
      rcases hbc with h | h
      · exact h
      · exfalso
        simp only [boots, hb, h] at hf
        norm_num at hf
    subst hb'
    push_cast at c1 c2
    constructor
    · have : rounded (s (.level op.res)) ≤ rounded (s (.inLevel op.res)) - rounded (s (.rescale op.res)) - intrinsic o op := by
        apply rounded_le
        push_cast
        rw [← l1, ← r1]
        linarith
      omega
    · have : ((rounded (s (.inScale op.res)) - rounded (s (.scale op.res)) : Int) : ℚ) ≤
          ((rounded (s (.rescale op.res)) * o.sf : Int) : ℚ) := by
        push_cast
        rw [← i1, ← s1, ← r1]
        linarith
      exact_mod_cast this
  · intro hf
    have hb' : b = 1 := by
      rcases hbc with h | h
      · exfalso
        simp only [boots, hb, h] at hf
        norm_num at hf
      · exact h
    subst hb'
    push_cast at c3 c4 c5
    refine ⟨?_, ?_, ?_⟩
    · have : ((rounded (s (.inScale op.res)) : Int) : ℚ) ≤
          ((o.sf * (rounded (s (.inLevel op.res)) - o.lower + 1) : Int) : ℚ) := by
        push_cast
        rw [← i1, ← l1]
        linarith
      exact_mod_cast this
    · have : ((o.sf : Int) : ℚ) ≤ ((rounded (s (.scale op.res)) : Int) : ℚ) := by
        rw [← s1]
        linarith
      exact_mod_cast this
    · apply le_rounded
      push_cast
      linarith

/-! ## Decoding succeeds -/

/-- A value of the program. -/
def IsVal (p : Prog) (v : Nat) : Prop := v < p.nargs ∨ ∃ op ∈ p.ops, op.res = v

theorem Feasible.val (h : Feasible o c p s) (hsw : 0 < o.sw) {v : Nat} (hv : IsVal p v) (hs : c.sec v = true) :
    (ctOf s v).Valid o ∧ (o.ckks = false → (ctOf s v).scale = o.sw) ∧ s (.scale v) = ((ctOf s v).scale : ℚ) := by
  rcases hv with hv | ⟨op, hop, rfl⟩
  · have hm : v ∈ secretArgs c p := by simp [secretArgs, hv, hs]
    refine ⟨h.arg_valid hsw hm, fun hk => ?_, (h.box.arg v hm).2.2.spec.1⟩
    rw [h.ct_arg hm]
    exact initScale_flat hk v
  · have hm : op ∈ tracked c p := mem_tracked.2 ⟨hop, hs⟩
    exact ⟨h.res_valid hsw hm, fun hk => (h.flat hk hm).2, (h.box.scale op hm).spec.1⟩

theorem Opts.sf_pos (hsw : 0 < o.sw) (hfb : 0 < o.factorBits) : 0 < o.sf := by
  unfold Opts.sf
  split <;> assumption

theorem Feasible.decode_edge (h : Feasible o c p s) (hsw : 0 < o.sw) (hfb : 0 < o.factorBits) {op : Op}
    (hop : op ∈ tracked c p) {i a : Nat} (hi : op.args[i]? = some a) (ha : c.sec a = true) (hv : IsVal p a) :
    ∃ ms, edgeOf o c s op i a = some ms ∧ MgExec o (ctOf s a) ms (edgeCt o s op i) ∧
      (rescales ms : Int) ≤ rounded (s (.edgeRescale op.res i)) ∧ Mg.boot ∉ ms := by
  have hsf := Opts.sf_pos hsw hfb
  obtain ⟨v1, v2, v3⟩ := h.val hsw hv ha
  obtain ⟨e1, e2, e3⟩ := h.edge hop hi ha
  have hcount : rescaleCount o (rounded (s (.scale a))) (rounded (s (edgeVar o op i))) ≤
      rounded (s (.edgeRescale op.res i)) := rescaleCount_le hsf e1 (e3 _ v3)
  obtain ⟨ms, m1, m2, m3, m4⟩ := decodeDirect_spec hsf hsw v1 (h.edge_valid hsw hop hi ha) (by
    show rounded (s (.inLevel op.res)) + _ ≤ _
    have : rounded (s (.inLevel op.res)) + rescaleCount o (rounded (s (.scale a))) (rounded (s (edgeVar o op i))) ≤
      rounded (s (.level a)) := by omega
    exact this) (fun hk => by
      have := v2 hk
      have he := h.edgeCons hop (mem_positions.2 hi) ha (isConst (edgeVar o op i) o.sw) (by simp [Place.edgeCons, hk])
      have he' := isConst_rounded he
      show rounded (s (.scale a)) = rounded (s (edgeVar o op i))
      rw [he']
      exact this)
  refine ⟨ms, ?_, m2, ?_, m4⟩
  · rw [edgeOf, (mem_tracked.1 hop).2, ha]
    exact m1
  · rw [m3]
    exact hcount

theorem Feasible.decode_node (h : Feasible o c p s) (hsw : 0 < o.sw) (hfb : 0 < o.factorBits) (hlb : 0 ≤ o.lower) {op : Op}
    (hop : op ∈ tracked c p) :
    ∃ ms, nodeOf o c s op = some ms ∧ MgExec o (inCt s op) ms (ctOf s op.res) ∧
      ms.countP (· == .boot) = (if boots s op.res then 1 else 0) ∧
      (boots s op.res = false → (rescales ms : Int) ≤ rounded (s (.rescale op.res))) := by
  have hsf := Opts.sf_pos hsw hfb
  obtain ⟨n1, n2, n3⟩ := h.node hop
  have hnode : nodeOf o c s op = decodeNode o (inCt s op).level (inCt s op).scale (ctOf s op.res).level
      (ctOf s op.res).scale (boots s op.res) := by
    rw [nodeOf, (mem_tracked.1 hop).2]
    rfl
  rw [hnode]
  cases hb : boots s op.res
  · obtain ⟨i1, i2⟩ := n1 hb
    have hint : 0 ≤ intrinsic o op := by unfold intrinsic; split <;> omega
    have hcount : rescaleCount o (inCt s op).scale (ctOf s op.res).scale ≤ rounded (s (.rescale op.res)) :=
      rescaleCount_le hsf n3 i2
    obtain ⟨ms, m1, m2, m3, m4⟩ := decodeDirect_spec (il := (inCt s op).level) (is := (inCt s op).scale)
      (ol := (ctOf s op.res).level) (os := (ctOf s op.res).scale) hsf hsw (h.in_valid hsw hop) (h.res_valid hsw hop) (by
      show rounded (s (.level op.res)) + _ ≤ rounded (s (.inLevel op.res))
      omega) (fun hk => by
        show rounded (s (.inScale op.res)) = rounded (s (.scale op.res))
        rw [(h.flat hk hop).1, (h.flat hk hop).2])
    refine ⟨ms, by simp [decodeNode, m1], m2, ?_, fun _ => by rw [m3]; exact hcount⟩
    rw [if_neg (by simp), List.countP_eq_zero]
    intro m hm hb'
    rw [beq_iff_eq] at hb'
    exact m4 (hb' ▸ hm)
  · obtain ⟨b1, b2, b3⟩ := n2 hb
    have hpos := (h.in_valid hsw hop).2.2.1
    have hll : o.lower ≤ (inCt s op).level := by
      by_contra hn
      have h1 : (inCt s op).level - o.lower + 1 ≤ 0 := by omega
      have h2 : o.sf * ((inCt s op).level - o.lower + 1) ≤ 0 := Int.mul_nonpos_of_nonneg_of_nonpos (by omega) h1
      have h3 : (inCt s op).scale ≤ o.sf * ((inCt s op).level - o.lower + 1) := b1
      omega
    obtain ⟨ms, m1, m2, m3⟩ := decodeBoot_spec (il := (inCt s op).level) (is := (inCt s op).scale)
      (ol := (ctOf s op.res).level) (os := (ctOf s op.res).scale) hsf hsw hlb (h.in_valid hsw hop) (h.res_valid hsw hop)
      (fun hk => by
        have hfl := h.flat hk hop
        have hs : o.sf = o.sw := by simp [Opts.sf, hk]
        rw [hs]
        exact hfl) b1 hll b2
    exact ⟨ms, m1, m2, by simpa using m3, by simp⟩

end
end Heir.Place
