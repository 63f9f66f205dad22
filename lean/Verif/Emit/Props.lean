import Verif.Emit.Lemmas7
import Verif.Emit.Const
import Verif.Emit.Check
import Verif.Dag.Props

/-! # Properties of the operations made from a DAG -/

namespace Heir.Emit

open Heir.Dag

variable {V O : Type} {D : Heap O}

/-- What exists before the visitor runs: the variables that are set are not those of loops, and
their names are in use and visible. -/
structure Start (D : Heap O) (n : Nat) (vars : Env Nat) (next : Nat) (vis : List Nat) : Prop where
  loops : ∀ m l x, Reach D n m → D m = .loop l → l.binds x → vars x = none
  names : ∀ x a, vars x = some a → a ∈ vis
  bound : ∀ a ∈ vis, a < next

theorem start_stat (S : Sem V O) {n next : Nat} {vars : Env Nat} {vis : List Nat}
    (h : Start D n vars next vis) :
    Stat S D [n] (fun _ => False) ⟨fun _ => none, vars, next⟩ := by
  refine ⟨?_, ?_, ?_, ?_, ?_, ?_, ?_⟩
  · intro m ns hm; cases hm
  · intro m ns hm; cases hm
  · intro x a ha; exact h.bound a (h.names x a ha)
  · intro m ns x hm; cases hm
  · intro m ns hm; cases hm
  · intro m ns cs hm; cases hm
  · rintro m l x ⟨n', hn', hm⟩ hl hx hs
    simp only [List.mem_singleton] at hn'
    subst hn'
    rw [show (ESt.vars ⟨fun _ => none, vars, next⟩ x) = none from h.loops m l x hm hl hx] at hs
    cases hs

theorem below_self (n : Nat) : Below D [n] n := ⟨n, by simp, .refl⟩

/-- **C177.**  If the block made for a node uses every name where it is visible, then it runs, the
names returned hold the value of the node, and the values that were there are kept. -/
theorem C177_value (S : Sem V O) (hD : Ordered D) {n : Nat} (hC : Closed D [n]) {vars : Env Nat}
    {next : Nat} {vis vis' : List Nat} (hst : Start D n vars next vis) {ns : List Nat}
    {code : Code O} {s' : ESt} (hm : materialize D vars next n = some (ns, code, s')) {ρ : Env V}
    (hρ : ∀ a, (ρ a).isSome ↔ a ∈ vis) (hok : visibleAfter code vis = some vis') (hns : ns ⊆ vis')
    {d : List V} (hd : den S D (fun x => (vars x).bind ρ) n = some d) :
    ∃ ρ', exec S code ρ = some ρ' ∧ readAll ρ' ns = some d ∧ ∀ a ∈ vis, ρ' a = ρ a := by
  have hs := start_stat S hst
  have hlt : ∀ x v, ρ x = some v → x < next := fun x v hv =>
    hst.bound x ((hρ x).1 (by rw [hv]; rfl))
  obtain ⟨ρ', he, hp⟩ := process_runs S hD hC (n + 1) n (fun _ => False) _ _ ρ
    (fun x => (vars x).bind ρ) vis vis' d (by omega) (below_self n) hs (fun _ h => h.elim) hm hlt
    (fun x hx => (hρ x).2 hx) (fun m ns hm => by cases hm)
    (by
      intro x a v v' hx hv he
      simp only at hx he
      rw [hx, Option.bind_some, hv] at he
      simpa using he.symm) hok hd
  obtain ⟨h1, h2⟩ := process_step S hD hC (n + 1) n (fun _ => False) _ _ (by omega) (below_self n) hs
    (fun _ h => h.elim) hm
  exact ⟨ρ', he, read_node (hp.agree n ns h2) hd (h1.stat.len n ns h2 _ _ hd) (vis_sub hp.vis hns),
    fun a ha => hp.old a (hst.bound a ha)⟩

/-- **C178 (partial).**  If no region computes anything that is used outside of it, every name is
used where it is visible. -/
theorem C178_scope_partial (hD : Ordered D) {n : Nat} (hC : Closed D [n]) (hp : Private D [n])
    (ha : Arity D [n]) {vars : Env Nat} {next : Nat} {vis : List Nat}
    (hst : Start D n vars next vis) {ns : List Nat} {code : Code O} {s' : ESt}
    (hm : materialize D vars next n = some (ns, code, s')) :
    ∃ vis', visibleAfter code vis = some vis' ∧ ns ⊆ vis' ∧ vis ⊆ vis' := by
  let S : Sem Unit O := ⟨fun _ _ => none, fun _ => (), fun _ => none⟩
  obtain ⟨vis', h⟩ := process_valid S hD hC hp ha (n + 1) n (fun _ => False) (fun _ => False) _ _ vis
    (by omega) (below_self n) (start_stat S hst) (fun _ h => h.elim) (fun _ h => h.elim)
    ⟨fun m ns hm => (by cases hm), fun x a _ hx => Or.inl (hst.names x a hx),
      fun m ns _ hm => (by cases hm), fun m c hm => (by cases hm)⟩
    ⟨fun ns hns => (by cases hns), fun a _ hx => hst.names n a hx⟩ hm
  exact ⟨vis', h.code, h.res, h.sub⟩

/-- **C178.**  Without conditionals and loops every name is used where it is visible. -/
theorem C178_straight (hD : Ordered D) {n : Nat}
    (hr : ∀ m, Reach D n m → ∀ b, ¬ Region D m b) {vars : Env Nat} {next : Nat} {vis : List Nat}
    (hst : Start D n vars next vis) {ns : List Nat} {code : Code O} {s' : ESt}
    (hm : materialize D vars next n = some (ns, code, s')) :
    ∃ vis', visibleAfter code vis = some vis' ∧ ns ⊆ vis' ∧ vis ⊆ vis' := by
  have hb : ∀ m, Below D [n] m → Reach D n m := by
    rintro m ⟨n', hn', h⟩
    simp only [List.mem_singleton] at hn'
    exact hn' ▸ h
  refine C178_scope_partial hD ⟨?_, ?_⟩ ⟨?_, ?_⟩ ?_ hst hm
  · intro n' hn' x hx m l hm hl
    exact absurd (Or.inl ⟨l, hl, rfl⟩) (hr m (hb m hm) l.body)
  · intro m l m' l' x hm _ hl
    exact absurd (Or.inl ⟨l, hl, rfl⟩) (hr m (hb m hm) l.body)
  · intro p b m q hp hreg
    exact absurd hreg (hr p (hb p hp) b)
  · intro p c t e hp hpe
    exact absurd (Or.inr ⟨c, t, e, hpe, Or.inl rfl⟩) (hr p (hb p hp) t)
  · intro p l cs hp hl
    exact absurd (Or.inl ⟨l, hl, rfl⟩) (hr p (hb p hp) l.body)

/-- **C177.**  With private regions the block runs and returns the value of the node. -/
theorem C177_private (S : Sem V O) (hD : Ordered D) {n : Nat} (hC : Closed D [n])
    (hp : Private D [n]) (ha : Arity D [n]) {vars : Env Nat} {next : Nat} {vis : List Nat}
    (hst : Start D n vars next vis) {ns : List Nat} {code : Code O} {s' : ESt}
    (hm : materialize D vars next n = some (ns, code, s')) {ρ : Env V}
    (hρ : ∀ a, (ρ a).isSome ↔ a ∈ vis) {d : List V}
    (hd : den S D (fun x => (vars x).bind ρ) n = some d) :
    ∃ ρ', exec S code ρ = some ρ' ∧ readAll ρ' ns = some d ∧ ∀ a ∈ vis, ρ' a = ρ a := by
  obtain ⟨vis', h1, h2, _⟩ := C178_scope_partial hD hC hp ha hst hm
  exact C177_value S hD hC hst hm hρ h1 h2 hd

/-- **C179.**  The block has one operation for every reachable node that stands for one, however
often the node is used. -/
theorem C179_once (hD : Ordered D) {n : Nat} {vars : Env Nat} {next : Nat} {ns : List Nat}
    {code : Code O} {s' : ESt} (hm : materialize D vars next n = some (ns, code, s')) :
    ∃ L : List Nat, L.Nodup ∧ (∀ m, m ∈ L ↔ Reach D n m ∧ Emits (D m)) ∧ ops code = L.length := by
  have h := process_delta hD (n + 1) hm
  obtain ⟨L, hn, hl, hL⟩ := h.list
  have hcl := h.clos (fun m x hm => by cases hm)
  have hall : ∀ m, Reach D n m → (s'.cache m).isSome := by
    intro m hr
    induction hr with
    | refl => exact h.ch n (by simp)
    | child _ hc ih => exact hcl _ _ ih (Or.inl hc)
    | body _ hl ih => exact hcl _ _ ih (Or.inr ⟨_, hl, rfl⟩)
  refine ⟨L, hn, fun m => ?_, hl.symm⟩
  rw [hL]
  constructor
  · rintro ⟨h1, _, h3⟩
    refine ⟨?_, h3⟩
    rcases h.new m h1 with h | ⟨x, hx, hr⟩
    · cases h
    · simp only [List.mem_singleton] at hx
      exact hx ▸ hr
  · rintro ⟨hr, he⟩
    exact ⟨hall m hr, rfl, he⟩

/-! ## Examples -/

/-- Two nested loops around a conditional over the value `0`, which exists already:
nothing computed is shared between regions. -/
def loopsDag : List (Kind LitOp) :=
  [ .var, .var, .var, .pure (.leaf (.scalar 5)) [], .var, .var,
    .pure .add [5, 3], .pure .add [6, 1], .pure (.leaf (.scalar 2)) [], .pure (.cmp .LT) [7, 8],
    .pure .add [5, 4], .yield [10], .pure .sub [5, 0], .yield [12], .ifElse 9 11 13,
    .resultAt 14 0, .yield [15], .loop ⟨4, [2], [5], 16, 0, 3, 1⟩,
    .resultAt 17 0, .pure .add [18, 0], .yield [19], .loop ⟨1, [0], [2], 20, 0, 4, 2⟩,
    .resultAt 21 0, .pure .add [22, 0] ]

/-- The value of node 0 is called 7. -/
def loopsVars : Env Nat := fun x => if x = 0 then some 7 else none

theorem loops_start : Start (ofList loopsDag) 23 loopsVars 8 [7] := by
  refine ⟨?_, ?_, ?_⟩
  · intro m l x _ hl hx
    have hm := ofList_loop hl
    have : ∀ p ∈ loopsOf loopsDag 0, bindsB p.2 0 = false := by decide +kernel
    have := this _ hm
    simp only [loopsVars]
    split
    case isTrue h0 =>
      subst h0
      rw [(bindsB_iff l 0).2 hx] at this
      cases this
    case isFalse => rfl
  · intro x a h
    simp only [loopsVars] at h
    split at h
    · simpa using h.symm
    · cases h
  · simp

theorem loops_ordered : Ordered (ofList loopsDag) :=
  ordered_of_check (roots := [23]) (by decide +kernel)

theorem loops_closed : Closed (ofList loopsDag) [23] := closed_of_check (by decide +kernel)

theorem loops_private : Private (ofList loopsDag) [23] :=
  private_of_check loops_ordered (by decide +kernel)

theorem loops_arity : Arity (ofList loopsDag) [23] := arity_of_check (by decide +kernel)

theorem loops_value : den litSem (ofList loopsDag)
    (fun x => (loopsVars x).bind fun a => if a = 7 then some (.scalar 3) else none) 23 =
    some [.scalar (-2)] := by
  decide +kernel

/-- The block of `loopsDag`. -/
def loopsCode : List Nat × Code LitOp := ((materialize (ofList loopsDag) loopsVars 8 23).map
  fun r => (r.1, r.2.1)).getD ([], .nil)

theorem loops_made : ∃ s', materialize (ofList loopsDag) loopsVars 8 23 =
    some (loopsCode.1, loopsCode.2, s') := by
  have h : (materialize (ofList loopsDag) loopsVars 8 23).isSome = true := by decide +kernel
  obtain ⟨r, hr⟩ := Option.isSome_iff_exists.1 h
  exact ⟨r.2.2, by rw [loopsCode, hr]; rfl⟩

example : ops loopsCode.2 = 12 := by decide +kernel

example : ∃ ρ', exec litSem loopsCode.2 (fun a => if a = 7 then some (.scalar 3) else none) = some ρ' ∧
    readAll ρ' loopsCode.1 = some [.scalar (-2)] ∧ ∀ a ∈ [7], ρ' a = some (.scalar 3) := by
  obtain ⟨s', hm⟩ := loops_made
  obtain ⟨ρ', h1, h2, h3⟩ := C177_private litSem loops_ordered loops_closed loops_private loops_arity
    loops_start hm (ρ := fun a => if a = 7 then some (.scalar 3) else none)
    (by intro a; by_cases h : a = 7 <;> simp [h]) loops_value
  exact ⟨ρ', h1, h2, fun a ha => by rw [h3 a ha]; simp_all⟩

example : ∃ vis', visibleAfter loopsCode.2 [7] = some vis' ∧ loopsCode.1 ⊆ vis' ∧ [7] ⊆ vis' := by
  obtain ⟨s', hm⟩ := loops_made
  exact C178_scope_partial loops_ordered loops_closed loops_private loops_arity loops_start hm

/-- **C178, violated.**  A constant that is first visited in the body of a loop and used again after
the loop: the DAG has a value, its block uses a name that is not visible. -/
theorem C178_violated_constant :
    Ordered (ofList nestedDag) ∧ Closed (ofList nestedDag) [15] ∧
    den litSem (ofList nestedDag) (fun _ => none) 15 = some [.scalar 49] ∧
    ∃ ns code s', materialize (ofList nestedDag) (fun _ => none) 0 15 = some (ns, code, s') ∧
      visibleAfter code [] = none := by
  refine ⟨ordered_of_check (roots := [15]) (by decide +kernel), closed_of_check (by decide +kernel),
    by decide +kernel, ?_⟩
  have h : ((materialize (ofList nestedDag) (fun _ => none) 0 15).map
      fun r => visibleAfter r.2.1 []) = some none := by decide +kernel
  simp only [Option.map_eq_some_iff] at h
  obtain ⟨r, hr, h⟩ := h
  exact ⟨r.1, r.2.1, r.2.2, hr, h⟩

/-- The sum of node 0 and itself is used in both branches. -/
def sharedDag : List (Kind LitOp) :=
  [ .var, .pure .add [0, 0], .yield [1], .pure .sub [1, 0], .yield [3], .ifElse 0 2 4 ]

/-- **C178, violated.**  A node used in both branches of a conditional is made in the first one. -/
theorem C178_violated_branches :
    Ordered (ofList sharedDag) ∧ Closed (ofList sharedDag) [5] ∧
    ∃ ns code s', materialize (ofList sharedDag) loopsVars 8 5 = some (ns, code, s') ∧
      visibleAfter code [7] = none ∧
      exec litSem code (fun a => if a = 7 then some (.scalar 0) else none) = none := by
  refine ⟨ordered_of_check (roots := [5]) (by decide +kernel), closed_of_check (by decide +kernel), ?_⟩
  have h : ((materialize (ofList sharedDag) loopsVars 8 5).map
      fun r => (visibleAfter r.2.1 [7], (exec litSem r.2.1
        (fun a => if a = 7 then some (.scalar 0) else none)).isNone)) = some (none, true) := by
    decide +kernel
  simp only [Option.map_eq_some_iff, Prod.mk.injEq] at h
  obtain ⟨r, hr, h, h'⟩ := h
  exact ⟨r.1, r.2.1, r.2.2, hr, h, by simpa using h'⟩

/-! ## Constants -/

theorem mkAPInt_signed {w : Nat} {v : Int} {b : BitVec w} : mkAPInt w true v = some b ↔
    w ≠ 0 ∧ -2 ^ (w - 1) ≤ v ∧ v < 2 ^ (w - 1) ∧ b.toInt = v := by
  simp only [mkAPInt, if_true]
  split
  case isTrue h =>
    obtain ⟨h1, h2, h3⟩ := h
    have hv : (BitVec.ofInt w v).toInt = v := by
      obtain ⟨k, rfl⟩ : ∃ k, w = k + 1 := ⟨w - 1, by omega⟩
      simp only [Nat.add_sub_cancel] at h1 h2
      rw [BitVec.toInt_ofInt, Int.bmod_eq_of_le] <;> push_cast <;> rw [pow_succ] <;> omega
    simp only [Option.some.injEq]
    constructor
    · rintro rfl; exact ⟨h3, h1, h2, hv⟩
    · rintro ⟨_, _, _, h⟩
      apply BitVec.eq_of_toInt_eq
      rw [hv, h]
  case isFalse h =>
    constructor
    · intro h; cases h
    · rintro ⟨h1, h2, h3, _⟩; exact absurd ⟨h2, h3, h1⟩ h

theorem mkAPInt_unsigned {w : Nat} {v : Int} {b : BitVec w} : mkAPInt w false v = some b ↔
    0 ≤ v ∧ v < 2 ^ w ∧ (b.toNat : Int) = v := by
  simp only [mkAPInt, Bool.false_eq_true, if_false]
  split
  case isTrue h =>
    have hv : ((BitVec.ofInt w v).toNat : Int) = v := by
      rw [BitVec.toNat_ofInt]
      push_cast
      rw [Int.toNat_of_nonneg (Int.emod_nonneg _ (by positivity)), Int.emod_eq_of_lt h.1 h.2]
    simp only [Option.some.injEq]
    constructor
    · rintro rfl; exact ⟨h.1, h.2, hv⟩
    · rintro ⟨_, _, h⟩
      apply BitVec.eq_of_toNat_eq
      omega
  case isFalse h =>
    constructor
    · intro h; cases h
    · rintro ⟨h1, h2, _⟩; exact absurd ⟨h1, h2⟩ h

/-- **C180.**  An integer constant, or the element of a splat, is made exactly if the floor of the
value is a signed number of the width, and it is that number. -/
theorem C180_scalar {w : Nat} (hw : w ≤ 64) (v : ℚ) (b : BitVec w) :
    scalarConst w v = some b ↔
      w ≠ 0 ∧ -2 ^ (w - 1) ≤ ⌊v⌋ ∧ ⌊v⌋ < 2 ^ (w - 1) ∧ b.toInt = ⌊v⌋ := by
  have hp : (2 : Int) ^ (w - 1) ≤ 2 ^ 63 := pow_le_pow_right₀ (by norm_num) (by omega)
  rw [scalarConst, toInt64]
  split
  case isTrue h => rw [Option.bind_some, mkAPInt_signed]
  case isFalse h =>
    constructor
    · intro h; cases h
    · rintro ⟨_, h1, h2, _⟩; exact absurd ⟨by linarith, by linarith⟩ h

/-- **C180.**  An index constant is the floor of the value as a signed number. -/
theorem C180_index (v : ℚ) (b : BitVec 64) :
    indexConst v = some b ↔ -2 ^ 63 ≤ ⌊v⌋ ∧ ⌊v⌋ < 2 ^ 63 ∧ b.toInt = ⌊v⌋ := by
  rw [indexConst, toInt64]
  split
  case isTrue h =>
    rw [Option.bind_some, mkAPInt_unsigned]
    have hb := b.isLt
    have hi := BitVec.toInt_eq_toNat_cond b
    constructor
    · rintro ⟨_, _, h3⟩
      refine ⟨h.1, h.2, ?_⟩
      split at hi <;> omega
    · rintro ⟨_, _, h3⟩
      refine ⟨by omega, by omega, ?_⟩
      split at hi <;> omega
  case isFalse h =>
    constructor
    · intro h; cases h
    · rintro ⟨h1, h2, _⟩; exact absurd ⟨h1, h2⟩ h

/-- **C180 (partial).**  An element of a constant tensor is made exactly if the floor of the value is
an unsigned number of the width.  Missing: negative values. -/
theorem C180_tensor_partial {w : Nat} (hw : w ≤ 64) (v : ℚ) (b : BitVec w) :
    tensorConst w v = some b ↔ 0 ≤ ⌊v⌋ ∧ ⌊v⌋ < 2 ^ w ∧ (b.toNat : Int) = ⌊v⌋ := by
  have hp : (2 : Int) ^ w ≤ 2 ^ 64 := pow_le_pow_right₀ (by norm_num) hw
  rw [tensorConst, toUint64]
  split
  case isTrue h => rw [Option.bind_some, mkAPInt_unsigned]
  case isFalse h =>
    constructor
    · intro h; cases h
    · rintro ⟨h1, h2, _⟩; exact absurd ⟨h1, by linarith⟩ h

/-- **C180 (partial).**  All elements of a constant tensor. -/
theorem C180_tensors_partial {w : Nat} (hw : w ≤ 64) (vs : List ℚ) (bs : List (BitVec w)) :
    tensorConsts w vs = some bs ↔
      (∀ v ∈ vs, 0 ≤ ⌊v⌋ ∧ ⌊v⌋ < 2 ^ w) ∧ bs.map (fun b => (b.toNat : Int)) = vs.map (⌊·⌋) := by
  induction vs generalizing bs with
  | nil =>
    cases bs <;> simp only [tensorConsts, List.map_nil, List.map_cons, Option.some.injEq] <;> simp
  | cons v vs ih =>
    simp only [tensorConsts, Option.bind_eq_some_iff, Option.map_eq_some_iff]
    constructor
    · rintro ⟨b, hb, bs', hbs, rfl⟩
      rw [C180_tensor_partial hw] at hb
      rw [ih] at hbs
      refine ⟨?_, by simp [hb.2.2, hbs.2]⟩
      intro u hu
      rcases List.mem_cons.1 hu with rfl | hu
      · exact ⟨hb.1, hb.2.1⟩
      · exact hbs.1 u hu
    · rintro ⟨h1, h2⟩
      cases bs with
      | nil => simp at h2
      | cons b bs =>
        simp only [List.map_cons, List.cons.injEq] at h2
        refine ⟨b, (C180_tensor_partial hw v b).2 ⟨(h1 v (by simp)).1, (h1 v (by simp)).2, h2.1⟩, bs,
          (ih bs).2 ⟨fun u hu => h1 u (by simp [hu]), h2.2⟩, rfl⟩

/-- **C180, violated.**  A negative value has a splat but no constant tensor; a true `i1` has a
constant tensor but no splat. -/
theorem C180_violated_negative :
    scalarConst 8 (-1) = some (-1) ∧ (∀ w (v : ℚ), v < 0 → tensorConst w v = none) ∧
    tensorConst 1 1 = some 1 ∧ scalarConst 1 1 = none := by
  refine ⟨?_, ?_, ?_, ?_⟩
  · rw [C180_scalar (by norm_num)]
    have : ⌊(-1 : ℚ)⌋ = -1 := by norm_num
    rw [this]; decide
  · intro w v hv
    rw [tensorConst, toUint64, if_neg]
    · rfl
    · rintro ⟨h, _⟩
      have := Int.floor_lt.2 (show v < ((0 : Int) : ℚ) by simpa using hv)
      omega
  · rw [C180_tensor_partial (by norm_num)]
    have : ⌊(1 : ℚ)⌋ = 1 := by norm_num
    rw [this]; decide
  · rw [Option.eq_none_iff_forall_ne_some]
    intro b hb
    rw [C180_scalar (by norm_num)] at hb
    have : ⌊(1 : ℚ)⌋ = 1 := by norm_num
    rw [this] at hb
    norm_num at hb

example : scalarConst 8 (-5/2) = some (-3) := by
  rw [C180_scalar (by norm_num)]
  have : ⌊(-5/2 : ℚ)⌋ = -3 := by rw [Int.floor_eq_iff]; norm_num
  rw [this]; decide

example : indexConst (-1) = some (-1) := by
  rw [C180_index]
  have : ⌊(-1 : ℚ)⌋ = -1 := by norm_num
  rw [this]; decide

example : tensorConsts 8 [0, 255, 3/2] = some [0, 255, 1] := by
  rw [C180_tensors_partial (by norm_num)]
  have h2 : ⌊(3/2 : ℚ)⌋ = 1 := by rw [Int.floor_eq_iff]; norm_num
  simp [h2]

end Heir.Emit
