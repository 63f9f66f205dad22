import Verif.RotKeys.Log

/-!
# The DAG of a block

The names of the nodes built for a well-formed block are increasing; children come before
parents; variables of loops are used inside of their loop only.
-/

namespace Heir.RotKeys

open Heir.Dag (Kind LoopNode Sem Heap Env Cache St Lit)

/-! ## Increasing names -/

/-- Increasing from `lo` on, below `hi`. -/
def Asc : Nat → List Nat → Nat → Prop
  | lo, [], hi => lo ≤ hi
  | lo, x :: l, hi => lo ≤ x ∧ Asc (x + 1) l hi

theorem Asc.le {lo hi : Nat} {l : List Nat} (h : Asc lo l hi) : lo ≤ hi := by
  induction l generalizing lo with
  | nil => exact h
  | cons x l ih => have := ih h.2; have := h.1; omega

theorem Asc.weaken {lo lo' hi hi' : Nat} {l : List Nat} (h : Asc lo l hi) (h1 : lo' ≤ lo)
    (h2 : hi ≤ hi') : Asc lo' l hi' := by
  induction l generalizing lo lo' with
  | nil => exact Nat.le_trans h1 (Nat.le_trans h h2)
  | cons x l ih => exact ⟨Nat.le_trans h1 h.1, ih h.2 (Nat.le_refl _)⟩

theorem Asc.append {lo mid hi : Nat} {l l' : List Nat} (h : Asc lo l mid) (h' : Asc mid l' hi) :
    Asc lo (l ++ l') hi := by
  induction l generalizing lo with
  | nil => exact h'.weaken h (Nat.le_refl _)
  | cons x l ih => exact ⟨h.1, ih h.2⟩

theorem Asc.mem {lo hi : Nat} {l : List Nat} (h : Asc lo l hi) {x : Nat} (hx : x ∈ l) :
    lo ≤ x ∧ x < hi := by
  induction l generalizing lo with
  | nil => simp at hx
  | cons y l ih =>
    rcases List.mem_cons.1 hx with rfl | hx
    · exact ⟨h.1, h.2.le⟩
    · have := ih h.2 hx; have := h.1; omega

theorem Asc.nodup {lo hi : Nat} {l : List Nat} (h : Asc lo l hi) : l.Nodup := by
  induction l generalizing lo with
  | nil => exact List.nodup_nil
  | cons x l ih =>
    refine List.nodup_cons.2 ⟨fun hx => ?_, ih h.2⟩
    have := (Asc.mem h.2 hx).1
    omega

theorem inc_asc {lo hi : Nat} {rs : List Nat} (h : inc lo rs = some hi) : Asc lo rs hi := by
  induction rs generalizing lo with
  | nil => simp only [inc, Option.some.injEq] at h; exact Nat.le_of_eq h
  | cons r rs ih =>
    simp only [inc] at h
    split at h
    case isTrue h1 => exact ⟨h1, ih h⟩
    case isFalse => simp at h

theorem lookup_of_mem {β : Type} {l : List (Nat × β)} (h : (l.map Prod.fst).Nodup) {x : Nat} {b : β}
    (hx : (x, b) ∈ l) : List.lookup x l = some b := by
  induction l with
  | nil => simp at hx
  | cons p l ih =>
    obtain ⟨y, c⟩ := p
    simp only [List.map_cons, List.nodup_cons] at h
    rcases List.mem_cons.1 hx with hx | hx
    · simp only [Prod.mk.injEq] at hx
      obtain ⟨rfl, rfl⟩ := hx
      simp [List.lookup]
    · have : x ≠ y := fun hxy => h.1 (hxy ▸ List.mem_map_of_mem (f := Prod.fst) hx)
      rw [List.lookup_cons, beq_false_of_ne this]
      exact ih h.2 hx

theorem mem_of_lookup {β : Type} {l : List (Nat × β)} {x : Nat} {b : β}
    (h : List.lookup x l = some b) : (x, b) ∈ l := by
  induction l with
  | nil => simp at h
  | cons p l ih =>
    obtain ⟨y, c⟩ := p
    rw [List.lookup_cons] at h
    by_cases hxy : x = y
    · subst hxy
      simp only [beq_self_eq_true, Option.some.injEq] at h
      simp [h]
    · rw [beq_false_of_ne hxy] at h
      exact List.mem_cons_of_mem _ (ih h)

/-! ## Decomposition of `wf` and `build` -/

theorem wf_done {lo hi : Nat} {sc : List Nat} {y : Nat} {vs : List Nat}
    (h : wf lo sc (.done y vs) = some hi) : lo ≤ y ∧ (∀ v ∈ vs, v ∈ sc) ∧ hi = y + 1 := by
  simp only [wf] at h
  split at h
  case isTrue h1 =>
    simp only [Option.some.injEq] at h
    refine ⟨h1.1, fun v hv => ?_, h.symm⟩
    simpa using List.all_eq_true.1 h1.2 v hv
  case isFalse => simp at h

theorem wf_op {lo hi : Nat} {sc : List Nat} {r : Nat} {k : K} {args : List Nat} {rest : Block}
    (h : wf lo sc (.op r k args rest) = some hi) :
    lo ≤ r ∧ (∀ v ∈ args, v ∈ sc) ∧ wf (r + 1) (r :: sc) rest = some hi := by
  simp only [wf] at h
  split at h
  case isTrue h1 =>
    refine ⟨h1.1, fun v hv => ?_, h⟩
    simpa using List.all_eq_true.1 h1.2 v hv
  case isFalse => simp at h

theorem wf_rot {lo hi : Nat} {sc : List Nat} {r t : Nat} {sh : List (Int ⊕ Nat)} {rest : Block}
    (h : wf lo sc (.rot r t sh rest) = some hi) :
    lo ≤ r ∧ t ∈ sc ∧ (∀ v ∈ dynShifts sh, v ∈ sc) ∧ wf (r + 1) (r :: sc) rest = some hi := by
  simp only [wf] at h
  split at h
  case isTrue h1 =>
    refine ⟨h1.1, by simpa using h1.2.1, fun v hv => ?_, h⟩
    simpa using List.all_eq_true.1 h1.2.2 v hv
  case isFalse => simp at h

theorem wf_opq {lo hi : Nat} {sc rs : List Nat} {args : List (Nat × Bool)} {rest : Block}
    (h : wf lo sc (.opq rs args rest) = some hi) :
    (∀ a ∈ args, a.1 ∈ sc) ∧ ∃ h1, inc lo rs = some h1 ∧ wf h1 (rs ++ sc) rest = some hi := by
  simp only [wf] at h
  split at h
  case isTrue h1 =>
    obtain ⟨h2, h3, h4⟩ := Option.bind_eq_some_iff.1 h
    refine ⟨fun a ha => ?_, h2, h3, h4⟩
    simpa using List.all_eq_true.1 h1 a ha
  case isFalse => simp at h

theorem wf_region {lo hi : Nat} {sc rs ivs : List Nat} {args : List (Nat × Bool)}
    {body rest : Block} (h : wf lo sc (.region rs args ivs body rest) = some hi) :
    (∀ a ∈ args, a.1 ∈ sc) ∧ ∃ h1 h2 h3, inc lo ivs = some h1 ∧
      wf h1 (ivs ++ sc) body = some h2 ∧ inc h2 rs = some h3 ∧
      wf h3 (rs ++ sc) rest = some hi := by
  simp only [wf] at h
  split at h
  case isTrue h1 =>
    obtain ⟨h2, h3, h⟩ := Option.bind_eq_some_iff.1 h
    obtain ⟨h4, h5, h⟩ := Option.bind_eq_some_iff.1 h
    obtain ⟨h6, h7, h⟩ := Option.bind_eq_some_iff.1 h
    refine ⟨fun a ha => ?_, h2, h4, h6, h3, h5, h7, h⟩
    simpa using List.all_eq_true.1 h1 a ha
  case isFalse => simp at h

theorem wf_loop {lo hi : Nat} {sc : List Nat} {n lb ub st iv : Nat} {inits args rs : List Nat}
    {body rest : Block} (h : wf lo sc (.loop n lb ub st iv inits args rs body rest) = some hi) :
    (lo ≤ iv ∧ lb ∈ sc ∧ ub ∈ sc ∧ st ∈ sc ∧ (∀ v ∈ inits, v ∈ sc) ∧ inits.length = args.length ∧
      rs.length = args.length ∧ body.yields.length = args.length) ∧
    ∃ h1 h2 h3, inc (iv + 1) args = some h1 ∧ wf h1 (args ++ iv :: sc) body = some h2 ∧ h2 ≤ n ∧
      inc (n + 1) rs = some h3 ∧ wf h3 (rs ++ sc) rest = some hi := by
  simp only [wf] at h
  split at h
  case isTrue h1 =>
    obtain ⟨h2, h3, h⟩ := Option.bind_eq_some_iff.1 h
    obtain ⟨h4, h5, h⟩ := Option.bind_eq_some_iff.1 h
    split at h
    case isTrue hn =>
      obtain ⟨h6, h7, h⟩ := Option.bind_eq_some_iff.1 h
      refine ⟨⟨h1.1, by simpa using h1.2.1, by simpa using h1.2.2.1, by simpa using h1.2.2.2.1,
        fun v hv => ?_, h1.2.2.2.2.2⟩, h2, h4, h6, h3, h5, hn, h7, h⟩
      simpa using List.all_eq_true.1 h1.2.2.2.2.1 v hv
    case isFalse => simp at h
  case isFalse => simp at h

theorem wf_ite {lo hi : Nat} {sc : List Nat} {n c : Nat} {rs : List Nat} {hasElse : Bool}
    {t e rest : Block} (h : wf lo sc (.ite n c rs hasElse t e rest) = some hi) :
    (c ∈ sc ∧ t.yields.length = rs.length ∧ e.yields.length = rs.length) ∧
    ∃ h1 h2 h3, wf lo sc t = some h1 ∧ wf h1 sc e = some h2 ∧ h2 ≤ n ∧
      inc (n + 1) rs = some h3 ∧ wf h3 (rs ++ sc) rest = some hi := by
  simp only [wf] at h
  split at h
  case isTrue h1 =>
    obtain ⟨h2, h3, h⟩ := Option.bind_eq_some_iff.1 h
    obtain ⟨h4, h5, h⟩ := Option.bind_eq_some_iff.1 h
    split at h
    case isTrue hn =>
      obtain ⟨h6, h7, h⟩ := Option.bind_eq_some_iff.1 h
      exact ⟨⟨by simpa using h1.1, h1.2⟩, h2, h4, h6, h3, h5, hn, h7, h⟩
    case isFalse => simp at h
  case isFalse => simp at h

variable {cs : List (Nat × Cst)}

theorem build_op {r : Nat} {k : K} {args : List Nat} {rest : Block} {ns : List (Nat × Kind ROp)}
    (h : build cs (.op r k args rest) = some ns) :
    ∃ nd ns', node cs k args = some nd ∧ build cs rest = some ns' ∧ ns = (r, nd) :: ns' := by
  simp only [build] at h
  obtain ⟨nd, h1, h⟩ := Option.bind_eq_some_iff.1 h
  obtain ⟨ns', h2, h⟩ := Option.bind_eq_some_iff.1 h
  exact ⟨nd, ns', h1, h2, (Option.some.inj h).symm⟩

theorem build_rot {r t : Nat} {sh : List (Int ⊕ Nat)} {rest : Block} {ns : List (Nat × Kind ROp)}
    (h : build cs (.rot r t sh rest) = some ns) :
    ∃ ns', build cs rest = some ns' ∧
      ns = (r, .pure (.rotate (staticShifts sh)) (t :: dynShifts sh)) :: ns' := by
  simp only [build] at h
  obtain ⟨ns', h2, h⟩ := Option.bind_eq_some_iff.1 h
  exact ⟨ns', h2, (Option.some.inj h).symm⟩

theorem build_opq {rs : List Nat} {args : List (Nat × Bool)} {rest : Block}
    {ns : List (Nat × Kind ROp)} (h : build cs (.opq rs args rest) = some ns) :
    ∃ ns', build cs rest = some ns' ∧ ns = rs.map (fun r => (r, opqNode args)) ++ ns' := by
  simp only [build] at h
  obtain ⟨ns', h2, h⟩ := Option.bind_eq_some_iff.1 h
  exact ⟨ns', h2, (Option.some.inj h).symm⟩

theorem build_region {rs ivs : List Nat} {args : List (Nat × Bool)} {body rest : Block}
    {ns : List (Nat × Kind ROp)} (h : build cs (.region rs args ivs body rest) = some ns) :
    ∃ ns', build cs rest = some ns' ∧ ns = rs.map (fun r => (r, opqNode args)) ++ ns' := by
  simp only [build] at h
  obtain ⟨ns', h2, h⟩ := Option.bind_eq_some_iff.1 h
  exact ⟨ns', h2, (Option.some.inj h).symm⟩

theorem build_loop {n lb ub st iv : Nat} {inits args rs : List Nat} {body rest : Block}
    {ns : List (Nat × Kind ROp)}
    (h : build cs (.loop n lb ub st iv inits args rs body rest) = some ns) :
    ∃ l u s ms ns', intConst cs lb = some l ∧ intConst cs ub = some u ∧ intConst cs st = some s ∧
      build cs body = some ms ∧ build cs rest = some ns' ∧
      ns = (iv, .var) :: args.map (fun a => (a, .var)) ++ ms ++
        (n, .loop ⟨iv, inits, args, body.yieldNode, wrap32 l, wrap32 u, wrap32 s⟩) ::
        resultsFrom n 0 rs ++ ns' := by
  simp only [build] at h
  obtain ⟨l, h1, h⟩ := Option.bind_eq_some_iff.1 h
  obtain ⟨u, h2, h⟩ := Option.bind_eq_some_iff.1 h
  obtain ⟨s, h3, h⟩ := Option.bind_eq_some_iff.1 h
  obtain ⟨ms, h4, h⟩ := Option.bind_eq_some_iff.1 h
  obtain ⟨ns', h5, h⟩ := Option.bind_eq_some_iff.1 h
  exact ⟨l, u, s, ms, ns', h1, h2, h3, h4, h5, (Option.some.inj h).symm⟩

theorem build_ite {n c : Nat} {rs : List Nat} {hasElse : Bool} {t e rest : Block}
    {ns : List (Nat × Kind ROp)} (h : build cs (.ite n c rs hasElse t e rest) = some ns) :
    ∃ ms ms' ns', build cs t = some ms ∧ build cs e = some ms' ∧ build cs rest = some ns' ∧
      ns = ms ++ ms' ++ (n, .ifElse c t.yieldNode e.yieldNode) :: resultsFrom n 0 rs ++ ns' := by
  simp only [build] at h
  split at h
  · simp at h
  obtain ⟨ms, h1, h⟩ := Option.bind_eq_some_iff.1 h
  obtain ⟨ms', h2, h⟩ := Option.bind_eq_some_iff.1 h
  obtain ⟨ns', h3, h⟩ := Option.bind_eq_some_iff.1 h
  exact ⟨ms, ms', ns', h1, h2, h3, (Option.some.inj h).symm⟩

theorem resultsFrom_keys (n j : Nat) (rs : List Nat) :
    (resultsFrom n j rs).map Prod.fst = rs := by
  induction rs generalizing j with
  | nil => rfl
  | cons r rs ih => simp [resultsFrom, ih]

theorem mem_resultsFrom {n j : Nat} {rs : List Nat} {p : Nat × Kind ROp}
    (h : p ∈ resultsFrom n j rs) : ∃ i, p.2 = .resultAt n i := by
  induction rs generalizing j with
  | nil => simp [resultsFrom] at h
  | cons r rs ih =>
    simp only [resultsFrom, List.mem_cons] at h
    rcases h with rfl | h
    · exact ⟨j, rfl⟩
    · exact ih h

theorem resultsFrom_get {n j : Nat} {rs : List Nat} {i : Nat} {r : Nat} (h : rs[i]? = some r) :
    (r, .resultAt n (j + i)) ∈ resultsFrom n j rs := by
  induction rs generalizing j i with
  | nil => simp at h
  | cons r' rs ih =>
    cases i with
    | zero =>
      simp only [List.getElem?_cons_zero, Option.some.injEq] at h
      simp [resultsFrom, h]
    | succ i =>
      simp only [List.getElem?_cons_succ] at h
      have := ih (j := j + 1) h
      simp only [resultsFrom, List.mem_cons]
      right
      have h2 : j + 1 + i = j + (i + 1) := by omega
      rw [← h2]; exact this

/-! ## The nodes -/

theorem yieldNode_range (b : Block) : ∀ {lo hi : Nat} {sc : List Nat}, wf lo sc b = some hi →
    lo ≤ b.yieldNode ∧ b.yieldNode < hi := by
  induction b with
  | done y vs => intro lo hi sc h; obtain ⟨h1, -, rfl⟩ := wf_done h; exact ⟨h1, Nat.lt_succ_self _⟩
  | op r k args rest ih =>
    intro lo hi sc h
    obtain ⟨h1, -, h2⟩ := wf_op h
    have := ih h2
    exact ⟨by simp only [Block.yieldNode]; omega, this.2⟩
  | rot r t sh rest ih =>
    intro lo hi sc h
    obtain ⟨h1, -, -, h2⟩ := wf_rot h
    have := ih h2
    exact ⟨by simp only [Block.yieldNode]; omega, this.2⟩
  | opq rs args rest ih =>
    intro lo hi sc h
    obtain ⟨-, m, h1, h2⟩ := wf_opq h
    have := ih h2; have := (inc_asc h1).le
    exact ⟨by simp only [Block.yieldNode]; omega, by simp only [Block.yieldNode]; omega⟩
  | region rs args ivs body rest ihb ih =>
    intro lo hi sc h
    obtain ⟨-, a, b, c, h1, h2, h3, h4⟩ := wf_region h
    have := ih h4; have := (inc_asc h1).le; have := (inc_asc h3).le; have := ihb h2
    exact ⟨by simp only [Block.yieldNode]; omega, by simp only [Block.yieldNode]; omega⟩
  | loop n lb ub st iv inits args rs body rest ihb ih =>
    intro lo hi sc h
    obtain ⟨hh, a, b, c, h1, h2, h3, h4, h5⟩ := wf_loop h
    have := ih h5; have := (inc_asc h1).le; have := (inc_asc h4).le; have := ihb h2
    have := hh.1
    exact ⟨by simp only [Block.yieldNode]; omega, by simp only [Block.yieldNode]; omega⟩
  | ite n c rs hasElse t e rest iht ihe ih =>
    intro lo hi sc h
    obtain ⟨hh, a, b, c', h1, h2, h3, h4, h5⟩ := wf_ite h
    have := ih h5; have := iht h1; have := (inc_asc h4).le; have := ihe h2
    exact ⟨by simp only [Block.yieldNode]; omega, by simp only [Block.yieldNode]; omega⟩

theorem wf_le {b : Block} {lo hi : Nat} {sc : List Nat} (h : wf lo sc b = some hi) : lo ≤ hi := by
  have := yieldNode_range b h; omega

theorem build_asc (b : Block) : ∀ {lo hi : Nat} {sc : List Nat} {ns : List (Nat × Kind ROp)},
    wf lo sc b = some hi → build cs b = some ns → Asc lo (ns.map Prod.fst) hi := by
  induction b with
  | done y vs =>
    intro lo hi sc ns h hb
    obtain ⟨h1, -, rfl⟩ := wf_done h
    simp only [build, Option.some.injEq] at hb
    subst hb
    exact ⟨h1, Nat.le_refl _⟩
  | op r k args rest ih =>
    intro lo hi sc ns h hb
    obtain ⟨h1, -, h2⟩ := wf_op h
    obtain ⟨nd, ns', -, hbr, rfl⟩ := build_op hb
    exact ⟨h1, ih h2 hbr⟩
  | rot r t sh rest ih =>
    intro lo hi sc ns h hb
    obtain ⟨h1, -, -, h2⟩ := wf_rot h
    obtain ⟨ns', hbr, rfl⟩ := build_rot hb
    exact ⟨h1, ih h2 hbr⟩
  | opq rs args rest ih =>
    intro lo hi sc ns h hb
    obtain ⟨-, m, h1, h2⟩ := wf_opq h
    obtain ⟨ns', hbr, rfl⟩ := build_opq hb
    rw [List.map_append, List.map_map]
    refine (inc_asc h1).append (ih h2 hbr) |> fun h => ?_
    convert h using 2
    exact List.map_id' rs
  | region rs args ivs body rest ihb ih =>
    intro lo hi sc ns h hb
    obtain ⟨-, a, b, c, h1, h2, h3, h4⟩ := wf_region h
    obtain ⟨ns', hbr, rfl⟩ := build_region hb
    rw [List.map_append, List.map_map]
    have := (inc_asc h1).le; have := wf_le h2
    refine ((inc_asc h3).append (ih h4 hbr)).weaken (lo' := lo) (by omega) (Nat.le_refl _)
      |> fun h => ?_
    convert h using 2
    exact List.map_id' rs
  | loop n lb ub st iv inits args rs body rest ihb ih =>
    intro lo hi sc ns h hb
    obtain ⟨hh, a, b, c, h1, h2, h3, h4, h5⟩ := wf_loop h
    obtain ⟨l, u, s, ms, ns', -, -, -, hb1, hb2, rfl⟩ := build_loop hb
    simp only [List.map_append, List.map_cons, List.map_map, resultsFrom_keys]
    have e1 : List.map (Prod.fst ∘ fun a => ((a, .var) : Nat × Kind ROp)) args = args :=
      List.map_id' args
    rw [e1]
    have A : Asc lo (iv :: args) a := ⟨hh.1, inc_asc h1⟩
    have B : Asc b (n :: rs) c := ⟨h3, inc_asc h4⟩
    exact ((A.append (ihb h2 hb1)).append B).append (ih h5 hb2)
  | ite n c rs hasElse t e rest iht ihe ih =>
    intro lo hi sc ns h hb
    obtain ⟨hh, a, b, c', h1, h2, h3, h4, h5⟩ := wf_ite h
    obtain ⟨ms, ms', ns', hb1, hb2, hb3, rfl⟩ := build_ite hb
    simp only [List.map_append, List.map_cons, resultsFrom_keys]
    have B : Asc b (n :: rs) c' := ⟨h3, inc_asc h4⟩
    exact (((iht h1 hb1).append (ihe h2 hb2)).append B).append (ih h5 hb3)

theorem node_children {k : K} {args : List Nat} {nd : Kind ROp} (h : node cs k args = some nd) :
    (nd = .var ∨ ∃ o cs, nd = .pure o cs ∧ ∀ c ∈ cs, c ∈ args) := by
  unfold node at h
  split at h
  case h_9 =>
    split at h <;> simp only [Option.some.injEq] at h <;> subst h
    · exact Or.inr ⟨_, _, rfl, by simp⟩
    · exact Or.inl rfl
  case h_7 =>
    obtain ⟨d, -, rfl⟩ := Option.map_eq_some_iff.1 h
    exact Or.inr ⟨_, _, rfl, by simp⟩
  all_goals first
    | (simp only [Option.some.injEq] at h; subst h; exact Or.inr ⟨_, _, rfl, by simp⟩)
    | simp at h

theorem opqNode_children (args : List (Nat × Bool)) :
    opqNode args = .var ∨ ∃ cs, opqNode args = .pure .first cs ∧ cs ≠ [] ∧
      cs = (args.filter (·.2)).map Prod.fst := by
  unfold opqNode
  split
  · exact Or.inl rfl
  · next h => exact Or.inr ⟨_, rfl, h, rfl⟩

theorem opqNode_mem {args : List (Nat × Bool)} {sc : List Nat} (h : ∀ a ∈ args, a.1 ∈ sc) {c : Nat}
    (hc : c ∈ (args.filter (·.2)).map Prod.fst) : c ∈ sc := by
  obtain ⟨a, ha, rfl⟩ := List.mem_map.1 hc
  exact h a (List.mem_filter.1 ha).1

theorem build_ordered (b : Block) : ∀ {lo hi : Nat} {sc : List Nat} {ns : List (Nat × Kind ROp)},
    wf lo sc b = some hi → build cs b = some ns → (∀ v ∈ sc, v < lo) →
    ∀ p ∈ ns, ∀ c ∈ Dag.clearChildren p.2, c < p.1 := by
  induction b with
  | done y vs =>
    intro lo hi sc ns h hb hsc p hp c hc
    obtain ⟨h1, h2, rfl⟩ := wf_done h
    simp only [build, Option.some.injEq] at hb
    subst hb
    simp only [List.mem_singleton] at hp
    subst hp
    have := hsc c (h2 c hc)
    simp only; omega
  | op r k args rest ih =>
    intro lo hi sc ns h hb hsc p hp c hc
    obtain ⟨h1, h2, h3⟩ := wf_op h
    obtain ⟨nd, ns', hn, hbr, rfl⟩ := build_op hb
    rcases List.mem_cons.1 hp with rfl | hp
    · rcases node_children hn with rfl | ⟨o, cs', rfl, h4⟩
      · simp [Dag.clearChildren] at hc
      · have := hsc c (h2 c (h4 c hc))
        simp only; omega
    · refine ih h3 hbr (fun v hv => ?_) p hp c hc
      rcases List.mem_cons.1 hv with rfl | hv
      · omega
      · have := hsc v hv; omega
  | rot r t sh rest ih =>
    intro lo hi sc ns h hb hsc p hp c hc
    obtain ⟨h1, ht, h2, h3⟩ := wf_rot h
    obtain ⟨ns', hbr, rfl⟩ := build_rot hb
    rcases List.mem_cons.1 hp with rfl | hp
    · simp only [Dag.clearChildren, List.mem_cons] at hc
      rcases hc with rfl | hc
      · have := hsc c ht; simp only; omega
      · have := hsc c (h2 c hc); simp only; omega
    · refine ih h3 hbr (fun v hv => ?_) p hp c hc
      rcases List.mem_cons.1 hv with rfl | hv
      · omega
      · have := hsc v hv; omega
  | opq rs args rest ih =>
    intro lo hi sc ns h hb hsc p hp c hc
    obtain ⟨h1, m, h2, h3⟩ := wf_opq h
    obtain ⟨ns', hbr, rfl⟩ := build_opq hb
    rcases List.mem_append.1 hp with hp | hp
    · obtain ⟨r, hr, rfl⟩ := List.mem_map.1 hp
      have hlo := ((inc_asc h2).mem hr).1
      rcases opqNode_children args with h4 | ⟨cs', h4, -, rfl⟩
      · simp [h4, Dag.clearChildren] at hc
      · simp only [h4, Dag.clearChildren] at hc
        have := hsc c (opqNode_mem h1 hc); simp only; omega
    · refine ih h3 hbr (fun v hv => ?_) p hp c hc
      rcases List.mem_append.1 hv with hv | hv
      · exact ((inc_asc h2).mem hv).2
      · have := hsc v hv; have := (inc_asc h2).le; omega
  | region rs args ivs body rest ihb ih =>
    intro lo hi sc ns h hb hsc p hp c hc
    obtain ⟨h0, m1, m2, m3, h1, h2, h3, h4⟩ := wf_region h
    obtain ⟨ns', hbr, rfl⟩ := build_region hb
    have l1 := (inc_asc h1).le
    have l2 := wf_le h2
    have l3 := (inc_asc h3).le
    rcases List.mem_append.1 hp with hp | hp
    · obtain ⟨r, hr, rfl⟩ := List.mem_map.1 hp
      have hlo := ((inc_asc h3).mem hr).1
      rcases opqNode_children args with h4 | ⟨cs', h4, -, rfl⟩
      · simp [h4, Dag.clearChildren] at hc
      · simp only [h4, Dag.clearChildren] at hc
        have := hsc c (opqNode_mem h0 hc); simp only; omega
    · refine ih h4 hbr (fun v hv => ?_) p hp c hc
      rcases List.mem_append.1 hv with hv | hv
      · exact ((inc_asc h3).mem hv).2
      · have := hsc v hv; omega
  | loop n lb ub st iv inits args rs body rest ihb ih =>
    intro lo hi sc ns h hb hsc p hp c hc
    obtain ⟨hh, m1, m2, m3, h1, h2, h3, h4, h5⟩ := wf_loop h
    obtain ⟨l, u, s, ms, ns', -, -, -, hb1, hb2, rfl⟩ := build_loop hb
    have l1 := (inc_asc h1).le
    have l2 := wf_le h2
    have l3 := (inc_asc h4).le
    have l0 := hh.1
    have hy := yieldNode_range body h2
    simp only [List.mem_append, List.mem_cons, List.cons_append, List.append_assoc] at hp
    rcases hp with rfl | hp | hp | rfl | hp | hp
    · simp [Dag.clearChildren] at hc
    · obtain ⟨a, -, rfl⟩ := List.mem_map.1 hp
      simp [Dag.clearChildren] at hc
    · refine ihb h2 hb1 (fun v hv => ?_) p hp c hc
      rcases List.mem_append.1 hv with hv | hv
      · exact ((inc_asc h1).mem hv).2
      · rcases List.mem_cons.1 hv with rfl | hv
        · omega
        · have := hsc v hv; omega
    · simp only [Dag.clearChildren, List.mem_append, List.mem_cons, List.cons_append,
        List.mem_singleton, List.not_mem_nil, or_false] at hc
      simp only
      rcases hc with rfl | (hc | hc) | rfl
      · omega
      · have := hsc c (hh.2.2.2.2.1 c hc); omega
      · have := ((inc_asc h1).mem hc).2; omega
      · omega
    · obtain ⟨i, hi'⟩ := mem_resultsFrom hp
      have hr : p.1 ∈ rs := by
        have := List.mem_map_of_mem (f := Prod.fst) hp
        rwa [resultsFrom_keys] at this
      rw [hi'] at hc
      simp only [Dag.clearChildren, List.mem_singleton] at hc
      have := ((inc_asc h4).mem hr).1
      omega
    · refine ih h5 hb2 (fun v hv => ?_) p hp c hc
      rcases List.mem_append.1 hv with hv | hv
      · exact ((inc_asc h4).mem hv).2
      · have := hsc v hv; omega
  | ite n c' rs hasElse t e rest iht ihe ih =>
    intro lo hi sc ns h hb hsc p hp c hc
    obtain ⟨hh, m1, m2, m3, h1, h2, h3, h4, h5⟩ := wf_ite h
    obtain ⟨ms, ms', ns', hb1, hb2, hb3, rfl⟩ := build_ite hb
    have l1 := wf_le h1
    have l2 := wf_le h2
    have l3 := (inc_asc h4).le
    have hy := yieldNode_range t h1
    have hy' := yieldNode_range e h2
    simp only [List.mem_append, List.mem_cons, List.append_assoc, List.cons_append] at hp
    rcases hp with hp | hp | rfl | hp | hp
    · exact iht h1 hb1 hsc p hp c hc
    · exact ihe h2 hb2 (fun v hv => by have := hsc v hv; omega) p hp c hc
    · simp only [Dag.clearChildren, List.mem_cons, List.not_mem_nil, or_false] at hc
      simp only
      rcases hc with rfl | rfl | rfl
      · have := hsc c hh.1; omega
      · omega
      · omega
    · obtain ⟨i, hi'⟩ := mem_resultsFrom hp
      have hr : p.1 ∈ rs := by
        have := List.mem_map_of_mem (f := Prod.fst) hp
        rwa [resultsFrom_keys] at this
      rw [hi'] at hc
      simp only [Dag.clearChildren, List.mem_singleton] at hc
      have := ((inc_asc h4).mem hr).1
      omega
    · refine ih h5 hb3 (fun v hv => ?_) p hp c hc
      rcases List.mem_append.1 hv with hv | hv
      · exact ((inc_asc h4).mem hv).2
      · have := hsc v hv; omega

/-- A name that is not built is a constant or a variable. -/
theorem heapOf_other {ns : List (Nat × Kind ROp)} {v : Nat} (h : v ∉ ns.map Prod.fst) :
    (heapOf cs ns v = .var ∧ (List.lookup v cs = none ∨ List.lookup v cs = some .float)) ∨
      ∃ c, heapOf cs ns v = .pure (.konst c) [] ∧ List.lookup v cs = some c := by
  have hl : List.lookup v ns = none := by
    cases hl : List.lookup v ns with
    | none => rfl
    | some k => exact absurd (List.mem_map_of_mem (f := Prod.fst) (mem_of_lookup hl)) h
  simp only [heapOf, hl]
  split
  · next h1 => exact Or.inl ⟨rfl, Or.inr h1⟩
  · next c _ h1 => exact Or.inr ⟨c, rfl, h1⟩
  · next h1 => exact Or.inl ⟨rfl, Or.inl h1⟩

theorem heapOf_mem {ns : List (Nat × Kind ROp)} (h : (ns.map Prod.fst).Nodup) {p : Nat × Kind ROp}
    (hp : p ∈ ns) : heapOf cs ns p.1 = p.2 := by
  simp only [heapOf, lookup_of_mem h (show (p.1, p.2) ∈ ns from hp)]

theorem heapOf_ordered {ns : List (Nat × Kind ROp)}
    (h : ∀ p ∈ ns, ∀ c ∈ Dag.clearChildren p.2, c < p.1) : Dag.Ordered (heapOf cs ns) := by
  intro v c hc
  unfold heapOf at hc
  split at hc
  · next k hk => exact h (v, k) (mem_of_lookup hk) c hc
  · split at hc <;> simp [Dag.clearChildren] at hc

theorem heapOf_loop {ns : List (Nat × Kind ROp)} {m : Nat} {l : LoopNode}
    (h : heapOf cs ns m = .loop l) : (m, .loop l) ∈ ns := by
  unfold heapOf at h
  split at h
  · next k hk => rw [← h]; exact mem_of_lookup hk
  · split at h <;> simp at h

end Heir.RotKeys
