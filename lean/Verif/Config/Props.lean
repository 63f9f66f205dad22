import Verif.Config.Lemmas

/-! # Properties of the configuration of the crypto context -/

namespace Heir.Config

/-! ### C191: functions and their callees -/

/-- C191: the walk over a function and its callees ends, for all call graphs, with recursion or without. -/
theorem C191_ends {calls : Nat → List Nat} (hit : Nat → Bool) {n entry : Nat} (he : entry < n)
    (hn : ∀ f, ∀ g ∈ calls f, g < n) : ∃ k b, walk calls hit k [entry] [] = some b :=
  walk_ends hit hn [entry] [] (by simpa using he)

/-- C191: it is interrupted if and only if some function that can be reached has what is looked for. -/
theorem C191_reaches {calls : Nat → List Nat} {hit : Nat → Bool} {k entry : Nat} {b : Bool}
    (h : walk calls hit k [entry] [] = some b) :
    b = true ↔ ∃ f, Reaches calls entry f ∧ hit f = true :=
  walk_sound ⟨fun f hf => by
    have : f = entry := by simpa using hf
    exact this ▸ Relation.ReflTransGen.refl, by simp, by simp, by simp⟩ h

/-- Two functions that call each other, and one that calls itself. -/
def recursive : Nat → List Nat
  | 0 => [1, 2]
  | 1 => [0, 3, 1]
  | _ => []

example : walk recursive (· == 3) 10 [0] [] = some true ∧ walk recursive (· == 4) 10 [0] [] = some false := by
  decide

/-- A function that is called twice is walked twice, also by each of two walks. -/
example : visits (fun f => if f < 3 then [f + 1, f + 1] else []) 20 [0] [] = 15 := by decide

/-! ### C192: keys and features -/

theorem has_iff {m : Module} {p : Kind → Bool} {k entry : Nat} {b : Bool} (h : has m p k entry = some b) :
    b = true ↔ ∃ f, Reaches m.calls entry f ∧ ∃ op ∈ m.ops f, p op = true := by
  rw [C191_reaches h]
  simp only [List.any_eq_true]

/-- C192, for programs without squares and a successful analysis of rotations: all that an operation needs
that can be executed is generated.  Missing: squares, and analyses that fail. -/
theorem C192_needs_partial {m : Module} {rots : List Int} {k entry : Nat} {o : Outcome}
    (h : run m (some rots) k entry = some o)
    (hr : ∀ f, Reaches m.calls entry f → ∀ s, Kind.rot s ∈ m.ops f → s ∈ rots) :
    ∃ r, o.generated = some r ∧ ∀ f, Reaches m.calls entry f → ∀ op ∈ m.ops f,
      op ≠ .square → op ≠ .squareInPlace → ∀ x ∈ needs op, x ∈ r := by
  simp only [run, getConfig, Option.map_eq_some_iff, Option.bind_eq_some_iff] at h
  obtain ⟨c, ⟨boot, hb, adv, ha, relin, hl, rfl⟩, rfl⟩ := h
  refine ⟨_, rfl, fun f hf op ho h1 h2 x hx => ?_⟩
  have hb' := fun hp => (has_iff hb).2 ⟨f, hf, op, ho, hp⟩
  have ha' := fun hp => (has_iff ha).2 ⟨f, hf, op, ho, hp⟩
  have hl' := fun hp => (has_iff hl).2 ⟨f, hf, op, ho, hp⟩
  cases op with
  | mul => simp only [needs, List.mem_singleton] at hx; subst hx; simp [provided, hl' rfl]
  | mulNoRelin => simp [needs] at hx
  | mulPlain => simp [needs] at hx
  | square => exact absurd rfl h1
  | squareInPlace => exact absurd rfl h2
  | relin => simp only [needs, List.mem_singleton] at hx; subst hx; simp [provided, hl' rfl]
  | relinInPlace => simp only [needs, List.mem_singleton] at hx; subst hx; simp [provided, hl' rfl]
  | chebyshev =>
    simp only [needs, List.mem_cons, List.not_mem_nil, or_false] at hx
    rcases hx with rfl | rfl
    · simp [provided, hl' rfl]
    · simp [provided, ha' rfl]
  | bootstrap =>
    simp only [needs, List.mem_cons, List.not_mem_nil, or_false] at hx
    rcases hx with rfl | rfl | rfl | rfl <;> simp [provided, hb' rfl]
  | rot s =>
    simp only [needs, List.mem_singleton] at hx
    subst hx
    simp [provided, hr f hf s ho]
  | other => simp [needs] at hx

/-- C192: nothing else is generated: every key belongs to a rotation or to an operation that can be
executed and needs it. -/
theorem C192_only {m : Module} {rots : Option (List Int)} {k entry : Nat} {o : Outcome}
    (h : run m rots k entry = some o) {r : List Resource} (hg : o.generated = some r) {x : Resource}
    (hx : x ∈ r) : (∃ l, rots = some l ∧ ∃ s ∈ l, x = .rotKey s) ∨
      ∃ f, Reaches m.calls entry f ∧ ∃ op ∈ m.ops f,
        x ∈ needs op ∨ (op = .bootstrap ∧ x = .advancedShe) := by
  simp only [run, getConfig, Option.map_eq_some_iff, Option.bind_eq_some_iff] at h
  obtain ⟨c, ⟨boot, hb, adv, ha, relin, hl, rfl⟩, rfl⟩ := h
  simp only [Option.map_eq_some_iff] at hg
  obtain ⟨l, rfl, rfl⟩ := hg
  have hboot : boot = true → ∃ f, Reaches m.calls entry f ∧ Kind.bootstrap ∈ m.ops f := fun hp => by
    obtain ⟨f, h1, op, h2, h3⟩ := (has_iff hb).1 hp
    cases op <;> simp [isBootstrap] at h3
    exact ⟨f, h1, h2⟩
  have hadv : adv = true → ∃ f, Reaches m.calls entry f ∧ Kind.chebyshev ∈ m.ops f := fun hp => by
    obtain ⟨f, h1, op, h2, h3⟩ := (has_iff ha).1 hp
    cases op <;> simp [isAdvanced] at h3
    exact ⟨f, h1, h2⟩
  have hrel : relin = true → ∃ f, Reaches m.calls entry f ∧ ∃ op ∈ m.ops f, Resource.mulKey ∈ needs op :=
    fun hp => by
      obtain ⟨f, h1, op, h2, h3⟩ := (has_iff hl).1 hp
      exact ⟨f, h1, op, h2, by cases op <;> simp [isRelin] at h3 <;> simp [needs]⟩
  simp only [provided, List.mem_append, List.mem_map] at hx
  rcases hx with (((hx | hx) | hx) | ⟨s, hs, rfl⟩) | hx
  · split at hx
    · rename_i hc
      simp only [List.mem_singleton] at hx
      subst hx
      rw [Bool.or_eq_true] at hc
      rcases hc with hc | hc
      · obtain ⟨f, h1, h2⟩ := hadv hc
        exact Or.inr ⟨f, h1, _, h2, Or.inl (by simp [needs])⟩
      · obtain ⟨f, h1, h2⟩ := hboot hc
        exact Or.inr ⟨f, h1, _, h2, Or.inr ⟨rfl, rfl⟩⟩
    · simp at hx
  · split at hx
    · rename_i hc
      simp only [List.mem_singleton] at hx
      subst hx
      obtain ⟨f, h1, h2⟩ := hboot hc
      exact Or.inr ⟨f, h1, _, h2, Or.inl (by simp [needs])⟩
    · simp at hx
  · split at hx
    · rename_i hc
      simp only [List.mem_singleton] at hx
      subst hx
      rw [Bool.or_eq_true] at hc
      rcases hc with hc | hc
      · obtain ⟨f, h1, op, h2, h3⟩ := hrel hc
        exact Or.inr ⟨f, h1, op, h2, Or.inl h3⟩
      · obtain ⟨f, h1, h2⟩ := hboot hc
        exact Or.inr ⟨f, h1, _, h2, Or.inl (by simp [needs])⟩
    · simp at hx
  · exact Or.inl ⟨l, rfl, s, hs, rfl⟩
  · split at hx
    · rename_i hc
      obtain ⟨f, h1, h2⟩ := hboot hc
      refine Or.inr ⟨f, h1, _, h2, Or.inl ?_⟩
      simp only [List.mem_cons, List.not_mem_nil, or_false] at hx
      rcases hx with rfl | rfl <;> simp [needs]
    · simp at hx

/-- C192 fails for squares, which OpenFHE relinearizes: no key is generated. -/
theorem C192_violated_square : run [⟨[.square], []⟩] (some []) 1 0 = some ⟨true, some []⟩ ∧
    Resource.mulKey ∈ needs .square := by decide

/-- C192 fails if the analysis of rotations fails: the pass succeeds and generates nothing. -/
theorem C192_violated_silent : run [⟨[.mul, .rot 1], []⟩] none 1 0 = some ⟨true, none⟩ := by decide

example : run [⟨[.other], [1]⟩, ⟨[.rot 3, .chebyshev], [0, 2]⟩, ⟨[.mulPlain], []⟩] (some [3]) 10 0 =
    some ⟨true, some [.advancedShe, .mulKey, .rotKey 3]⟩ := by decide

/-! ### C193: additions and key switches -/

/-- C193, for programs in which reduced ciphertexts are operands of products only, and in which the first
of several ciphertexts that are put together has the largest counts: the noise of every value that is
not a reduced ciphertext is at most that of the counts in the attribute.  Missing: other programs. -/
theorem C193_bound_partial {gs : List (List Op)} {start : Count} {j : Nat} {prog : List Op}
    (hj : gs[j]? = some prog) (hw : WellFormed prog) {V K R : Nat} {ns : List (Option Nat)}
    (hr : Runs V K R prog ns) {i : Nat} (hi : ∀ c, prog[i]? ≠ some (.modReduce c)) {x : Nat}
    (hx : noise ns i = some x) :
    ∃ c, (annotate start gs)[j]? = some c ∧ x ≤ c.1 * V + c.2 * K := by
  induction gs generalizing start j with
  | nil => simp at hj
  | cons g gs ih =>
    cases j with
    | zero =>
      simp only [List.getElem?_cons_zero, Option.some.injEq] at hj
      subst hj
      refine ⟨_, rfl, ?_⟩
      have h1 := runs_le hr i
      rw [hx, (worst_counts V K R hw i).2 hi] at h1
      cases hs : state (counts g) i with
      | none => rw [hs] at h1; exact h1.elim
      | some c =>
        rw [hs] at h1
        have h2 := maxCounts_ge (state_mem hs) start
        exact Nat.le_trans h1
          (Nat.add_le_add (Nat.mul_le_mul_right _ h2.1) (Nat.mul_le_mul_right _ h2.2))
    | succ j => exact ih hj

/-- C193: for such programs the counts of every value are exact: some run has this noise. -/
theorem C193_exact {prog : List Op} (hw : WellFormed prog) (V K R : Nat) :
    ∃ ns, Runs V K R prog ns ∧ ∀ i, (∀ c, prog[i]? ≠ some (.modReduce c)) →
      noise ns i = (state (counts prog) i).map fun c => c.1 * V + c.2 * K := by
  refine ⟨worst V K R prog, ⟨worst_length V K R prog, fun i op h => ?_⟩,
    fun i hi => (worst_counts V K R hw i).2 hi⟩
  rw [worst_get V K R h]
  cases limit V K R ((worst V K R prog).take i) op with
  | none => trivial
  | some x => exact Nat.le_refl x

/-- C193 fails for sums of reduced ciphertexts, which are not counted. -/
theorem C193_violated_reduced (V K : Nat) : ∃ (prog : List Op) (ns : List (Option Nat)),
    Runs V K 5 prog ns ∧ noise ns 2 = some 10 ∧ state (counts prog) 2 = some (0, 0) := by
  refine ⟨[.input, .modReduce 0, .add 1 1], [some V, some 5, some 10], ⟨rfl, fun i op h => ?_⟩, rfl, rfl⟩
  match i, h with
  | 0, h => cases h; exact Nat.le_refl _
  | 1, h => cases h; exact Nat.le_refl _
  | 2, h => cases h; exact Nat.le_refl 10
  | i + 3, h => simp at h

/-- C193 fails for a slice inserted into a tensor with more noise: the counts of the slice are taken. -/
theorem C193_violated_insert : ∃ (prog : List Op) (ns : List (Option Nat)),
    Runs 1 1 0 prog ns ∧ noise ns 3 = some 2 ∧ state (counts prog) 3 = some (1, 0) := by
  refine ⟨[.input, .input, .add 0 1, .other [0, 2]], [some 1, some 1, some 2, some 2],
    ⟨rfl, fun i op h => ?_⟩, rfl, rfl⟩
  match i, h with
  | 0, h => cases h; exact Nat.le_refl 1
  | 1, h => cases h; exact Nat.le_refl 1
  | 2, h => cases h; exact Nat.le_refl 2
  | 3, h => cases h; exact Nat.le_refl 2
  | i + 4, h => simp at h

/-- A product of sums after a reduction. -/
def sums : List Op := [.input, .input, .plain, .add 0 1, .add 3 2, .modReduce 4, .mul 5 5, .switch 6, .add 7 7,
  .other [8]]

example : WellFormed sums := by
  have h : ∀ pre op, WellFormed pre → Fine pre op → WellFormed (pre ++ [op]) := fun _ _ => .snoc
  exact h [.input, .input, .plain, .add 0 1, .add 3 2, .modReduce 4, .mul 5 5, .switch 6, .add 7 7] _
    (h [.input, .input, .plain, .add 0 1, .add 3 2, .modReduce 4, .mul 5 5, .switch 6] _
    (h [.input, .input, .plain, .add 0 1, .add 3 2, .modReduce 4, .mul 5 5] _
    (h [.input, .input, .plain, .add 0 1, .add 3 2, .modReduce 4] _
    (h [.input, .input, .plain, .add 0 1, .add 3 2] _
    (h [.input, .input, .plain, .add 0 1] _
    (h [.input, .input, .plain] _ (h [.input, .input] _ (h [.input] _ (h [] _ .nil trivial) trivial) trivial)
    (by simp [Fine])) (by simp [Fine])) trivial) trivial) (by simp [Fine])) (by simp [Fine]))
    ⟨by simp, by decide⟩

example : annotate (0, 0) [sums, [.input]] = [(2, 2), (2, 2)] := by decide

/-! ### C194: the depth -/

/-- C194: the option is taken as it is. -/
theorem C194_option {option : Nat} (h : option ≠ 0) (level : Option Nat) (depths : List Nat) (boot : Bool)
    (bd : Nat) : depth option level depths boot bd = option := by
  simp [depth, h]

theorem foldl_ge {l : List Nat} (m : Nat) :
    m ≤ l.foldl (fun m x => if m < x then x else m) m ∧
    ∀ x ∈ l, x ≤ l.foldl (fun m x => if m < x then x else m) m := by
  induction l generalizing m with
  | nil => simp
  | cons y l ih =>
    obtain ⟨h1, h2⟩ := ih (if m < y then y else m)
    simp only [List.foldl_cons]
    refine ⟨?_, fun x hx => ?_⟩
    · split at h1 <;> split <;> omega
    · rcases List.mem_cons.1 hx with rfl | hx
      · split at h1 <;> split <;> omega
      · exact h2 x hx

theorem analysis_true (c : Nat) {path : List Kind}
    (h : ∀ k ∈ path, k ≠ .square ∧ k ≠ .squareInPlace ∧ k ≠ .chebyshev) :
    analysisDepth path = trueDepth c path := by
  suffices key : ∀ d, path.foldl (fun d k => if k = .bootstrap then 0 else d + increases k) d =
      path.foldl (fun d k => if k = .bootstrap then 0 else d + consumes c k) d from key 0
  induction path with
  | nil => intro d; rfl
  | cons k path ih =>
    intro d
    simp only [List.foldl_cons]
    have : increases k = consumes c k := by
      have := h k List.mem_cons_self
      cases k <;> simp_all [increases, consumes]
    rw [this]
    exact ih (fun x hx => h x (List.mem_cons_of_mem _ hx)) _

/-- C194, for programs without squares and series, and without scheme parameters: the depth is enough for
the operations before any value and for bootstrapping.  Missing: squares and series, scheme
parameters with bootstrapping. -/
theorem C194_covers_partial (paths : List (List Kind)) (boot : Bool) (bd c : Nat) {path : List Kind}
    (hp : path ∈ paths) (h : ∀ k ∈ path, k ≠ .square ∧ k ≠ .squareInPlace ∧ k ≠ .chebyshev) :
    trueDepth c path + (if boot then bd else 0) ≤
      depth 0 none (paths.map analysisDepth) boot bd := by
  rw [← analysis_true c h]
  have := (foldl_ge (l := paths.map analysisDepth) 0).2 _ (List.mem_map_of_mem hp)
  simp only [depth, if_true, Option.getD_none]
  omega

/-- C194: without the option and scheme parameters, the depth is that of some value. -/
theorem C194_attained (paths : List (List Kind)) (bd : Nat) :
    depth 0 none (paths.map analysisDepth) false bd = 0 ∨
      ∃ path ∈ paths, depth 0 none (paths.map analysisDepth) false bd = analysisDepth path := by
  have key : ∀ (l : List Nat) (m : Nat), l.foldl (fun m x => if m < x then x else m) m = m ∨
      l.foldl (fun m x => if m < x then x else m) m ∈ l := by
    intro l
    induction l with
    | nil => intro m; exact Or.inl rfl
    | cons y l ih =>
      intro m
      simp only [List.foldl_cons]
      rcases ih (if m < y then y else m) with h | h
      · rw [h]
        split
        · exact Or.inr List.mem_cons_self
        · exact Or.inl rfl
      · exact Or.inr (List.mem_cons_of_mem _ h)
  simp only [depth, if_true, Option.getD_none, Bool.false_eq_true, if_false, Nat.add_zero]
  rcases key (paths.map analysisDepth) 0 with h | h
  · exact Or.inl h
  · obtain ⟨p, h1, h2⟩ := List.mem_map.1 h
    exact Or.inr ⟨p, h1, h2.symm⟩

/-- C194, BFV with a depth: it is the only one of the three parameters that is set.  Missing: programs of
depth zero. -/
theorem C194_bfv_partial {d : Nat} (hd : d ≠ 0) (attr : Option (Nat × Nat)) :
    counts3 true d attr = (d, 0, 0) := by simp [counts3, hd]

/-- C194: the other schemes get the depth and both counts. -/
theorem C194_other (d : Nat) (a s : Nat) : counts3 false d (some (a, s)) = (d, a, s) := by simp [counts3]

/-- C194 fails for BFV programs of depth zero: both counts are set. -/
theorem C194_violated_bfv : counts3 true 0 (some (3, 2)) = (0, 3, 2) := rfl

/-- C194 fails for scheme parameters: the depth of bootstrapping is not added to their level. -/
theorem C194_violated_scheme {l : Nat} (h : l ≠ 0) (depths : List Nat) (bd : Nat) :
    depth 0 (some l) depths true bd = l := by simp [depth, h]

/-- C194 fails for squares, which are not counted. -/
theorem C194_violated_square : ∃ path, trueDepth 0 path = 2 ∧ depth 0 none [analysisDepth path] false 0 = 1 :=
  ⟨[.mul, .square], by decide, by decide⟩

example : depth 0 none ([[Kind.mul, .relin, .mulPlain], [.mul, .bootstrap, .mul]].map analysisDepth) true 14 = 16 ∧
    trueDepth 0 [.mul, .relin, .mulPlain] = 2 := by decide

end Heir.Config
