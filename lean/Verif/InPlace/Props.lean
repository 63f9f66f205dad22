import Verif.InPlace.Walk
import Verif.InPlace.Mutate

/-! # C85, C86, C87: in-place operations -/

namespace Heir.InPlace

/-! ## Reading hypotheses off a concrete program -/

/-- Checks `WellFormed`. -/
def wfB (n : Nat) : List Nat → List Op → Bool
  | _, [] => true
  | seen, op :: rest =>
    decide (n ≤ op.res) && !seen.contains op.res && (op.uses.all fun v => decide (v < n) || seen.contains v) &&
      (match op.kind with
        | .conv _ _ => true
        | .fetch _ => op.out.isNone && op.args.length == 1
        | _ => op.out.isNone) && wfB n (op.res :: seen) rest

theorem wfB_sound {n : Nat} : ∀ (ops : List Op) (seen : List Nat), wfB n seen ops = true →
    ∀ pre op post, ops = pre ++ op :: post →
    n ≤ op.res ∧ op.res ∉ seen ∧ (∀ o ∈ pre, o.res ≠ op.res) ∧
      (∀ v ∈ op.uses, v < n ∨ v ∈ seen ∨ ∃ o ∈ pre, o.res = v) ∧
      (op.out ≠ none → ∃ f b, op.kind = .conv f b) ∧ (∀ c, op.kind = .fetch c → ∃ a, op.args = [a]) := by
  intro ops
  induction ops with
  | nil => intro seen _ pre op post e; simp at e
  | cons o os ih =>
    intro seen h pre op post e
    simp only [wfB, Bool.and_eq_true, decide_eq_true_eq, Bool.not_eq_true', List.contains_eq_mem,
      decide_eq_false_iff_not, List.all_eq_true, Bool.or_eq_true] at h
    obtain ⟨⟨⟨⟨h1, h2⟩, h3⟩, h4⟩, h5⟩ := h
    cases pre with
    | nil =>
      simp only [List.nil_append, List.cons.injEq] at e
      obtain ⟨rfl, rfl⟩ := e
      refine ⟨h1, h2, by simp, fun v hv => ?_, ?_, ?_⟩
      · rcases h3 v hv with h | h
        · exact Or.inl h
        · exact Or.inr (Or.inl h)
      · intro ho
        cases hk : o.kind with
        | conv f b => exact ⟨f, b, rfl⟩
        | _ => rw [hk] at h4; simp [Option.isNone_iff_eq_none] at h4; simp_all
      · intro c hk
        rw [hk] at h4
        simp only [Bool.and_eq_true, beq_iff_eq] at h4
        exact List.length_eq_one_iff.1 h4.2
    | cons p pre =>
      simp only [List.cons_append, List.cons.injEq] at e
      obtain ⟨rfl, e⟩ := e
      obtain ⟨g1, g2, g3, g4, g5⟩ := ih (o.res :: seen) h5 pre op post e
      simp only [List.mem_cons, not_or] at g2
      refine ⟨g1, g2.2, ?_, ?_, g5⟩
      · intro o' ho'
        rcases List.mem_cons.1 ho' with rfl | ho'
        · exact fun h => g2.1 h.symm
        · exact g3 o' ho'
      · intro v hv
        rcases g4 v hv with h | h | ⟨o', ho', h⟩
        · exact Or.inl h
        · rcases List.mem_cons.1 h with rfl | h
          · exact Or.inr (Or.inr ⟨o, by simp, rfl⟩)
          · exact Or.inr (Or.inl h)
        · exact Or.inr (Or.inr ⟨o', by simp [ho'], h⟩)

theorem wf_of_check {p : Prog} (h : wfB p.nargs [] p.ops = true) : WellFormed p := by
  intro pre op post e
  obtain ⟨g1, -, g3, g4, g5⟩ := wfB_sound p.ops [] h pre op post e
  refine ⟨g1, g3, fun v hv => ?_, g5⟩
  rcases g4 v hv with h | h | h
  · exact Or.inl h
  · cases h
  · exact Or.inr h

instance (ops : List Op) (v : Nat) : Decidable (IsHeld ops v) := by unfold IsHeld; infer_instance

/-- Checks `Clean` and `LevelClean`: what `Q` says of each operation that is in place. -/
theorem inPlace_of_check {p : Prog} {Q : List Op → Op → List Op → Nat → Prop}
    (h : ∀ i < p.ops.length, ∀ op, p.ops[i]? = some op → ∀ s, op.out = some s →
      ∀ v ∈ List.range p.nargs ++ (p.ops.take i).map (·.res), locs p.ops v = locs p.ops s →
        Q (p.ops.take i) op (p.ops.drop (i + 1)) v) :
    ∀ pre op post, p.ops = pre ++ op :: post → ∀ s, op.out = some s → ∀ v, Known p.nargs pre v →
      locs p.ops v = locs p.ops s → Q pre op post v := by
  intro pre op post e s ho v hv hl
  have hi : pre.length < p.ops.length := by rw [e]; simp
  have h1 : p.ops[pre.length]? = some op := by rw [e]; simp
  have h2 : p.ops.take pre.length = pre := by rw [e]; simp
  have h3 : p.ops.drop (pre.length + 1) = post := by rw [e]; simp
  have := h pre.length hi op h1 s ho v (by
    rw [h2]
    rcases hv with hv | ⟨o, ho, rfl⟩
    · exact List.mem_append_left _ (List.mem_range.2 hv)
    · exact List.mem_append_right _ (List.mem_map.2 ⟨o, ho, rfl⟩)) hl
  rwa [h2, h3] at this

theorem isStored_iff {ops : List Op} {v : Nat} : isStored ops v = true ↔ KeptSeen ops v := by
  unfold isStored KeptSeen
  rw [List.any_eq_true]
  constructor
  · rintro ⟨o, ho, h⟩
    refine ⟨o, ho, ?_⟩
    cases hk : o.kind with
    | hold c b =>
      rw [hk] at h
      cases b with
      | true => exact ⟨⟨c, rfl⟩, by simpa using h⟩
      | false => cases h
    | _ => rw [hk] at h; cases h
  · rintro ⟨o, ho, ⟨c, hk⟩, h⟩
    exact ⟨o, ho, by rw [hk]; simpa using h⟩

/-! ## C85: the Lattigo pass and values -/

section
variable {lev : Nat → Option Nat} {p q : Prog}

theorem start (hw : WellFormed p) (hc : Clean p) (hh : HoldsSeen p) (hf : FetchSeen p) (hl : SoleLoads p) :
    Inv p.nargs (initInfo p.ops) [] p.ops := by
  refine inv_init hw hc ?_ ?_ ?_
  · intro v hv
    rw [isStored_iff]
    exact hh v hv
  · intro o ho c hk a ha
    rw [isStored_iff]
    exact hf o ho c hk a ha
  · intro o ho c hk
    obtain ⟨a, h1, h2, h3, h4, h5, h6⟩ := hl o ho c hk
    exact ⟨a, h1, h2, h3, h4, h5, fun _ => h6⟩

/-- **C85.** In the program the Lattigo pass leaves every operation finds in the objects of its operands the values of
the program it was given, and so does, at the end, whoever holds a reference to one, for every meaning of the
operations; provided the operations in place before were (`Clean`), every reference is kept by an operation `isStored`
knows, and what is loaded from memory is loaded once and is nowhere else.  Without these the claim fails, see
`C85_unseen_violated`, `C85_fetch_violated` and `C85_memref_violated`. -/
theorem C85_values_partial {D : Type} (I : Nat → List D → D) (env : Nat → D) (hw : WellFormed p) (hc : Clean p)
    (hh : HoldsSeen p) (hf : FetchSeen p) (hl : SoleLoads p) (h : lattigo lev p = some q) : Right I env p q := by
  obtain ⟨out, ho, rfl⟩ := Option.map_eq_some_iff.1 h
  obtain ⟨st, hi⟩ := inv_go p.ops _ [] out (start hw hc hh hf hl) ho
  have hb := bare_go p.ops _ [] out ho
  refine right_of_bare I env (by simpa using hb) ?_
  have h1 := hi.wf
  have h2 := hi.clean
  rw [List.append_nil] at h1 h2
  exact clean_right I env h1 h2

/-- **C85.** The plain case: allocating operations only, nothing fetched, references kept by stores, insertions and the
return only. -/
theorem C85_allocating_values {D : Type} (I : Nat → List D → D) (env : Nat → D) (hw : WellFormed p)
    (hn : NoInPlace p) (hf : NoFetch p) (hh : ∀ o ∈ p.ops, ∀ c, o.kind ≠ .hold c false) (h : lattigo lev p = some q) :
    Right I env p q := by
  refine C85_values_partial I env hw (clean_of_none hn) ?_ ?_ ?_ h
  · intro v hv
    left
    obtain ⟨o, ho, hvo, c, b, hk⟩ := held_mem hv
    cases b with
    | true => exact ⟨o, ho, ⟨c, hk⟩, hvo⟩
    | false => exact absurd hk (hh o ho c)
  · intro o ho c hk
    exact absurd hk (hf o ho c)
  · intro o ho c hk
    exact absurd hk (hf o ho _)

/-- **C85.** The objects of the arguments are as the caller left them at the end, if the operations in place before do
not write into them and nothing is loaded from memory. -/
theorem C85_arguments {D : Type} (I : Nat → List D → D) (env : Nat → D) (hw : WellFormed p) (hc : Clean p)
    (hh : HoldsSeen p) (hf : FetchSeen p) (hn : ∀ o ∈ p.ops, ∀ c, o.kind ≠ .fetch (some c))
    (ha : ∀ o ∈ p.ops, ∀ s, o.out = some s → p.nargs ≤ locs p.ops s) (h : lattigo lev p = some q) :
    ∀ a < p.nargs, memAll I (locs q.ops) env q.ops a = env a := by
  obtain ⟨out, ho, rfl⟩ := Option.map_eq_some_iff.1 h
  have hl : SoleLoads p := fun o ho c hk => absurd hk (hn o ho c)
  have hi := start hw hc hh hf hl
  have hargs : ∀ o ∈ p.ops, (∃ f, o.kind.fn? = some f) → p.nargs ≤ locs p.ops o.res := by
    intro o ho' hfn
    obtain ⟨A, B, e⟩ := List.append_of_mem ho'
    cases hout : o.out with
    | some s =>
      rw [loc_res_out (n := p.nargs) hw e hout]
      exact ha o ho' s hout
    | none =>
      have hk : ∀ c, o.kind ≠ .fetch c := by
        intro c hk
        obtain ⟨f, hfn⟩ := hfn
        rw [hk] at hfn; cases hfn
      rw [loc_res_own (n := p.nargs) hw e hout hk]
      exact (hw A o B e).1
  have := args_go p.ops _ [] out hi (by simpa using hn) (by simpa using hargs) ho
  intro a han
  refine memAll_args I _ out (fun o hoo hfn he => ?_) env
  have h3 := this o hoo hfn
  simp only at he
  omega

/-- **C85.** If every value has a level the pass comes to an end. -/
theorem C85_defined (l : Nat → Nat) (p : Prog) : ∃ q, lattigo (fun v => some (l v)) p = some q := by
  obtain ⟨out, ho⟩ := go_some (lev := fun v => some (l v)) (fun _ => rfl) p.ops (initInfo p.ops) []
  exact ⟨_, by rw [lattigo, ho]; rfl⟩

end

/-! ### Programs -/

/-- A binary evaluator operation. -/
def bin (f : Nat) (a b r : Nat) : Op := ⟨.conv f true, [a, b], none, r⟩
/-- A unary evaluator operation. -/
def un (f : Nat) (a r : Nat) : Op := ⟨.conv f false, [a], none, r⟩
/-- `func.return`. -/
def ret (as : List Nat) (r : Nat) : Op := ⟨.hold none true, as, none, r⟩

/-- Four operations in a row: the last three can write into the first one's result. -/
def chain : Prog := ⟨2, [bin 0 0 1 2, bin 1 2 2 3, un 2 3 4, bin 3 4 1 5, ret [5] 6]⟩

/-- The pass turns three of the four operations into operations in place. -/
example : (lattigo (fun _ => some 0) chain).map (fun q => q.ops.map (·.out)) =
    some [none, some 2, some 2, some 2, none] := by decide +kernel

example : WellFormed chain ∧ NoInPlace chain ∧ NoFetch chain ∧
    ∀ o ∈ chain.ops, ∀ c, o.kind ≠ .hold c false := by
  refine ⟨wf_of_check (by decide +kernel), ?_, ?_, ?_⟩ <;> simp [NoInPlace, NoFetch, chain, bin, un, ret]

/-- A program with an operation in place already, a value that is inserted into a tensor and extracted again, and the
load–operation–store pattern on the cell `7` (whose contents at the start are the argument `1`). -/
def mixed : Prog := ⟨3, [
  bin 0 0 2 3,
  ⟨.conv 1 false, [3], some 3, 4⟩,
  bin 2 4 0 5,
  ⟨.hold none true, [5], none, 6⟩,
  ⟨.fetch none, [5], none, 7⟩,
  ⟨.fetch (some 7), [1], none, 8⟩,
  bin 3 7 8 9,
  ⟨.hold (some 7) true, [9], none, 10⟩,
  ret [0] 11]⟩

/-- The first of the operations to be converted uses the object of the operation that was in place, the other one
the object in the cell. -/
example : (lattigo (fun _ => some 0) mixed).map (fun q => q.ops.map (·.out)) =
    some [none, some 3, some 3, none, none, none, some 8, none, none] := by decide +kernel

example : WellFormed mixed ∧ Clean mixed ∧ HoldsSeen mixed ∧ FetchSeen mixed ∧ SoleLoads mixed := by
  refine ⟨wf_of_check (by decide +kernel), ?_, ?_, ?_, ?_⟩
  · exact inPlace_of_check (Q := fun _ _ post v => (∀ o ∈ post, v ∉ o.args) ∧ ¬ IsHeld mixed.ops v)
      (by
        intro i hi op hop s hs v hv hl
        have hi : i < 9 := hi
        have : i = 1 := by
          match i, hi with
          | 1, _ => rfl
          | 0, _ | 2, _ | 3, _ | 4, _ | 5, _ | 6, _ | 7, _ | 8, _ =>
            simp only [mixed, bin, ret, List.getElem?_cons_succ, List.getElem?_cons_zero, Option.some.injEq] at hop
            rw [← hop] at hs; cases hs
        subst this
        obtain rfl : op = ⟨.conv 1 false, [3], some 3, 4⟩ := by simpa [mixed, bin] using hop.symm
        obtain rfl : 3 = s := by simpa using hs
        have hv : v ∈ [0, 1, 2, 3] := hv
        simp only [List.mem_cons, List.not_mem_nil, or_false] at hv
        rcases hv with rfl | rfl | rfl | rfl
        · exact absurd hl (by decide +kernel)
        · exact absurd hl (by decide +kernel)
        · exact absurd hl (by decide +kernel)
        · decide +kernel)
  · intro v hv
    obtain ⟨o, ho, hvo, c, b, hk⟩ := held_mem hv
    left
    refine ⟨o, ho, ⟨c, ?_⟩, hvo⟩
    simp only [mixed, bin, ret, List.mem_cons, List.not_mem_nil, or_false] at ho
    rcases ho with rfl | rfl | rfl | rfl | rfl | rfl | rfl | rfl | rfl <;> simp_all
  · intro o ho c hk a ha
    simp only [mixed, bin, ret, List.mem_cons, List.not_mem_nil, or_false] at ho
    rcases ho with rfl | rfl | rfl | rfl | rfl | rfl | rfl | rfl | rfl <;> simp at hk ha <;> subst ha
    · right
      exact ⟨⟨.hold none true, [5], none, 6⟩, by simp [mixed], ⟨none, rfl⟩, by simp⟩
    · left; decide +kernel
  · intro o ho c hk
    simp only [mixed, bin, ret, List.mem_cons, List.not_mem_nil, or_false] at ho
    rcases ho with rfl | rfl | rfl | rfl | rfl | rfl | rfl | rfl | rfl <;> simp at hk
    refine ⟨1, by decide, rfl, by decide +kernel, by decide +kernel, by decide +kernel, ?_⟩
    intro v hv
    by_cases h : v < 12
    · have : ∀ v < 12, locs mixed.ops v = 1 → v = 1 ∨ v = 8 := by decide +kernel
      exact this v h hv
    · rw [locs_unknown (by
        intro o ho
        have : ∀ o ∈ mixed.ops, o.res < 12 := by decide +kernel
        have := this o ho
        omega)] at hv
      omega

/-- A reading of the operations under which different computations have different results. -/
def tally (f : Nat) (xs : List Nat) : Nat := 100 * (f + 1) + xs.foldl (fun a x => 3 * a + x) 0

/-- `tensor.from_elements` keeps a reference `isStored` does not know of. -/
def unseen : Prog := ⟨2, [bin 0 0 1 2, ⟨.hold none false, [2], none, 3⟩, bin 1 0 1 4, ret [4] 5]⟩

/-- **C85, violated.** A ciphertext collected into a tensor by `tensor.from_elements` is overwritten by the next
operation. -/
theorem C85_unseen_violated : WellFormed unseen ∧ NoInPlace unseen ∧ NoFetch unseen ∧
    ∃ q, lattigo (fun _ => some 0) unseen = some q ∧ ¬ Right tally id unseen q := by
  refine ⟨wf_of_check (by decide +kernel), ?_, ?_, _, rfl, ?_⟩
  · simp [NoInPlace, unseen, bin, ret]
  · simp [NoFetch, unseen, bin, ret]
  · unfold Right; decide +kernel

/-- The result of a loop that does not run is its initial value. -/
def fetched : Prog := ⟨2, [bin 0 0 1 2, ⟨.fetch none, [2], none, 3⟩, bin 1 0 1 4, ret [3, 4] 5]⟩

/-- **C85, violated.** The initial value of a loop counts as dead behind the loop though the loop's result may be that
object. -/
theorem C85_fetch_violated : WellFormed fetched ∧ NoInPlace fetched ∧ HoldsSeen fetched ∧
    ∃ q, lattigo (fun _ => some 0) fetched = some q ∧ ¬ Right tally id fetched q := by
  refine ⟨wf_of_check (by decide +kernel), ?_, ?_, _, rfl, ?_⟩
  · simp [NoInPlace, fetched, bin, ret]
  · intro v hv
    obtain ⟨o, ho, hvo, c, b, hk⟩ := held_mem hv
    left
    refine ⟨o, ho, ⟨c, ?_⟩, hvo⟩
    simp only [fetched, bin, ret, List.mem_cons, List.not_mem_nil, or_false] at ho
    rcases ho with rfl | rfl | rfl | rfl <;> simp_all
  · unfold Right; decide +kernel

/-- A cell read twice, written back once, the first value still of use. -/
def twice : Prog := ⟨2, [⟨.fetch (some 0), [0], none, 2⟩, ⟨.fetch (some 0), [0], none, 3⟩, bin 0 3 1 4,
  ⟨.hold (some 0) true, [4], none, 5⟩, ⟨.plain 1, [2], none, 6⟩]⟩

/-- **C85, violated.** The load–operation–store pattern overwrites the ciphertext in the cell though another value
loaded from it before is used later. -/
theorem C85_memref_violated : WellFormed twice ∧ NoInPlace twice ∧ HoldsSeen twice ∧ FetchSeen twice ∧
    ∃ q, lattigo (fun _ => some 0) twice = some q ∧ ¬ Right tally id twice q := by
  refine ⟨wf_of_check (by decide +kernel), ?_, ?_, ?_, _, rfl, ?_⟩
  · simp [NoInPlace, twice, bin]
  · intro v hv
    obtain ⟨o, ho, hvo, c, b, hk⟩ := held_mem hv
    left
    refine ⟨o, ho, ⟨c, ?_⟩, hvo⟩
    simp only [twice, bin, List.mem_cons, List.not_mem_nil, or_false] at ho
    rcases ho with rfl | rfl | rfl | rfl | rfl <;> simp_all
  · intro o ho c hk a ha
    simp only [twice, bin, List.mem_cons, List.not_mem_nil, or_false] at ho
    left
    rcases ho with rfl | rfl | rfl | rfl | rfl <;> simp at hk ha <;> subst ha <;> decide +kernel
  · unfold Right; decide +kernel

/-- **C85, violated.** The pattern asks for the level of a value that has none. -/
theorem C85_undefined : ∃ p, WellFormed p ∧ NoInPlace p ∧ lattigo (fun _ => none) p = none := by
  refine ⟨⟨2, [⟨.fetch (some 0), [0], none, 2⟩, bin 0 2 1 3, ⟨.hold (some 0) true, [3], none, 4⟩]⟩,
    wf_of_check (by decide +kernel), ?_, by decide +kernel⟩
  simp [NoInPlace, bin]

/-! ## C86: the Lattigo pass and levels -/

/-- **C86.** In the program the Lattigo pass leaves the object of each result is, when it has been written, at the level
the analysis has for the result, though the backend gives a result written into an object no more levels than the object
has; provided this was so before (`LevelClean`) and for the ciphertexts loaded from memory (`LoadsAbove`). -/
theorem C86_levels_partial {l : Nat → Nat} {p q : Prog} (hw : WellFormed p) (hc : Clean p) (hh : HoldsSeen p)
    (hf : FetchSeen p) (hl : SoleLoads p) (hlc : LevelClean l p) (hla : LoadsAbove l p)
    (h : lattigo (fun v => some (l v)) p = some q) :
    ∀ o ∈ q.ops.zip (lvlsFrom l (locs q.ops) l q.ops), (∃ f, o.1.kind.fn? = some f) → o.2 = l o.1.res := by
  obtain ⟨out, ho, rfl⟩ := Option.map_eq_some_iff.1 h
  have hs := start hw hc hh hf hl
  obtain ⟨st, hi⟩ := inv_go p.ops _ [] out hs ho
  have hwf := hi.wf
  rw [List.append_nil] at hwf
  have hri : Rising l ([] ++ p.ops) (initInfo p.ops) := fun e he => Or.inr
    (init_rising (n := p.nargs) hw hlc (fun o ho c hk a ha => by
      rw [isStored_iff]; exact hf o ho c hk a ha) p.ops [] (by simp) e he)
  have hlq := rising_go (fun _ => rfl) p.ops _ [] out hs hri hlc hla ho
  refine lvls_right l hwf hlq out [] l rfl ?_ fun _ _ => rfl
  rintro v (hv | ⟨o, ho, _⟩)
  · exact ⟨v, Or.inl hv, rfl, by rw [loc_arg hwf hv]⟩
  · cases ho

/-- Levels for which two of the four operations of `chain` can use the first result. -/
def chainLevels : Nat → Nat := fun v => if v = 4 then 1 else if v = 5 then 0 else 0

example : LevelClean chainLevels chain ∧ LoadsAbove chainLevels chain ∧
    (lattigo (fun v => some (chainLevels v)) chain).map (fun q => q.ops.map (·.out)) =
      some [none, some 2, some 2, none, none] := by
  refine ⟨?_, ?_, by decide +kernel⟩
  · intro pre op post e s ho
    have hm : op ∈ chain.ops := by simp [e]
    have : ∀ o ∈ chain.ops, o.out = none := by simp [chain, bin, un, ret]
    rw [this op hm] at ho; cases ho
  · intro o ho c hk
    have : ∀ o ∈ chain.ops, ∀ c, o.kind ≠ .fetch c := by simp [chain, bin, un, ret]
    exact absurd hk (this o ho _)

/-- A cell whose ciphertext has consumed two levels, and an operation at level zero on it. -/
def lowCell : Prog := ⟨2, [⟨.fetch (some 0), [0], none, 2⟩, bin 0 2 1 3, ⟨.hold (some 0) true, [3], none, 4⟩]⟩

/-- **C86, violated.** The load–operation–store pattern does not look at levels: the result is written into an object
with fewer levels. -/
theorem C86_memref_violated : ∃ l : Nat → Nat, WellFormed lowCell ∧ NoInPlace lowCell ∧ SoleLoads lowCell ∧
    ∃ q, lattigo (fun v => some (l v)) lowCell = some q ∧
      ¬ ∀ o ∈ q.ops.zip (lvlsFrom l (locs q.ops) l q.ops), (∃ f, o.1.kind.fn? = some f) → o.2 = l o.1.res := by
  refine ⟨fun v => if v = 0 ∨ v = 2 then 2 else 0, wf_of_check (by decide +kernel), ?_, ?_, _, rfl, ?_⟩
  · simp [NoInPlace, lowCell, bin]
  · intro o ho c hk
    simp only [lowCell, bin, List.mem_cons, List.not_mem_nil, or_false] at ho
    rcases ho with rfl | rfl | rfl <;> simp at hk
    refine ⟨0, by decide, rfl, by decide +kernel, by decide +kernel, by decide +kernel, ?_⟩
    intro v hv
    by_cases h : v < 5
    · have : ∀ v < 5, locs lowCell.ops v = 0 → v = 0 ∨ v = 2 := by decide +kernel
      exact this v h hv
    · rw [locs_unknown (by
        intro o ho
        have : ∀ o ∈ lowCell.ops, o.res < 5 := by decide +kernel
        have := this o ho
        omega)] at hv
      omega
  · intro h
    have := h (⟨.conv 0 true, [2, 1], some 2, 3⟩, 2) (by decide +kernel) ⟨0, rfl⟩
    revert this
    decide +kernel

/-! ## C87: the OpenFHE pass -/

/-- **C87.** In the program the OpenFHE pass leaves every operation finds in the objects of its operands the values of
the program it was given, and so does, at the end, whoever holds a reference, on a block of allocating operations that
fetches nothing and keeps references (returns) only at its end. Without these the claim fails, see
`C87_insert_violated` and `C87_extract_violated`. -/
theorem C87_values_partial {D : Type} (I : Nat → List D → D) (env : Nat → D) {p : Prog} (hw : WellFormed p)
    (hn : NoInPlace p) (hf : NoFetch p) (hh : HoldsLast p) : Right I env p (openfhe p) := by
  have hi : MInv p.nargs [] p.ops := by
    refine ⟨hw, clean_of_none hn, hf, hh, hn, ?_⟩
    intro u v hu hv hne hl
    exfalso
    have harg : ∀ x, Known p.nargs [] x → locs ([] ++ p.ops) x = x := by
      rintro x (hx | ⟨o, ho, _⟩)
      · exact loc_arg (n := p.nargs) hw hx
      · cases ho
    rw [harg u hu, harg v hv] at hl
    exact hne hl
  obtain ⟨h1, h2⟩ := minv_go p.ops [] [] hi
  have h3 := h1.wf
  have h4 := h1.clean
  rw [List.append_nil] at h3 h4
  exact right_of_bare I env (q := openfhe p) h2 (clean_right I env h3 h4)

/-- The pass turns the four operations of `chain` into operations in place, the first of them on an argument. -/
example : (openfhe chain).ops.map (·.out) = [some 0, some 2, some 3, some 4, none] := by decide +kernel

example : WellFormed chain ∧ NoInPlace chain ∧ NoFetch chain ∧ HoldsLast chain := by
  refine ⟨wf_of_check (by decide +kernel), ?_, ?_, ?_⟩
  · simp [NoInPlace, chain, bin, un, ret]
  · simp [NoFetch, chain, bin, un, ret]
  · intro pre op post e hk o ho f b
    have hlen : pre.length < 5 := by
      have := congrArg List.length e
      simp only [List.length_append, List.length_cons] at this
      have h5 : chain.ops.length = 5 := rfl
      omega
    have h1 : chain.ops[pre.length]? = some op := by rw [e]; simp
    have h3 : chain.ops.drop (pre.length + 1) = post := by rw [e]; simp
    have hall : ∀ i < 5, ∀ o ∈ chain.ops.drop (i + 1), (∃ op, chain.ops[i]? = some op ∧
        (match op.kind with | .hold _ _ => true | _ => false) = true) →
        (match o.kind with | .conv _ _ => true | _ => false) = false := by
      intro i hi o ho ⟨op, hop, hk⟩
      match i, hi with
      | 0, _ | 1, _ | 2, _ | 3, _ =>
        simp only [chain, bin, un, ret, List.getElem?_cons_succ, List.getElem?_cons_zero, Option.some.injEq] at hop
        rw [← hop] at hk; cases hk
      | 4, _ => simp [chain] at ho
    obtain ⟨c, b', hk⟩ := hk
    have := hall pre.length hlen o (by rw [h3]; exact ho) ⟨op, h1, by rw [hk]⟩
    intro hc
    rw [hc] at this
    cases this

/-- A value inserted into a tensor, then an operand that is not used again. -/
def inserted : Prog := ⟨2, [bin 0 0 1 2, ⟨.hold none true, [2], none, 3⟩, bin 1 2 1 4, ret [4] 5]⟩

/-- **C87, violated.** A ciphertext that was inserted into a tensor is overwritten in the tensor. -/
theorem C87_insert_violated : WellFormed inserted ∧ NoInPlace inserted ∧ NoFetch inserted ∧
    ¬ Right tally id inserted (openfhe inserted) := by
  refine ⟨wf_of_check (by decide +kernel), ?_, ?_, ?_⟩
  · simp [NoInPlace, inserted, bin, ret]
  · simp [NoFetch, inserted, bin, ret]
  · unfold Right; decide +kernel

/-- Two extractions of one element of a tensor. -/
def extracted : Prog := ⟨2, [⟨.fetch none, [0], none, 2⟩, bin 0 2 1 3, ⟨.fetch none, [0], none, 4⟩, bin 1 3 4 5,
  ret [5] 6]⟩

/-- **C87, violated.** A ciphertext extracted from a tensor is overwritten in the tensor, and the second extraction
finds the wrong one. -/
theorem C87_extract_violated : WellFormed extracted ∧ NoInPlace extracted ∧
    ¬ Right tally id extracted (openfhe extracted) := by
  refine ⟨wf_of_check (by decide +kernel), ?_, ?_⟩
  · simp [NoInPlace, extracted, bin, ret]
  · unfold Right; decide +kernel

/-- **C87, violated.** The caller's ciphertexts are overwritten: after the first operation of `chain` the first argument
is the sum. -/
theorem C87_arguments_violated : WellFormed chain ∧ NoInPlace chain ∧
    ∃ a < chain.nargs, memAll tally (locs (openfhe chain).ops) id (openfhe chain).ops a ≠ a := by
  refine ⟨wf_of_check (by decide +kernel), ?_, 0, by decide, by decide +kernel⟩
  simp [NoInPlace, chain, bin, un, ret]

end Heir.InPlace
