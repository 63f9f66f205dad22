import Verif.LayoutOpt.Lemmas3
import Mathlib.Algebra.BigOperators.Group.List.Lemmas

/-!
# Rewrites of programs with layouts and the choice of a hoisting: properties
-/

namespace Heir.LayoutOpt

variable {L F T : Type} [DecidableEq L] {ok : F → List L → L → Prop}
  {plain : Nat → T} {ap : F → List T → T}

/-! ## C160: programs stay consistent -/

/-- **C160**: moving a conversion before an operation keeps the program consistent and every value
the tensor it stands for, if all users of the operation are conversions and operands that are the
same value are wanted in the same layout. -/
theorem C160_hoist_partial {E : Nat → Option L} {fresh r c : Nat} {f : F} {xs : List Nat}
    {lay out : L} {ins : List L} {post : List (Instr L F)}
    (hf : Fits ok E (.op r f xs lay :: post)) (hfresh : ∀ y, fresh ≤ y → E y = none)
    (hr : r < fresh) (hpost : ∀ i ∈ post, i.res < fresh)
    (hc : ∃ a, .conv c r a out ∈ post) (hok : ok f ins out) (hlen : xs.length = ins.length)
    (hdup : ∀ j k, (hj : j < xs.length) → (hk : k < xs.length) → xs[j] = xs[k] →
      ins[j]? = ins[k]?)
    (husers : ∀ i ∈ post, r ∈ i.uses → isConv i = true) :
    ∃ p, hoist E fresh r f xs ins out c post = some p ∧ Fits ok E p ∧
      ∀ ρ : Nat → T,
        (∀ x, x < fresh → x ≠ c →
          run plain ap ρ p x = run plain ap ρ (.op r f xs lay :: post) x) ∧
        run plain ap ρ p r = run plain ap ρ (.op r f xs lay :: post) c := by
  obtain ⟨h1, ⟨ls, hls, hokl⟩, h3⟩ := hf
  obtain ⟨a, hca⟩ := hc
  have hdef : ∀ j, (hj : j < xs.length) → E xs[j] ≠ none := by
    intro j hj
    have : E xs[j] ∈ xs.map E := List.mem_map_of_mem (List.getElem_mem hj)
    rw [hls, List.mem_map] at this
    obtain ⟨l', -, e⟩ := this
    simp [← e]
  have key : ∀ ρ : Nat → T, ∃ convs xs', convertOperands (F := F) E fresh 0 ins xs =
      some (convs, xs') ∧ Fits ok E (convs ++ .op r f xs' out :: redirect (· == c) r out post) ∧
      (∀ x, x < fresh → x ≠ c →
        run plain ap ρ (convs ++ .op r f xs' out :: redirect (· == c) r out post) x =
          run plain ap ρ (.op r f xs lay :: post) x) ∧
      run plain ap ρ (convs ++ .op r f xs' out :: redirect (· == c) r out post) r =
        run plain ap ρ (.op r f xs lay :: post) c := by
    intro ρ
    obtain ⟨convs, xs', c1, c2, c3, c4, c5, c6, c7⟩ :=
      convertOperands_spec (ok := ok) (plain := plain) (ap := ap) (I := ins) ins 0 xs E ρ fresh
        hlen rfl hfresh hdef (by intros; omega) hdup
    have hcr : c ≠ r := by
      rintro rfl
      have := Fits_res post _ h3 _ hca
      simp [Instr.res] at this
    have hcE : E c = none := by
      have := Fits_res post _ h3 _ hca
      simpa [Instr.res, hcr] using this
    have hcfresh : c < fresh := hpost _ hca
    obtain ⟨g1, g2⟩ := redirect_spec (ok := ok) (plain := plain) (ap := ap)
      (N := fun y => fresh ≤ y) (gone := (· == c)) (r := r) (out := out) post
      (fun y => if y = r then some lay else E y)
      (fun y => if y = r then some out else layouts E convs y)
      (fun y => if y = r then ap f (xs.map ρ) else ρ y)
      (fun y => if y = r then ap f (xs'.map (run plain ap ρ convs)) else run plain ap ρ convs y)
      ⟨by
        intro x hx hg hxr
        rw [if_neg hxr, if_neg hxr, c4 x (by omega)],
       by
        intro x hx
        rw [if_neg (by omega)]
        exact hfresh x hx,
       by simp, by simp, by simpa using hcr.symm,
       by
        intro x hx
        have : x = c := by simpa using hx
        subst this
        rw [if_neg hcr]
        exact Or.inl hcE,
       by
        intro x hx hg
        rw [c7]
        split
        · rfl
        · exact c6 x (by omega),
       by
        intro x hx hd
        have : x = c := by simpa using hx
        subst this
        rw [if_neg hcr] at hd
        exact absurd hcE hd⟩
      h3 (fun i hi => by have := hpost i hi; omega)
      (by
        intro i hi hg
        have e : i.res = c := by simpa using hg
        have : i = .conv c r a out := Fits_inj post _ h3 i hi _ hca (by rw [e]; rfl)
        exact ⟨a, by rw [this]; rfl⟩)
      husers
    refine ⟨convs, xs', c1, ?_, ?_, ?_⟩
    · rw [Fits_append]
      exact ⟨c2, (c4 r hr).trans h1, ⟨ins, c3, hok⟩, g1⟩
    · intro x hx hxc
      rw [run_append]
      exact g2.val x (by omega) (by simpa using hxc)
    · rw [run_append]
      refine (g2.val r (by omega) (by simpa using hcr.symm)).trans ?_
      exact (g2.goesVal c (by simp) (layouts_defined post _ _ hca)).symm
  obtain ⟨convs, xs', c1, c2, -, -⟩ := key fun _ => plain 0
  refine ⟨convs ++ .op r f xs' out :: redirect (· == c) r out post, ?_, c2, fun ρ => ?_⟩
  · simp [hoist, c1]
  · obtain ⟨convs', xs'', d1, -, d3, d4⟩ := key ρ
    rw [c1, Option.some.injEq, Prod.mk.injEq] at d1
    obtain ⟨rfl, rfl⟩ := d1
    exact ⟨d3, d4⟩

/-- Operations that want their operands in the layout of their result. -/
def elementwise : Unit → List Nat → Nat → Prop := fun _ ls l => ∀ x ∈ ls, x = l

/-- The arguments 0 and 1 of the examples. -/
def twoArgs : Nat → Option Nat := fun y => if y < 2 then some 0 else none

/-- `2 = f 0`, converted to layout 1 and used there: the conversion moves before the operation. -/
example : hoist (L := Nat) (F := Unit) twoArgs 10 2 () [0, 0] [1, 1] 1 3
    [.conv 3 2 0 1, .conv 4 2 0 5, .op 5 () [3] 1] =
    some [.conv 10 0 0 1, .conv 11 10 1 1, .op 2 () [11, 11] 1, .conv 4 2 1 5,
      .op 5 () [2] 1] := by
  decide +kernel

example : Fits elementwise twoArgs [.op 2 () [0, 0] 0, .conv 3 2 0 1, .conv 4 2 0 5,
    .op 5 () [3] 1] := by
  refine ⟨rfl, ⟨[0, 0], rfl, by simp [elementwise]⟩, rfl, rfl, rfl, rfl, rfl,
    ⟨[1], rfl, by simp [elementwise]⟩, trivial⟩

/-- **C160 violated**: the result of an operation is converted for one user, and another user reads
it as it is.  After the conversion has moved, the other user, which adds it to a value in the old
layout, reads it in the new one. -/
theorem C160_violated_user :
    Fits elementwise twoArgs [.op 2 () [0] 0, .conv 3 2 0 1, .op 4 () [2, 1] 0] ∧
    hoist (L := Nat) (F := Unit) twoArgs 10 2 () [0] [1] 1 3 [.conv 3 2 0 1, .op 4 () [2, 1] 0] =
      some [.conv 10 0 0 1, .op 2 () [10] 1, .op 4 () [2, 1] 0] ∧
    ¬ Fits elementwise twoArgs [.conv 10 0 0 1, .op 2 () [10] 1, .op 4 () [2, 1] 0] := by
  refine ⟨⟨rfl, ⟨[0], rfl, by simp [elementwise]⟩, rfl, rfl, rfl,
    ⟨[0, 0], rfl, by simp [elementwise]⟩, trivial⟩, by decide +kernel, ?_⟩
  rintro ⟨-, -, -, -, -, ⟨ls, hls, hok⟩, -⟩
  have : ls = [1, 0] := by
    have h : List.map some ls = List.map some [1, 0] := by rw [← hls]; rfl
    exact List.map_injective_iff.2 (Option.some_injective Nat) h
  subst this
  simp [elementwise] at hok

/-- **C160 violated**: an operand that is used twice and wanted in two layouts is handed over in the
last of them both times. -/
theorem C160_violated_twice :
    hoist (L := Nat) (F := Unit) twoArgs 10 2 () [0, 0] [1, 5] 1 3 [.conv 3 2 0 1] =
      some [.conv 10 0 0 1, .conv 11 10 1 5, .op 2 () [11, 11] 1] ∧
    layouts twoArgs ([.conv 10 0 0 1, .conv 11 10 1 5] : List (Instr Nat Unit)) 11 = some 5 := by
  decide +kernel

/-- **C160**: folding a conversion into the conversion or the assignment before it keeps the program
consistent, and every value its layout and tensor. -/
theorem C160_fold {E : Nat → Option L} {pre post : List (Instr L F)} {i i' : Instr L F}
    (hf : Fits ok E (pre ++ i :: post)) (h : foldPrevious pre i = some i') :
    Fits ok E (pre ++ i' :: post) ∧
      layouts E (pre ++ i' :: post) = layouts E (pre ++ i :: post) ∧
      ∀ ρ : Nat → T, run plain ap ρ (pre ++ i' :: post) = run plain ap ρ (pre ++ i :: post) := by
  obtain ⟨h1, h2⟩ := Fits_append.1 hf
  obtain ⟨h3, h4, h5⟩ := Fits_cons.1 h2
  have happ : ∀ (a b : List (Instr L F)) (E : Nat → Option L),
      layouts E (a ++ b) = layouts (layouts E a) b := by
    intro a b
    induction a with
    | nil => exact fun _ => rfl
    | cons j js ih => intro E; rw [List.cons_append, layouts_cons, ih, layouts_cons]
  cases i with
  | assign => simp [foldPrevious] at h
  | op => simp [foldPrevious] at h
  | conv z y b d =>
    simp only [foldPrevious] at h
    cases hd : defOf pre y with
    | none => simp [hd] at h
    | some j =>
      cases j with
      | op => simp [hd] at h
      | conv y' x a b' =>
        simp only [hd, Option.some.injEq] at h
        subst h
        refine ⟨?_, ?_, fun ρ => ?_⟩
        · obtain ⟨-, -, hx, -⟩ := defOf_spec (plain := fun _ => ()) (ap := fun _ _ => ())
            (ρ := fun _ => ()) h1 hd
          rw [Fits_append]
          exact ⟨h1, h3, hx, h5⟩
        · rw [happ, happ]; rfl
        · obtain ⟨-, -, -, hv⟩ := defOf_spec (plain := plain) (ap := ap) (ρ := ρ) h1 hd
          rw [run_append, run_append]
          show run plain ap (fun w => if w = z then run plain ap ρ pre x else _) post =
            run plain ap (fun w => if w = z then run plain ap ρ pre y else _) post
          rw [hv]
      | assign y' p l =>
        simp only [hd, Option.some.injEq] at h
        subst h
        refine ⟨?_, ?_, fun ρ => ?_⟩
        · rw [Fits_append]
          exact ⟨h1, h3, h5⟩
        · rw [happ, happ]; rfl
        · obtain ⟨-, -, hv⟩ := defOf_spec (plain := plain) (ap := ap) (ρ := ρ) h1 hd
          rw [run_append, run_append]
          show run plain ap (fun w => if w = z then plain p else _) post =
            run plain ap (fun w => if w = z then run plain ap ρ pre y else _) post
          rw [hv]

/-- Two conversions become one; a conversion of an assignment becomes an assignment. -/
example : foldPrevious (L := Nat) (F := Unit) [.assign 7 3 0, .conv 2 0 0 1] (.conv 4 2 1 9) =
    some (.conv 4 0 0 9) ∧
    foldPrevious (L := Nat) (F := Unit) [.assign 7 3 0, .conv 2 0 0 1] (.conv 4 7 0 9) =
      some (.assign 4 3 9) := by
  decide

/-- **C160**: an argument whose uses all convert it to one layout can be given in that layout: the
body stays consistent and every value that is left is the same tensor. -/
theorem C160_argument {E : Nat → Option L} {a : Nat} {body body' : List (Instr L F)} {d : L}
    (hf : Fits ok E body) (ha : E a ≠ none) (h : hoistArg a body = some (d, body')) :
    Fits ok (fun y => if y = a then some d else E y) body' ∧
      ∀ (ρ : Nat → T), ∀ j ∈ body',
        run plain ap ρ body' j.res = run plain ap ρ body j.res := by
  unfold hoistArg at h
  split at h
  · next z x s d' is hfil =>
    split at h
    · next hall =>
      simp only [Option.some.injEq, Prod.mk.injEq] at h
      obtain ⟨rfl, rfl⟩ := h
      set us : List (Instr L F) := .conv z x s d' :: is with hus
      set gone : Nat → Bool := fun y => us.any (·.res = y) with hgone
      have hmem : ∀ i, i ∈ us ↔ i ∈ body ∧ a ∈ i.uses := by
        intro i
        rw [← hfil, List.mem_filter]
        simp
      have hconv : ∀ i ∈ us, ∃ b, i = .conv i.res a b d' := by
        intro i hi
        have hu := ((hmem i).1 hi).2
        rcases List.mem_cons.1 hi with rfl | hi'
        · simp only [Instr.uses, List.mem_singleton] at hu
          exact ⟨s, by rw [hu]; rfl⟩
        · have := List.all_eq_true.1 hall i hi'
          cases i with
          | assign => simp at this
          | op => simp at this
          | conv z' x' s' e' =>
            simp only [decide_eq_true_eq] at this
            simp only [Instr.uses, List.mem_singleton] at hu
            exact ⟨s', by rw [hu, this]; rfl⟩
      have hgo : ∀ y, gone y = true ↔ ∃ i ∈ us, i.res = y := by
        intro y; simp [hgone]
      have hgE : ∀ y, gone y = true → E y = none := by
        intro y hy
        obtain ⟨i, hi, rfl⟩ := (hgo y).1 hy
        exact Fits_res body E hf i ((hmem i).1 hi).1
      have hga : gone a = false := by
        by_contra hc
        exact ha (hgE a (by simpa using hc))
      have key : ∀ ρ : Nat → T, _ := fun ρ => redirect_spec (ok := ok) (plain := plain) (ap := ap)
        (N := fun _ => False) (gone := gone) (r := a) (out := d') body E
        (fun y => if y = a then some d' else E y) ρ ρ
        ⟨by intro y _ _ hy; simp [hy], by simp, ha, by simp, hga,
          fun y hy => Or.inl (hgE y hy), fun _ _ _ => rfl, fun y hy hd => absurd (hgE y hy) hd⟩
        hf (by simp)
        (by
          intro i hi hg
          obtain ⟨u, hu, he⟩ := (hgo _).1 hg
          have : u = i := Fits_inj body E hf u ((hmem u).1 hu).1 i hi he
          subst this
          exact hconv u hu)
        (by
          intro i hi hu
          obtain ⟨b, hb⟩ := hconv i ((hmem i).2 ⟨hi, hu⟩)
          rw [hb]; rfl)
      have hres : ∀ (is : List (Instr L F)), ∀ j ∈ redirect gone a d' is, gone j.res = false := by
        intro is
        induction is with
        | nil => simp [redirect]
        | cons i is ih =>
          intro j hj
          rw [redirect_cons] at hj
          split at hj
          · exact ih j hj
          · next hg =>
            rcases List.mem_cons.1 hj with rfl | hj
            · rw [(redirect1_res _ _ _ _).1]
              simpa using hg
            · exact ih j hj
      refine ⟨?_, fun ρ j hj => (key ρ).2.val j.res (by simp) (hres body j hj)⟩
      have hfit := redirect_spec (ok := ok) (plain := fun _ => ()) (ap := fun _ _ => ())
        (N := fun _ => False) (gone := gone) (r := a) (out := d') body E
        (fun y => if y = a then some d' else E y) (fun _ => ()) (fun _ => ())
        ⟨by intro y _ _ hy; simp [hy], by simp, ha, by simp, hga,
          fun y hy => Or.inl (hgE y hy), fun _ _ _ => rfl, fun y hy hd => absurd (hgE y hy) hd⟩
        hf (by simp)
        (by
          intro i hi hg
          obtain ⟨u, hu, he⟩ := (hgo _).1 hg
          have : u = i := Fits_inj body E hf u ((hmem u).1 hu).1 i hi he
          subst this
          exact hconv u hu)
        (by
          intro i hi hu
          obtain ⟨b, hb⟩ := hconv i ((hmem i).2 ⟨hi, hu⟩)
          rw [hb]; rfl)
      exact hfit.1
    · simp at h
  · simp at h

/-- The argument 0 is converted twice to layout 1. -/
example : hoistArg (L := Nat) (F := Unit) 0 [.conv 2 0 0 1, .op 3 () [2] 1, .conv 4 0 0 1,
    .op 5 () [4, 3] 1] = some (1, [.op 3 () [0] 1, .op 5 () [0, 3] 1]) := by
  decide +kernel

/-! ## C161: the choice -/

theorem minAt_spec : ∀ (cs : List Int) (i : Nat) (b : Nat × Int), b.1 < i →
    (minAt i b cs).2 ≤ b.2 ∧ (∀ c ∈ cs, (minAt i b cs).2 ≤ c) ∧
      (minAt i b cs = b ∨ ∃ j, cs[j]? = some (minAt i b cs).2 ∧ (minAt i b cs).1 = i + j)
  | [], i, b, _ => ⟨le_rfl, by simp, Or.inl rfl⟩
  | c :: cs, i, b, hb => by
    rw [minAt]
    by_cases h : c < b.2
    · rw [if_pos h]
      obtain ⟨h1, h2, h3⟩ := minAt_spec cs (i + 1) (i, c) (by simp)
      simp only at h1
      refine ⟨by omega, ?_, Or.inr ?_⟩
      · intro x hx
        rcases List.mem_cons.1 hx with rfl | hx
        · exact h1
        · exact h2 x hx
      · rcases h3 with h3 | ⟨j, h3, h4⟩
        · rw [h3]; exact ⟨0, by simp, by simp⟩
        · exact ⟨j + 1, by simpa using h3, by omega⟩
    · rw [if_neg h]
      obtain ⟨h1, h2, h3⟩ := minAt_spec cs (i + 1) b (by omega)
      refine ⟨h1, ?_, ?_⟩
      · intro x hx
        rcases List.mem_cons.1 hx with rfl | hx
        · omega
        · exact h2 x hx
      · rcases h3 with h3 | ⟨j, h3, h4⟩
        · exact Or.inl h3
        · exact Or.inr ⟨j + 1, by simpa using h3, by omega⟩

/-- **C161**: an option is taken only if its cost is the least one and not positive; none is taken
only if all of them cost something. -/
theorem C161_pick (cs : List Int) :
    (∀ i, pick cs = .take i → ∃ c, cs[i]? = some c ∧ c ≤ 0 ∧ ∀ d ∈ cs, c ≤ d) ∧
    (pick cs = .no → ∀ d ∈ cs, 0 < d) ∧ (pick cs = .ub ↔ cs = []) := by
  cases cs with
  | nil => simp [pick]
  | cons c cs =>
    obtain ⟨h1, h2, h3⟩ := minAt_spec cs 1 (0, c) (by simp)
    simp only at h1
    have hall : ∀ d ∈ c :: cs, (minAt 1 (0, c) cs).2 ≤ d := by
      intro d hd
      rcases List.mem_cons.1 hd with rfl | hd
      · exact h1
      · exact h2 d hd
    refine ⟨?_, ?_, ?_⟩
    · intro i hi
      simp only [pick] at hi
      split at hi
      · simp at hi
      · next hn =>
        simp only [Pick.take.injEq] at hi
        refine ⟨(minAt 1 (0, c) cs).2, ?_, by omega, hall⟩
        rw [← hi]
        rcases h3 with h3 | ⟨j, h3, h4⟩
        · rw [h3]; rfl
        · rw [h4, Nat.add_comm]; simpa using h3
    · intro hi d hd
      simp only [pick] at hi
      split at hi
      · next hn => have := hall d hd; omega
      · simp at hi
    · simp only [pick]
      split <;> simp

example : pick [3, -2, 5, -2] = .take 1 ∧ pick [3, 1] = .no := by decide

/-- The table of the costs of the operands. -/
theorem foldl_keys {κ α : Type} [DecidableEq κ] (key : α → κ) (v : α → Int) :
    ∀ (os P : List α) (m : List (κ × Int)),
      (∀ o ∈ P ++ os, ∀ o' ∈ P ++ os, key o = key o' → o = o') → m.Nodup →
      (∀ e, e ∈ m ↔ ∃ o ∈ P, (key o, v o) = e) →
      (os.foldl (fun m o => setKey m (key o) (v o)) m).Nodup ∧
        ∀ e, e ∈ os.foldl (fun m o => setKey m (key o) (v o)) m ↔
          ∃ o ∈ P ++ os, (key o, v o) = e
  | [], P, m, _, hn, hm => ⟨hn, by rw [List.append_nil]; exact hm⟩
  | o :: os, P, m, hk, hn, hm => by
    have := foldl_keys key v os (P ++ [o]) (setKey m (key o) (v o)) (by simpa using hk)
      (by
        rw [setKey, List.nodup_cons]
        exact ⟨by simp, hn.filter _⟩)
      (by
        intro e
        rw [setKey, List.mem_cons, List.mem_filter, hm]
        constructor
        · rintro (rfl | ⟨⟨o', ho', rfl⟩, -⟩)
          · exact ⟨o, by simp, rfl⟩
          · exact ⟨o', by simp [ho'], rfl⟩
        · rintro ⟨o', ho', rfl⟩
          rcases List.mem_append.1 ho' with h | h
          · by_cases he : key o' = key o
            · have : o' = o := hk o' (by simp [h]) o (by simp) he
              subst this
              exact Or.inl rfl
            · exact Or.inr ⟨⟨o', h, rfl⟩, by simpa using he⟩
          · simp only [List.mem_singleton] at h
            subst h
            exact Or.inl rfl)
    simpa using this

theorem optionCost_eq (cost : L → L → Int) (out : L) (os : List (Operand L))
    (hv : ∀ o ∈ os, ∀ o' ∈ os, o.value = o'.value → o = o') :
    optionCost cost out os = (os.dedup.map fun o => (operandChange cost out o).2).sum := by
  have hkey : ∀ o : Operand L, (operandChange cost out o).1.1 = o.value := by
    intro o
    unfold operandChange
    split
    · rfl
    · split <;> rfl
  have hinj : ∀ o ∈ os, ∀ o' ∈ os,
      (operandChange cost out o).1 = (operandChange cost out o').1 → o = o' := by
    intro o ho o' ho' e
    refine hv o ho o' ho' ?_
    rw [← hkey o, ← hkey o', e]
  obtain ⟨h1, h2⟩ := foldl_keys (fun o => (operandChange cost out o).1)
    (fun o => (operandChange cost out o).2) os [] [] (by simpa using hinj) List.nodup_nil (by simp)
  have hperm : (os.foldl (fun m o => setKey m (operandChange cost out o).1
      (operandChange cost out o).2) []).Perm
      (os.dedup.map fun o => (operandChange cost out o)) := by
    rw [List.perm_ext_iff_of_nodup h1]
    · intro e
      rw [h2]
      simp
    · refine List.Nodup.map_on ?_ (List.nodup_dedup os)
      intro o ho o' ho' e
      exact hinj o (List.mem_dedup.1 ho) o' (List.mem_dedup.1 ho') (congrArg Prod.fst e)
  unfold optionCost
  rw [(hperm.map _).sum_eq, List.map_map]
  rfl

/-- **C161**: when a conversion is moved before an operation with a trivial kernel, the conversions
do not cost more than before, if it is the only conversion of the result, all operands are wanted in
the layout of the result, and the conversions of the operands have no other users. -/
theorem C161_cost_partial (cost : L → L → Int) (hself : ∀ l, cost l l = 0)
    (hnn : ∀ l l', 0 ≤ cost l l') (os : List (Operand L)) (lay out : L)
    (hv : ∀ o ∈ os, ∀ o' ∈ os, o.value = o'.value → o = o') {i : Nat}
    (h : pick ([out].map fun o => optionCost cost o os) = .take i) :
    spentAfter cost os (fun _ => out) out [out] ≤ spentBefore cost os lay [out] := by
  obtain ⟨c, hc, hle, -⟩ := (C161_pick _).1 i h
  have hc' : optionCost cost out os ≤ 0 := by
    cases i with
    | zero =>
      simp only [List.map_cons, List.map_nil, List.getElem?_cons_zero, Option.some.injEq] at hc
      omega
    | succ => simp at hc
  rw [optionCost_eq cost out os hv] at hc'
  have hsum : ∀ l : List (Operand L),
      (l.map fun o => if o.free then 0 else cost (o.before.getD o.lay) out).sum =
        (l.map fun o => if o.free then 0 else paid cost o).sum + (l.map fun o => (operandChange cost out o).2).sum := by
    intro l
    induction l with
    | nil => simp
    | cons o l ih =>
      simp only [List.map_cons, List.sum_cons, ih]
      have : (if o.free = true then 0 else cost (o.before.getD o.lay) out) =
          (if o.free = true then 0 else paid cost o) + (operandChange cost out o).2 := by
        unfold operandChange paid
        by_cases hf : o.free = true
        · simp [hf]
        · cases hb : o.before with
          | none => simp [hf]
          | some b => simp [hf]
      rw [this]
      omega
  unfold spentAfter spentBefore
  rw [hsum]
  simp only [List.map_cons, List.map_nil, List.sum_cons, List.sum_nil, hself]
  have := hnn lay out
  linarith

/-- One rotation for every conversion: the operand was converted from the layout wanted. -/
example : pick ([1].map fun o => optionCost (fun a b : Nat => if a = b then 0 else 1) o
    [⟨7, false, 0, some 1⟩, ⟨7, false, 0, some 1⟩, ⟨8, true, 0, none⟩]) = .take 0 ∧
    spentBefore (fun a b : Nat => if a = b then 0 else 1)
      [⟨7, false, 0, some 1⟩, ⟨7, false, 0, some 1⟩, ⟨8, true, 0, none⟩] 0 [1] = 2 ∧
    spentAfter (fun a b : Nat => if a = b then 0 else 1)
      [⟨7, false, 0, some 1⟩, ⟨7, false, 0, some 1⟩, ⟨8, true, 0, none⟩] (fun _ => 1) 1 [1] = 0 := by
  decide +kernel

/-- **C161 violated**: the other conversions of the result are not counted.  The operand is free, so
the first conversion is moved; the second one, which took one rotation, then takes a hundred. -/
theorem C161_violated_others :
    let cost : Nat → Nat → Int := fun a b => if a = b then 0 else if a = 0 then 1 else 100
    let os : List (Operand Nat) := [⟨7, true, 0, none⟩]
    pick ([1, 2].map fun o => optionCost cost o os) = .take 0 ∧
      spentBefore cost os 0 [1, 2] = 2 ∧ spentAfter cost os (fun _ => 1) 1 [1, 2] = 100 := by
  decide +kernel

/-- **C161 violated**: the costs of the operands are those of the layout of the result also where
the operation wants its operands in another one. -/
theorem C161_violated_layout :
    let cost : Nat → Nat → Int := fun a b => if a = b then 0 else if b = 5 then 100 else 1
    let os : List (Operand Nat) := [⟨7, false, 1, none⟩]
    pick ([1].map fun o => optionCost cost o os) = .take 0 ∧
      spentBefore cost os 0 [1] = 1 ∧ spentAfter cost os (fun _ => 5) 1 [1] = 100 := by
  decide +kernel

/-- **C161 violated**: when no hoister succeeds, the least element of no options is read. -/
theorem C161_violated_empty : pick [] = .ub := rfl

end Heir.LayoutOpt
