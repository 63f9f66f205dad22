import Verif.LayoutOpt.Spec
import Mathlib.Tactic.Linarith

/-!
# Lemmas about the rewrites of programs with layouts
-/

namespace Heir.LayoutOpt

variable {L F T : Type} {ok : F → List L → L → Prop}
  {plain : Nat → T} {ap : F → List T → T}

/-- The layout of the result. -/
def Instr.out : Instr L F → L
  | .assign _ _ l => l
  | .conv _ _ _ b => b
  | .op _ _ _ l => l

/-- The tensor an operation computes. -/
def Instr.val (plain : Nat → T) (ap : F → List T → T) (ρ : Nat → T) : Instr L F → T
  | .assign _ p _ => plain p
  | .conv _ x _ _ => ρ x
  | .op _ f xs _ => ap f (xs.map ρ)

/-- The operands have the right layouts. -/
def Instr.fits (ok : F → List L → L → Prop) (env : Nat → Option L) : Instr L F → Prop
  | .assign _ _ _ => True
  | .conv _ x a _ => env x = some a
  | .op _ f xs l => ∃ ls, xs.map env = ls.map some ∧ ok f ls l

theorem Fits_cons {env : Nat → Option L} {i : Instr L F} {is : List (Instr L F)} :
    Fits ok env (i :: is) ↔ env i.res = none ∧ i.fits ok env ∧
      Fits ok (fun y => if y = i.res then some i.out else env y) is := by
  cases i with
  | assign => exact ⟨fun h => ⟨h.1, trivial, h.2⟩, fun h => ⟨h.1, h.2.2⟩⟩
  | conv => exact Iff.rfl
  | op => exact Iff.rfl

theorem layouts_cons {env : Nat → Option L} {i : Instr L F} {is : List (Instr L F)} :
    layouts env (i :: is) = layouts (fun y => if y = i.res then some i.out else env y) is := by
  cases i <;> rfl

theorem run_cons {ρ : Nat → T} {i : Instr L F} {is : List (Instr L F)} :
    run plain ap ρ (i :: is) =
      run plain ap (fun y => if y = i.res then i.val plain ap ρ else ρ y) is := by
  cases i <;> rfl

theorem Fits_append {env : Nat → Option L} {a b : List (Instr L F)} :
    Fits ok env (a ++ b) ↔ Fits ok env a ∧ Fits ok (layouts env a) b := by
  induction a generalizing env with
  | nil => simp [Fits, layouts]
  | cons i is ih =>
    rw [List.cons_append, Fits_cons, Fits_cons, ih, layouts_cons]
    tauto

theorem run_append {ρ : Nat → T} {a b : List (Instr L F)} :
    run plain ap ρ (a ++ b) = run plain ap (run plain ap ρ a) b := by
  induction a generalizing ρ with
  | nil => rfl
  | cons i is ih => rw [List.cons_append, run_cons, ih, run_cons]

/-- Values that are defined keep their layouts. -/
theorem layouts_kept {x : Nat} : ∀ (is : List (Instr L F)) (env : Nat → Option L),
    Fits ok env is → env x ≠ none → layouts env is x = env x
  | [], _, _, _ => rfl
  | i :: is, env, h, hx => by
    obtain ⟨h1, -, h3⟩ := Fits_cons.1 h
    have hne : x ≠ i.res := fun e => hx (e ▸ h1)
    rw [layouts_cons, layouts_kept is _ h3 (by simpa [hne] using hx)]
    simp [hne]

/-- Values that are defined keep their tensors. -/
theorem run_kept {x : Nat} : ∀ (is : List (Instr L F)) (env : Nat → Option L) (ρ : Nat → T),
    Fits ok env is → env x ≠ none → run plain ap ρ is x = ρ x
  | [], _, _, _, _ => rfl
  | i :: is, env, ρ, h, hx => by
    obtain ⟨h1, -, h3⟩ := Fits_cons.1 h
    have hne : x ≠ i.res := fun e => hx (e ▸ h1)
    rw [run_cons, run_kept is _ _ h3 (by simpa [hne] using hx)]
    simp [hne]

theorem Fits_res : ∀ (is : List (Instr L F)) (env : Nat → Option L), Fits ok env is →
    ∀ i ∈ is, env i.res = none
  | i :: is, env, h, j, hj => by
    obtain ⟨h1, -, h3⟩ := Fits_cons.1 h
    rcases List.mem_cons.1 hj with rfl | hj
    · exact h1
    · have := Fits_res is _ h3 j hj
      by_cases e : j.res = i.res
      · simp [e] at this
      · simpa [e] using this

theorem Fits_inj : ∀ (is : List (Instr L F)) (env : Nat → Option L), Fits ok env is →
    ∀ i ∈ is, ∀ j ∈ is, i.res = j.res → i = j
  | k :: is, env, h, i, hi, j, hj, e => by
    obtain ⟨h1, -, h3⟩ := Fits_cons.1 h
    have hn : ∀ m ∈ is, m.res ≠ k.res := by
      intro m hm he
      have := Fits_res is _ h3 m hm
      simp [he] at this
    rcases List.mem_cons.1 hi with hi | hi <;> rcases List.mem_cons.1 hj with hj | hj
    · rw [hi, hj]
    · exact absurd (e.symm.trans (congrArg _ hi)) (hn j hj)
    · exact absurd (e.trans (congrArg _ hj)) (hn i hi)
    · exact Fits_inj is _ h3 i hi j hj e

/-! ### uses that are redirected -/

/-- The layouts and tensors before and after: `N` are new values, the values in `gone` become `r`. -/
structure Same (N : Nat → Prop) (gone : Nat → Bool) (r : Nat) (out : L) (E E' : Nat → Option L)
    (ρ ρ' : Nat → T) : Prop where
  same : ∀ x, ¬N x → gone x = false → x ≠ r → E' x = E x
  new : ∀ x, N x → E x = none
  old : E r ≠ none
  now : E' r = some out
  stays : gone r = false
  goes : ∀ x, gone x = true → E x = none ∨ E x = some out
  val : ∀ x, ¬N x → gone x = false → ρ' x = ρ x
  goesVal : ∀ x, gone x = true → E x ≠ none → ρ x = ρ r

/-- One operation after the change. -/
def redirect1 [DecidableEq L] (gone : Nat → Bool) (r : Nat) (out : L) : Instr L F → Instr L F
  | .assign z p l => .assign z p l
  | .conv z x a b =>
    .conv z (if gone x then r else x) (if (if gone x then r else x) = r then out else a) b
  | .op z g xs l => .op z g (xs.map fun x => if gone x then r else x) l

variable [DecidableEq L]

theorem redirect_cons (gone : Nat → Bool) (r : Nat) (out : L) (i : Instr L F)
    (is : List (Instr L F)) :
    redirect gone r out (i :: is) = if gone i.res then redirect gone r out is
      else redirect1 gone r out i :: redirect gone r out is := by
  cases i <;> rfl

theorem redirect1_res (gone : Nat → Bool) (r : Nat) (out : L) (i : Instr L F) :
    (redirect1 gone r out i).res = i.res ∧ (redirect1 gone r out i).out = i.out := by
  cases i <;> simp [redirect1, Instr.res, Instr.out]

theorem redirect1_fits {N : Nat → Prop} {gone : Nat → Bool} {r : Nat} {out : L}
    {E E' : Nat → Option L} {ρ ρ' : Nat → T} (h : Same N gone r out E E' ρ ρ') {i : Instr L F}
    (hi : i.fits ok E) (hu : r ∈ i.uses → isConv i = true) :
    (redirect1 gone r out i).fits ok E' ∧
      (redirect1 gone r out i).val plain ap ρ' = i.val plain ap ρ := by
  have hN : ∀ x, E x ≠ none → ¬N x := fun x hx hn => hx (h.new x hn)
  have hr : ¬N r := hN r h.old
  cases i with
  | assign z p l => exact ⟨trivial, rfl⟩
  | conv z x a b =>
    simp only [Instr.fits] at hi
    have hx : E x ≠ none := by rw [hi]; simp
    by_cases hg : gone x = true
    · simp only [redirect1, hg, if_true, Instr.fits, Instr.val]
      refine ⟨h.now, ?_⟩
      rw [h.val r hr h.stays, h.goesVal x hg hx]
    · have hg' : gone x = false := by simpa using hg
      by_cases he : x = r
      · subst he
        simp only [redirect1, hg', Bool.false_eq_true, if_false, if_true, Instr.fits, Instr.val]
        exact ⟨h.now, by simpa using h.val _ hr h.stays⟩
      · simp only [redirect1, hg', Bool.false_eq_true, if_false, he, Instr.fits, Instr.val]
        exact ⟨by rw [h.same x (hN x hx) hg' he, hi], h.val x (hN x hx) hg'⟩
  | op z g xs l =>
    have hnr : r ∉ xs := fun hm => by simpa [isConv] using hu hm
    obtain ⟨ls, hls, hok⟩ := hi
    have hdef : ∀ x ∈ xs, E x ≠ none := by
      intro x hx
      have : E x ∈ xs.map E := List.mem_map_of_mem hx
      rw [hls, List.mem_map] at this
      obtain ⟨l', -, e⟩ := this
      simp [← e]
    have hmap : ∀ x ∈ xs, E' (if gone x then r else x) = E x ∧
        ρ' (if gone x then r else x) = ρ x := by
      intro x hx
      by_cases hg : gone x = true
      · rw [if_pos hg]
        refine ⟨?_, ?_⟩
        · rcases h.goes x hg with e | e
          · exact absurd e (hdef x hx)
          · rw [h.now, e]
        · rw [h.val r hr h.stays, h.goesVal x hg (hdef x hx)]
      · have hg' : gone x = false := by simpa using hg
        rw [if_neg hg]
        exact ⟨h.same x (hN x (hdef x hx)) hg' (fun e => hnr (e ▸ hx)),
          h.val x (hN x (hdef x hx)) hg'⟩
    refine ⟨⟨ls, ?_, hok⟩, ?_⟩
    · rw [← hls, List.map_map]
      exact List.map_congr_left fun x hx => (hmap x hx).1
    · simp only [redirect1, Instr.val, List.map_map]
      congr 1
      exact List.map_congr_left fun x hx => (hmap x hx).2

theorem redirect_spec {N : Nat → Prop} {gone : Nat → Bool} {r : Nat} {out : L} :
    ∀ (is : List (Instr L F)) (E E' : Nat → Option L) (ρ ρ' : Nat → T),
      Same N gone r out E E' ρ ρ' → Fits ok E is → (∀ i ∈ is, ¬N i.res) →
      (∀ i ∈ is, gone i.res = true → ∃ a, i = .conv i.res r a out) →
      (∀ i ∈ is, r ∈ i.uses → isConv i = true) →
      Fits ok E' (redirect gone r out is) ∧
      Same N gone r out (layouts E is) (layouts E' (redirect gone r out is))
        (run plain ap ρ is) (run plain ap ρ' (redirect gone r out is))
  | [], E, E', ρ, ρ', hs, _, _, _, _ => ⟨trivial, hs⟩
  | i :: is, E, E', ρ, ρ', hs, hf, hN, hg, hu => by
    obtain ⟨h1, h2, h3⟩ := Fits_cons.1 hf
    have hir : i.res ≠ r := fun e => hs.old (e ▸ h1)
    have hN' := hN i List.mem_cons_self
    rw [redirect_cons, layouts_cons, run_cons]
    by_cases hgi : gone i.res = true
    · rw [if_pos hgi]
      obtain ⟨a, ha⟩ := hg i List.mem_cons_self hgi
      have hout : i.out = out := by rw [ha]; rfl
      have hval : i.val plain ap ρ = ρ r := by rw [ha]; rfl
      refine redirect_spec is _ E' _ ρ' ⟨?_, ?_, ?_, hs.now, hs.stays, ?_, ?_, ?_⟩ h3
        (fun j hj => hN j (List.mem_cons_of_mem _ hj)) (fun j hj => hg j (List.mem_cons_of_mem _ hj))
        (fun j hj => hu j (List.mem_cons_of_mem _ hj))
      · intro x hx hgx hxr
        rw [if_neg (fun e => by rw [e, hgi] at hgx; simp at hgx)]
        exact hs.same x hx hgx hxr
      · intro x hx
        rw [if_neg (fun e : x = i.res => hN' (e ▸ hx))]
        exact hs.new x hx
      · rw [if_neg hir.symm]; exact hs.old
      · intro x hx
        by_cases e : x = i.res
        · rw [if_pos e, hout]; exact Or.inr rfl
        · rw [if_neg e]; exact hs.goes x hx
      · intro x hx hgx
        rw [if_neg (fun e => by rw [e, hgi] at hgx; simp at hgx)]
        exact hs.val x hx hgx
      · intro x hx hd
        rw [if_neg hir.symm]
        by_cases e : x = i.res
        · rw [if_pos e, hval]
        · rw [if_neg e] at hd ⊢
          exact hs.goesVal x hx hd
    · have hgi' : gone i.res = false := by simpa using hgi
      rw [if_neg hgi, layouts_cons, run_cons, Fits_cons]
      obtain ⟨hr1, hr2⟩ := redirect1_res gone r out i
      obtain ⟨hf1, hf2⟩ := redirect1_fits (plain := plain) (ap := ap) hs h2
        (hu i List.mem_cons_self)
      rw [hr1, hr2, hf2]
      have := redirect_spec is (fun y => if y = i.res then some i.out else E y)
        (fun y => if y = i.res then some i.out else E' y)
        (fun y => if y = i.res then i.val plain ap ρ else ρ y)
        (fun y => if y = i.res then i.val plain ap ρ else ρ' y)
        ⟨?_, ?_, ?_, ?_, hs.stays, ?_, ?_, ?_⟩ h3
        (fun j hj => hN j (List.mem_cons_of_mem _ hj)) (fun j hj => hg j (List.mem_cons_of_mem _ hj))
        (fun j hj => hu j (List.mem_cons_of_mem _ hj))
      · exact ⟨⟨by rw [hs.same _ hN' hgi' hir, h1], hf1, this.1⟩, this.2⟩
      · intro x hx hgx hxr
        split
        · rfl
        · exact hs.same x hx hgx hxr
      · intro x hx
        rw [if_neg (fun e : x = i.res => hN' (e ▸ hx))]
        exact hs.new x hx
      · rw [if_neg hir.symm]; exact hs.old
      · rw [if_neg hir.symm]; exact hs.now
      · intro x hx
        rw [if_neg (fun e : x = i.res => hgi (e ▸ hx))]
        exact hs.goes x hx
      · intro x hx hgx
        split
        · rfl
        · exact hs.val x hx hgx
      · intro x hx hd
        have hne : x ≠ i.res := fun e => hgi (e ▸ hx)
        rw [if_neg hne] at hd
        rw [if_neg hne, if_neg hir.symm]
        exact hs.goesVal x hx hd

/-! ### conversions of operands -/

theorem convertOperands_spec {I : List L} :
    ∀ (ls : List L) (i : Nat) (xs : List Nat) (E : Nat → Option L) (ρ : Nat → T) (fresh : Nat),
      xs.length = I.length → I.drop i = ls → (∀ y, fresh ≤ y → E y = none) →
      (∀ j, (hj : j < xs.length) → E xs[j] ≠ none) →
      (∀ j, (hj : j < xs.length) → j < i → E xs[j] = I[j]?) →
      (∀ j k, (hj : j < xs.length) → (hk : k < xs.length) → xs[j] = xs[k] → I[j]? = I[k]?) →
      ∃ convs xs', convertOperands (F := F) E fresh i ls xs = some (convs, xs') ∧
        Fits ok E convs ∧ xs'.map (layouts E convs) = I.map some ∧
        (∀ y, y < fresh → layouts E convs y = E y) ∧
        (∀ y, fresh + ls.length ≤ y → layouts E convs y = none) ∧
        (∀ y, y < fresh → run plain ap ρ convs y = ρ y) ∧
        xs'.map (run plain ap ρ convs) = xs.map ρ
  | [], i, xs, E, ρ, fresh, hlen, hd, hfr, _, hdone, _ => by
    refine ⟨[], xs, rfl, trivial, ?_, fun _ _ => rfl, fun y hy => hfr y (by simpa using hy),
      fun _ _ => rfl, rfl⟩
    have hi : I.length ≤ i := List.drop_eq_nil_iff.1 hd
    apply List.ext_getElem (by simpa using hlen)
    intro j h1 h2
    simp only [List.length_map] at h1 h2
    simp only [List.getElem_map, layouts]
    rw [hdone j h1 (by omega), List.getElem?_eq_getElem h2]
  | l :: ls, i, xs, E, ρ, fresh, hlen, hd, hfr, hdef, hdone, hdup => by
    have hi : i < I.length := by
      by_contra h
      rw [List.drop_eq_nil_iff.2 (by omega)] at hd
      simp at hd
    have hix : i < xs.length := by omega
    have hl : I[i]? = some l := by
      have := congrArg List.head? hd
      simpa [List.head?_drop] using this
    have hd' : I.drop (i + 1) = ls := by
      have := congrArg List.tail hd
      simpa using this
    obtain ⟨src, hsrc⟩ := Option.ne_none_iff_exists'.1 (hdef i hix)
    have hlt : ∀ j, (hj : j < xs.length) → xs[j] < fresh := by
      intro j hj
      by_contra h
      exact hdef j hj (hfr _ (by omega))
    have hmap : ∀ j, (hj : j < xs.length) →
        (xs.map fun y => if y = xs[i] then fresh else y)[j]'(by simpa using hj) =
          if xs[j] = xs[i] then fresh else xs[j] := by
      intro j hj; simp
    obtain ⟨convs, xs', c1, c2, c3, c4, c5, c6, c7⟩ := convertOperands_spec ls (i + 1)
      (xs.map fun y => if y = xs[i] then fresh else y)
      (fun y => if y = fresh then some l else E y)
      (fun y => if y = fresh then ρ xs[i] else ρ y) (fresh + 1) (by simpa using hlen) hd'
      (by
        intro y hy
        rw [if_neg (by omega)]
        exact hfr y (by omega))
      (by
        intro j hj
        have hj' : j < xs.length := by simpa using hj
        rw [hmap j hj']
        by_cases e : xs[j] = xs[i]
        · simp [e]
        · rw [if_neg e, if_neg (by have := hlt j hj'; omega)]
          exact hdef j hj')
      (by
        intro j hj hji
        have hj' : j < xs.length := by simpa using hj
        rw [hmap j hj']
        by_cases e : xs[j] = xs[i]
        · rw [if_pos e, if_pos rfl, ← hl]
          exact hdup i j hix hj' e.symm
        · rw [if_neg e, if_neg (by have := hlt j hj'; omega)]
          refine hdone j hj' ?_
          rcases Nat.lt_succ_iff_lt_or_eq.1 hji with h | h
          · exact h
          · subst h; exact absurd rfl e)
      (by
        intro j k hj hk e
        have hj' : j < xs.length := by simpa using hj
        have hk' : k < xs.length := by simpa using hk
        rw [hmap j hj', hmap k hk'] at e
        have hjl := hlt j hj'
        have hkl := hlt k hk'
        by_cases ej : xs[j] = xs[i] <;> by_cases ek : xs[k] = xs[i]
        · exact hdup j k hj' hk' (ej.trans ek.symm)
        · rw [if_pos ej, if_neg ek] at e; omega
        · rw [if_neg ej, if_pos ek] at e; omega
        · rw [if_neg ej, if_neg ek] at e; exact hdup j k hj' hk' e)
    refine ⟨.conv fresh xs[i] src l :: convs, xs', ?_, ?_, ?_, ?_, ?_, ?_, ?_⟩
    · simp only [convertOperands, List.getElem?_eq_getElem hix, hsrc, Option.bind_eq_bind,
        Option.bind_some, c1, Option.pure_def]
    · exact ⟨hfr fresh le_rfl, hsrc, c2⟩
    · exact c3
    · intro y hy
      refine (c4 y (by omega)).trans ?_
      rw [if_neg (by omega)]
    · intro y hy
      exact c5 y (by simp at hy; omega)
    · intro y hy
      refine (c6 y (by omega)).trans ?_
      rw [if_neg (by omega)]
    · refine c7.trans ?_
      rw [List.map_map]
      apply List.map_congr_left
      intro y hy
      obtain ⟨j, hj, rfl⟩ := List.mem_iff_getElem.1 hy
      have := hlt j hj
      simp only [Function.comp]
      by_cases e : xs[j] = xs[i]
      · simp [e]
      · rw [if_neg e, if_neg (by omega)]

theorem layouts_defined : ∀ (is : List (Instr L F)) (E : Nat → Option L), ∀ i ∈ is,
    layouts E is i.res ≠ none := by
  have keep : ∀ (is : List (Instr L F)) (E : Nat → Option L) (x : Nat), E x ≠ none →
      layouts E is x ≠ none := by
    intro is
    induction is with
    | nil => exact fun E x h => h
    | cons i is ih =>
      intro E x h
      rw [layouts_cons]
      apply ih
      split
      · simp
      · exact h
  intro is
  induction is with
  | nil => simp
  | cons i is ih =>
    intro E j hj
    rw [layouts_cons]
    rcases List.mem_cons.1 hj with rfl | hj
    · apply keep; simp
    · exact ih _ j hj

omit [DecidableEq L] in
theorem layouts_none : ∀ (is : List (Instr L F)) (E : Nat → Option L) (x : Nat),
    E x = none → (∀ i ∈ is, i.res ≠ x) → layouts E is x = none := by
  intro is
  induction is with
  | nil => exact fun E x h _ => h
  | cons i is ih =>
    intro E x h hn
    rw [layouts_cons]
    refine ih _ x ?_ fun j hj => hn j (List.mem_cons_of_mem _ hj)
    rw [if_neg (fun e => hn i List.mem_cons_self e.symm)]
    exact h

/-- A conversion or an assignment in a program fixes its value. -/
theorem defOf_spec {E : Nat → Option L} {ρ : Nat → T} {pre : List (Instr L F)} {y : Nat}
    {i : Instr L F} (hf : Fits ok E pre) (hd : defOf pre y = some i) :
    i.res = y ∧ layouts E pre y = some i.out ∧
      match i with
      | .conv _ x a _ => layouts E pre x = some a ∧ run plain ap ρ pre y = run plain ap ρ pre x
      | .assign _ p _ => run plain ap ρ pre y = plain p
      | .op .. => True := by
  have hi : i.res = y := by simpa using List.find?_some hd
  have hmem : i ∈ pre := List.mem_of_find?_eq_some hd
  obtain ⟨a, b, rfl⟩ := List.append_of_mem hmem
  obtain ⟨h1, h2⟩ := Fits_append.1 hf
  obtain ⟨h3, h4, h5⟩ := Fits_cons.1 h2
  have hlay : layouts E (a ++ i :: b) = layouts (layouts E a) (i :: b) := by
    clear hf hd hmem h1 h2 h3 h4 h5
    induction a generalizing E with
    | nil => rfl
    | cons j js ih => rw [List.cons_append, layouts_cons, ih, layouts_cons (i := j)]
  subst hi
  refine ⟨rfl, ?_, ?_⟩
  · rw [hlay, layouts_cons, layouts_kept b _ h5 (by simp)]
    simp
  · have hrun : run plain ap ρ (a ++ i :: b) i.res = i.val plain ap (run plain ap ρ a) := by
      rw [run_append, run_cons, run_kept b _ _ h5 (by simp)]
      simp
    cases i with
    | op => trivial
    | assign z p l => exact hrun
    | conv z x s d =>
      simp only [Instr.fits] at h4
      simp only [Instr.res] at h3
      have hxz : x ≠ z := by
        rintro rfl
        rw [h3] at h4
        simp at h4
      refine ⟨?_, ?_⟩
      · rw [hlay, layouts_cons, layouts_kept b _ h5 (by simp [Instr.res, hxz, h4])]
        simp [Instr.res, hxz, h4]
      · refine hrun.trans ?_
        rw [run_append, run_cons, run_kept b _ _ h5 (by simp [Instr.res, hxz, h4])]
        simp [Instr.res, hxz, Instr.val]

end Heir.LayoutOpt
