import Verif.Place.Solve

/-! # The program with the operations placed runs on ciphertexts -/

namespace Heir.Place
open Heir.Mgmt

/-- One step and its validity. -/
def StepV (o : Opts) (t : Nat → Option Ct) (op : Op) (x : Option Ct) : Prop :=
  Step o t op x ∧ ∀ c, x = some c → c.Valid o

theorem exec_of_execR {o : Opts} {t t' : Nat → Option Ct} {ops : List Op} (h : ExecR (StepV o) t ops t') :
    Exec o t ops t' := by
  induction h with
  | nil t => exact .nil t
  | cons t t' op ops x h1 _ ih => exact .cons t t' op ops x h1.1 h1.2 ih

theorem mg_path {o : Opts} {ms : List Mg} : ∀ {c c' id}, MgExec o c ms c' →
    Path (StepV o) (kinds id ms).2 (some c) (some c') := by
  induction ms with
  | nil => intro c c' id h; exact congrArg some h
  | cons m ms ih =>
    intro c c' id h
    obtain ⟨h1, h2, h3⟩ := h
    cases m with
    | drop k =>
      refine ⟨some (mgStep o c (.drop k)), fun t u r ht => ⟨⟨c, ht, ?_⟩, ?_⟩, ih h3⟩
      · have hk : ((k.toNat : Nat) : Int) = k := Int.toNat_of_nonneg h1
        simp only [mgStep, hk]
      · rintro _ h'; cases h'; exact h2
    | adjust k =>
      refine ⟨some (mgStep o c (.adjust k)), fun t u r ht => ⟨⟨c, k, ht, h1, rfl⟩, ?_⟩, ih h3⟩
      rintro _ h'; cases h'; exact h2
    | rescale =>
      refine ⟨some (mgStep o c .rescale), fun t u r ht => ⟨⟨c, ht, rfl⟩, ?_⟩, ih h3⟩
      rintro _ h'; cases h'; exact h2
    | boot =>
      refine ⟨some (mgStep o c .boot), fun t u r ht => ⟨⟨c, ht, h1.1, h1.2, rfl⟩, ?_⟩, ih h3⟩
      rintro _ h'; cases h'; exact h2

/-- What an operation does when its operands are `xs`. -/
theorem step_other {o : Opts} {t : Nat → Option Ct} {op : Op} {x : Option Ct} (he : erased op.kind = false)
    (hl : op.kind ≠ .levelReduceMin) (hm : op.kind ≠ .mul) :
    Step o t op x ↔ (op.args.filterMap t = [] ∧ x = none) ∨
      ∃ c, op.args.filterMap t ≠ [] ∧ (∀ c' ∈ op.args.filterMap t, c' = c) ∧ x = some c := by
  unfold Step
  cases hk : op.kind <;> first | rfl | (exact absurd hk hl) | (exact absurd hk hm) | (simp [hk, erased] at he)

theorem step_mul {o : Opts} {t : Nat → Option Ct} {op : Op} {x : Option Ct} (hm : op.kind = .mul) :
    Step o t op x ↔ (op.args.filterMap t = [] ∧ x = none) ∨
      ∃ l, op.args.filterMap t ≠ [] ∧ (∀ c ∈ op.args.filterMap t, c.level = l) ∧
        x = some ⟨l, if o.ckks then ((op.args.filterMap t).map (·.scale)).sum +
          o.sw * (op.args.length - (op.args.filterMap t).length : Int) else o.sw⟩ := by
  unfold Step
  rw [hm]

theorem filterMap_positions {t : Nat → Option Ct} {op : Op} {args : List Nat} {sec : Nat → Bool} {g : Nat → Ct}
    (hlen : args.length = op.args.length)
    (h : ∀ j a, args[j]? = some a → t a = if sec (op.args.getD j 0) then some (g j) else none) :
    args.filterMap t = ((positions op).filter fun x => sec x.2).map fun x => g x.1 := by
  have hmap : args.map t = (positions op).map fun x => if sec x.2 then some (g x.1) else none := by
    apply List.ext_getElem?
    intro j
    simp only [List.getElem?_map, positions, List.getElem?_zipIdx, Option.map_map]
    cases ha : args[j]? with
    | none =>
      have : op.args[j]? = none := by
        rw [List.getElem?_eq_none_iff] at ha ⊢
        omega
      simp [this]
    | some a =>
      have hj : j < op.args.length := by
        rw [← hlen]
        exact (List.getElem?_eq_some_iff.1 ha).1
      have h1 := h j a ha
      rw [List.getD_eq_getElem _ _ hj] at h1
      rw [List.getElem?_eq_getElem hj]
      simp [h1]
  have : args.filterMap t = (args.map t).filterMap id := by rw [List.filterMap_map]; rfl
  rw [this, hmap, List.filterMap_map]
  generalize positions op = l
  induction l with
  | nil => rfl
  | cons x l ih =>
    by_cases hx : sec x.2
    · simp only [List.filterMap_cons, Function.comp_apply, id, hx, if_true, List.filter_cons, List.map_cons]
      rw [← ih]; rfl
    · simp only [List.filterMap_cons, Function.comp_apply, id, hx, if_false, List.filter_cons, Bool.false_eq_true]
      rw [← ih]; rfl

theorem positions_snd (op : Op) (sec : Nat → Bool) :
    ((positions op).filter fun x => sec x.2).map Prod.snd = op.args.filter sec := by
  have : (positions op).map Prod.snd = op.args := by
    simp [positions, Function.comp_def]
  conv => rhs; rw [← this]
  rw [List.filter_map]
  rfl

/-- What the analysis has to know about the program. -/
structure Told (c : Ctx) (p : Prog) : Prop where
  wf : p.WF
  sec : ∀ op ∈ p.ops, c.sec op.res = op.args.any c.sec
  kind : ∀ op ∈ p.ops, erased op.kind = false ∧ op.kind ≠ .levelReduceMin

/-- Every plaintext multiplied with a ciphertext is the result of `arith.constant`. -/
def PlainConst (c : Ctx) (p : Prog) : Prop :=
  ∀ op ∈ p.ops, op.kind = .mul → c.sec op.res = true → ∀ a ∈ op.args, c.sec a = false → c.const a = true

theorem sum_neg_map (l : List (Nat × Nat)) (f : Nat → Var) (s : Var → ℚ) (g : Nat → Int)
    (hg : ∀ x ∈ l, s (f x.1) = (g x.1 : ℚ)) :
    (((l.map fun x => ((-1 : Int), f x.1))).map fun x => (x.1 : ℚ) * s x.2).sum = -(((l.map fun x => g x.1).sum : Int) : ℚ) := by
  induction l with
  | nil => simp
  | cons x l ih =>
    simp only [List.map_cons, List.sum_cons]
    rw [ih fun x hx => hg x (by simp [hx]), hg x (by simp)]
    push_cast
    ring

theorem count_plain (c : Ctx) (l : List Nat) (h : ∀ a ∈ l, c.sec a = false → c.const a = true) :
    ((l.filter fun a => !c.sec a && c.const a).length : Int) = l.length - (l.filter c.sec).length := by
  induction l with
  | nil => rfl
  | cons a l ih =>
    have ih' := ih fun b hb => h b (by simp [hb])
    cases ha : c.sec a
    · have := h a (by simp) ha
      simp only [List.filter_cons, ha, this, List.length_cons, Bool.not_false, Bool.and_self, if_true]
      push_cast
      first | omega | (simp only [Bool.false_eq_true, if_false]; omega)
    · simp only [List.filter_cons, ha, List.length_cons, Bool.not_true, Bool.false_and, if_true]
      push_cast
      first | omega | (simp only [Bool.false_eq_true, if_false]; omega)

section
variable {o : Opts} {c : Ctx} {p : Prog} {s : Var → ℚ}

theorem Told.args {c : Ctx} {p : Prog} (h : Told c p) {op : Op} (hop : op ∈ p.ops) : ∀ a ∈ op.args, IsVal p a := by
  have : ∀ (l : List Op) (P : Nat → Prop), SSA p.next P l → (∀ v, P v → IsVal p v) → (∀ o ∈ l, o ∈ p.ops) →
      ∀ o ∈ l, ∀ a ∈ o.args, IsVal p a := by
    intro l
    induction l with
    | nil => intro P _ _ _ o ho; simp at ho
    | cons x l ih =>
      intro P hs hP hl o ho a ha
      rcases List.mem_cons.1 ho with rfl | ho
      · exact hP a (hs.1 a ha)
      · refine ih _ hs.2.2.2.2.2 ?_ (fun o ho => hl o (by simp [ho])) o ho a ha
        rintro v (hv | rfl)
        · exact hP v hv
        · exact Or.inr ⟨x, hl x (by simp), rfl⟩
  exact this p.ops _ h.wf.ssa (fun v hv => Or.inl hv) (fun _ h => h) op hop

/-- The sum of the scales of a product. -/
theorem Feasible.mul_scale (h : Feasible o c p s) (hc : PlainConst c p) (hk : o.ckks = true) {op : Op}
    (hop : op ∈ tracked c p) (hm : op.kind = .mul) :
    (inCt s op).scale = (((positions op).filter fun x => c.sec x.2).map fun x => (edgeCt o s op x.1).scale).sum +
      o.sw * (op.args.length - (op.args.filter c.sec).length : Int) := by
  have hmem := mem_tracked.1 hop
  have h1 := h.mulCons hop
    ⟨(1, .inScale op.res) :: ((positions op).filter fun x => c.sec x.2).map fun x => (-1, .edgeScale op.res x.1), true,
      o.sw * ((op.args.filter fun a => !c.sec a && c.const a).length : Int)⟩ (by simp [Place.mulCons, hk, hm])
  rw [count_plain c op.args fun a ha hs => hc op hmem.1 hm hmem.2 a ha hs] at h1
  simp only [Con.Holds, Con.lhs, if_true, List.map_cons, List.sum_cons, Int.cast_one, one_mul] at h1
  have hev : ∀ i, edgeVar o op i = .edgeScale op.res i := fun i => by simp [edgeVar, hk, hm]
  rw [sum_neg_map _ (fun i => .edgeScale op.res i) s (fun i => (edgeCt o s op i).scale) (by
    rintro ⟨i, a⟩ hx
    obtain ⟨hx1, hx2⟩ := List.mem_filter.1 hx
    have := (h.box.edgeScale op hop (i, a) hx1 hx2).spec.1
    rw [hev] at this
    simp only [edgeCt, hev]
    exact this), (h.box.inScale op hop).spec.1] at h1
  have h2 : ((rounded (s (.inScale op.res)) : Int) : ℚ) =
      (((((positions op).filter fun x => c.sec x.2).map fun x => (edgeCt o s op x.1).scale).sum +
      o.sw * (op.args.length - (op.args.filter c.sec).length : Int) : Int) : ℚ) := by
    rw [Int.cast_add]
    linarith
  exact_mod_cast h2

theorem step_free {t : Nat → Option Ct} {op : Op} (he : erased op.kind = false) (hl : op.kind ≠ .levelReduceMin)
    (h : op.args.filterMap t = []) : StepV o t op none := by
  refine ⟨?_, by simp⟩
  by_cases hm : op.kind = .mul
  · exact (step_mul hm).2 (Or.inl ⟨h, rfl⟩)
  · exact (step_other he hl hm).2 (Or.inl ⟨h, rfl⟩)

/-- The operation itself, on its managed operands. -/
theorem Feasible.step (h : Feasible o c p s) (ht : Told c p) (hc : PlainConst c p) (hsw : 0 < o.sw) {op : Op}
    (hop : op ∈ p.ops) {t : Nat → Option Ct} {args : List Nat} (hlen : args.length = op.args.length)
    (hW : ∀ j a, args[j]? = some a →
      t a = if c.sec op.res && c.sec (op.args.getD j 0) then some (edgeCt o s op j) else none) :
    StepV o t { op with args := args } (if c.sec op.res then some (inCt s op) else none) := by
  obtain ⟨he, hl⟩ := ht.kind op hop
  cases hs : c.sec op.res
  · refine step_free he hl ?_
    show args.filterMap t = []
    rw [List.filterMap_eq_nil_iff]
    intro a ha
    obtain ⟨j, hj⟩ := List.getElem?_of_mem ha
    have := hW j a hj
    simpa [hs] using this
  · have hop' : op ∈ tracked c p := mem_tracked.2 ⟨hop, hs⟩
    have hfm := filterMap_positions (g := fun i => edgeCt o s op i) (sec := c.sec) hlen (t := t) (fun j a hj => by
      have := hW j a hj
      simpa [hs] using this)
    have hne : args.filterMap t ≠ [] := by
      have h1 := ht.sec op hop
      rw [hs] at h1
      obtain ⟨a, ha, ha'⟩ := List.any_eq_true.1 h1.symm
      obtain ⟨j, hj⟩ := List.getElem?_of_mem ha
      rw [hfm]
      refine List.ne_nil_of_mem (List.mem_map.2 ⟨(j, a), List.mem_filter.2 ⟨mem_positions.2 hj, ha'⟩, rfl⟩)
    have hlen2 : (args.filterMap t).length = (op.args.filter c.sec).length := by
      rw [hfm, ← positions_snd op c.sec]
      simp
    refine ⟨?_, ?_⟩
    · by_cases hm : op.kind = .mul
      · refine (step_mul (op := { op with args := args }) hm).2 (Or.inr ⟨rounded (s (.inLevel op.res)), hne, ?_, ?_⟩)
        · intro x hx
          change x ∈ args.filterMap t at hx
          rw [hfm] at hx
          obtain ⟨y, _, rfl⟩ := List.mem_map.1 hx
          rfl
        · show some (inCt s op) = some ⟨rounded (s (.inLevel op.res)), if o.ckks then
            ((args.filterMap t).map (·.scale)).sum + o.sw * (args.length - (args.filterMap t).length : Int) else o.sw⟩
          congr 1
          cases hk : o.ckks
          · simp only [inCt, Bool.false_eq_true, if_false]
            rw [(h.flat hk hop').1]
          · have := h.mul_scale hc hk hop' hm
            simp only [if_true, hlen2, hlen]
            rw [hfm, List.map_map]
            simp only [Function.comp_def]
            rw [← this]
            rfl
      · refine (step_other (op := { op with args := args }) he hl hm).2 (Or.inr ⟨inCt s op, hne, ?_, rfl⟩)
        intro x hx
        change x ∈ args.filterMap t at hx
        rw [hfm] at hx
        obtain ⟨y, _, rfl⟩ := List.mem_map.1 hx
        have : ∀ i, edgeVar o op i = .inScale op.res := fun i => by simp [edgeVar, hm]
        simp [edgeCt, inCt, this]
    · intro x hx
      simp only [if_true, Option.some.injEq] at hx
      subst hx
      exact h.in_valid hsw hop'

/-- Decoding any solution succeeds. -/
theorem Feasible.placed (h : Feasible o c p s) (ht : Told c p) (hsw : 0 < o.sw) (hfb : 0 < o.factorBits)
    (hlb : 0 ≤ o.lower) : ∃ q, placeProg o c s p = some q := by
  obtain ⟨r, hr⟩ := placeOps_some (o := o) (c := c) (s := s) p.ops p.next 0 id
    (by intro op hop j a hj
        cases hs : c.sec op.res
        · exact ⟨[], by simp [edgeOf, hs]⟩
        cases ha : c.sec a
        · exact ⟨[], by simp [edgeOf, ha]⟩
        · obtain ⟨ms, hm, _⟩ := h.decode_edge hsw hfb (mem_tracked.2 ⟨hop, hs⟩) hj ha
            (ht.args hop a (List.mem_of_getElem? hj))
          exact ⟨ms, hm⟩)
    (by intro op hop
        cases hs : c.sec op.res
        · exact ⟨[], by simp [nodeOf, hs]⟩
        · obtain ⟨ms, hm, _⟩ := h.decode_node hsw hfb hlb (mem_tracked.2 ⟨hop, hs⟩)
          exact ⟨ms, hm⟩)
  exact ⟨_, by rw [placeProg, hr]; rfl⟩

/-- The table of the ciphertexts of a solution. -/
def table (c : Ctx) (s : Var → ℚ) (v : Nat) : Option Ct := if c.sec v then some (ctOf s v) else none

theorem kinds_nil (id : Nat) : (kinds id []).2 = [] := rfl

/-- The placed program runs and its values are those of the solution. -/
theorem Feasible.exec (h : Feasible o c p s) (ht : Told c p) (hc : PlainConst c p) (hsw : 0 < o.sw)
    (hfb : 0 < o.factorBits) (hlb : 0 ≤ o.lower) {n : Nat} {σ : Nat → Nat} {ops : List Op} {id₀ : Nat}
    (hp : placeOps o c s p.next id₀ id p.ops = some (n, σ, ops)) {t : Nat → Option Ct}
    (ht0 : ∀ v < p.nargs, t v = table c s v) :
    ∃ t', Exec o t ops t' ∧ ∀ v, IsVal p v → t' (σ v) = table c s v := by
  have hem := placeOps_emitted p.ops hp
  obtain ⟨t', h1, h2⟩ := emitted_sim (S := StepV o) (V := fun v x => x = table c s v)
    (W := fun op j x => x = if c.sec op.res && c.sec (op.args.getD j 0) then some (edgeCt o s op j) else none)
    (base := p.next) hem
    (by intro op hop j a ks x hj hks hx
        obtain ⟨ms, i, hm, rfl⟩ := hks
        have hgd : op.args.getD j 0 = a := by
          obtain ⟨hlt, hj'⟩ := List.getElem?_eq_some_iff.1 hj
          rw [List.getD_eq_getElem _ _ hlt]
          exact hj'
        rw [hgd]
        by_cases hsec : c.sec op.res = true ∧ c.sec a = true
        · obtain ⟨hs, ha⟩ := hsec
          obtain ⟨ms', hm', he, _⟩ := h.decode_edge hsw hfb (mem_tracked.2 ⟨hop, hs⟩) hj ha
            (ht.args hop a (List.mem_of_getElem? hj))
          rw [hm] at hm'
          cases hm'
          refine ⟨some (edgeCt o s op j), ?_, by simp [hs, ha]⟩
          have : x = some (ctOf s a) := by rw [hx, table, if_pos ha]
          rw [this]
          exact mg_path he
        · have hms : ms = [] := by
            rw [edgeOf, if_neg (by simpa using hsec)] at hm
            cases hm
            rfl
          subst hms
          have ha : c.sec a = false := by
            rw [Bool.eq_false_iff]
            intro ha
            have h3 : c.sec op.res = true := by
              rw [ht.sec op hop, List.any_eq_true]
              exact ⟨a, List.mem_of_getElem? hj, ha⟩
            exact hsec ⟨h3, ha⟩
          refine ⟨x, rfl, ?_⟩
          rw [hx, table, ha]
          simp)
    (by intro op hop ks t args hks hlen hW
        obtain ⟨ms, i, hm, rfl⟩ := hks
        have hstep := h.step ht hc hsw hop hlen hW
        cases hs : c.sec op.res
        · rw [hs] at hstep
          have hms : ms = [] := by
            rw [nodeOf, hs, if_neg (by simp)] at hm
            cases hm
            rfl
          subst hms
          refine ⟨none, none, hstep, ?_, ?_⟩
          · have hr : relinOf c op = [] := by simp [relinOf, hs]
            rw [hr]
            rfl
          · simp [table, hs]
        · rw [hs] at hstep
          have hop' := mem_tracked.2 ⟨hop, hs⟩
          obtain ⟨ms', hm', he, _⟩ := h.decode_node hsw hfb hlb hop'
          rw [hm] at hm'
          cases hm'
          refine ⟨some (inCt s op), some (ctOf s op.res), hstep, ?_, ?_⟩
          · refine path_append (y := some (inCt s op)) ?_ (mg_path he)
            unfold relinOf
            split
            · refine ⟨some (inCt s op), fun t u r ht => ⟨⟨_, ht, rfl⟩, ?_⟩, rfl⟩
              rintro _ h'
              cases h'
              exact h.in_valid hsw hop'
            · rfl
          · simp [table, hs])
    (· < p.nargs) t (Nat.le_refl _) ht.wf.ssa (fun v hv => Nat.lt_of_lt_of_le hv ht.wf.nargs)
    (GoodRen.id (Nat.le_refl _) _) ht0
  exact ⟨t', exec_of_execR h1, h2⟩

end
end Heir.Place
