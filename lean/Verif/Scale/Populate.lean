import Verif.Scale.Raise
import Verif.Scale.Held

/-! # The second solver on the populated program -/

namespace Heir.Scale

variable {M : Type} [CommRing M]

/-- `a'` stands in the new program for the operand `a`. -/
def Rel (T1 T2 : Nat → Fact) (m1 m2 : Nat → M) (a a' : Nat) : Prop :=
  (T2 a').sec = (T1 a).sec ∧ (T2 a').scaled = (T1 a).scaled ∧ m2 a' = m1 a

theorem forall₂_any {R : Nat → Nat → Prop} {f g : Nat → Bool} {l l' : List Nat} (h : List.Forall₂ R l l')
    (hfg : ∀ a a', R a a' → g a' = f a) : l'.any g = l.any f := by
  induction h with
  | nil => rfl
  | cons h _ ih => rw [List.any_cons, List.any_cons, hfg _ _ h, ih]

theorem forall₂_mem {R : Nat → Nat → Prop} {l l' : List Nat} (h : List.Forall₂ R l l') :
    ∀ a' ∈ l', ∃ a ∈ l, R a a' := by
  induction h with
  | nil => simp
  | cons h _ ih =>
    intro a' ha'
    rcases List.mem_cons.1 ha' with rfl | ha'
    · exact ⟨_, by simp, h⟩
    · obtain ⟨a, h1, h2⟩ := ih a' ha'
      exact ⟨a, by simp [h1], h2⟩

theorem forall₂_map {β : Type} {R : Nat → Nat → Prop} {f g : Nat → β} {l l' : List Nat} (h : List.Forall₂ R l l')
    (hfg : ∀ a a', R a a' → g a' = f a) : l'.map g = l.map f := by
  induction h with
  | nil => rfl
  | cons h _ ih => rw [List.map_cons, List.map_cons, hfg _ _ h, ih]

theorem operandScales_rel (T1 T2 : Nat → Fact) (g : Nat → Option Int) {l l' : List Nat}
    (h : List.Forall₂ (fun a a' => (T2 a').scaled = (T1 a).scaled ∧ ((T1 a).scaled = true → (T2 a').scale = g a)) l l') :
    operandScales T2 l' = (l.filter fun a => (T1 a).scaled).mapM g := by
  unfold operandScales
  induction h with
  | nil => rfl
  | @cons a a' l l' h _ ih =>
    obtain ⟨h1, h2⟩ := h
    cases hs : (T1 a).scaled with
    | true =>
      rw [List.filter_cons_of_pos (by simp [h1, hs]), List.filter_cons_of_pos (by simp [hs]), List.mapM_cons,
        List.mapM_cons, ih, h2 hs]
    | false => rw [List.filter_cons_of_neg (by simp [h1, hs]), List.filter_cons_of_neg (by simp [hs]), ih]

theorem mapM_const (m : Int) (l : List Nat) : l.mapM (fun _ => some m) = some (List.replicate l.length m) := by
  induction l with
  | nil => rfl
  | cons a l ih => rw [List.mapM_cons, ih]; rfl

theorem maxScale_replicate (k : Nat) (m : Int) (h : 0 < k) : maxScale (List.replicate k m) = some m := by
  obtain ⟨j, rfl⟩ : ∃ j, k = j + 1 := ⟨k - 1, by omega⟩
  rw [List.replicate_succ, maxScale]
  congr 1
  induction j with
  | zero => rfl
  | succ j ih => rw [List.replicate_succ, List.foldl_cons, max_self]; exact ih (by omega)

theorem mapM_some_mem {l : List Nat} {f : Nat → Option Int} {ss : List Int} (h : l.mapM f = some ss) :
    ∀ a ∈ l, ∃ s ∈ ss, f a = some s := by
  induction l generalizing ss with
  | nil => simp
  | cons b l ih =>
    rw [List.mapM_cons] at h
    simp only [Option.bind_eq_bind, Option.bind_eq_some_iff, Option.pure_def, Option.some.injEq] at h
    obtain ⟨x, hx, ys, hys, rfl⟩ := h
    intro a ha
    rcases List.mem_cons.1 ha with rfl | ha
    · exact ⟨x, by simp, hx⟩
    · obtain ⟨s, h1, h2⟩ := ih hys a ha
      exact ⟨s, by simp [h1], h2⟩

theorem le_foldl_max (l : List Int) (s : Int) : s ≤ l.foldl max s ∧ ∀ x ∈ l, x ≤ l.foldl max s := by
  induction l generalizing s with
  | nil => simp
  | cons a l ih =>
    obtain ⟨h1, h2⟩ := ih (max s a)
    refine ⟨le_trans (le_max_left _ _) h1, ?_⟩
    intro x hx
    rcases List.mem_cons.1 hx with rfl | hx
    · exact le_trans (le_max_right _ _) h1
    · exact h2 x hx

theorem le_maxScale {ss : List Int} {m : Int} (h : maxScale ss = some m) : ∀ s ∈ ss, s ≤ m := by
  cases ss with
  | nil => simp
  | cons a l =>
    simp only [maxScale, Option.some.injEq] at h
    subst h
    intro s hs
    rcases List.mem_cons.1 hs with rfl | hs
    · exact (le_foldl_max l s).1
    · exact (le_foldl_max l a).2 s hs

/-- Which operands are replaced. -/
theorem raiseArgs_exact (t : Nat → Fact) (m : Int) (args : List Nat) (n : Nat) :
    List.Forall₂ (fun a a' => if (t a).scaled && (t a).scale.getD 0 < m then
        adjustOp t a m a' ∈ (raiseArgs t m args n).1 else a' = a) args (raiseArgs t m args n).2.1 := by
  induction args generalizing n with
  | nil => exact .nil
  | cons a as ih =>
    rw [raiseArgs]
    split
    · rename_i hc
      refine .cons (by rw [if_pos hc]; simp) ?_
      refine (ih (n + 1)).imp fun b b' hb => ?_
      split at hb
      · rename_i hd; rw [if_pos hd]; simp [hb]
      · rename_i hd; rw [if_neg hd]; exact hb
    · rename_i hc
      exact .cons (by rw [if_neg hc]) (ih n)

/-- All that relates the two programs. -/
structure Ctx (cfg : Cfg) (I : Kind → List M → M) (p : Prog) (rs : List Op) (S : Nat → Option Nat)
    (T1 T2 : Nat → Fact) (m1 m2 : Nat → M) : Prop where
  arity : ∀ op ∈ p.ops, Arity op
  one : ∀ op ∈ p.ops, T1 op.res = step true cfg T1 op
  two : ∀ o ∈ rs, T2 o.res = step false cfg T2 (mergeOp S o)
  src : ∀ o ∈ rs, S o.res = initSource S o
  msg1 : ∀ op ∈ p.ops, m1 op.res = msgOp I m1 op
  msg2 : ∀ o ∈ rs, m2 o.res = msgOp I m2 (mergeOp S o)
  enc : Encoded T1 p
  cov : Covered cfg T1 p
  plain : ∀ op ∈ p.ops, op.kind ≠ .adjust ∧ op.kind ≠ .bootstrap

/-- What is known of a value of the input program. -/
structure Inv (cfg : Cfg) (p : Prog) (S : Nat → Option Nat) (T1 T2 : Nat → Fact) (m1 m2 : Nat → M) (v : Nat) :
    Prop where
  sec : (T2 v).sec = (T1 v).sec
  ini : (T2 v).ini = (T1 v).ini
  lvl : (T2 v).lvl = (T1 v).lvl
  scale : (T1 v).scaled = true →
    (T2 v).scale = (T1 v).scale ∨ (Lowered cfg T1 p v ∧ (T2 v).scale = some cfg.dflt)
  src : (S v).isSome = (T1 v).ini
  srcOf : ∀ c, S v = some c → (T2 v).sec = (T2 c).sec ∧ m2 v = m2 c
  msg : m2 v = m1 v

section
variable {cfg : Cfg} {I : Kind → List M → M} {p : Prog} {rs : List Op} {S : Nat → Option Nat}
  {T1 T2 : Nat → Fact} {m1 m2 : Nat → M}

theorem Inv.scaled {v : Nat} (h : Inv cfg p S T1 T2 m1 m2 v) : (T2 v).scaled = (T1 v).scaled := by
  unfold Fact.scaled; rw [h.sec, h.ini]

theorem Inv.rel {v : Nat} (h : Inv cfg p S T1 T2 m1 m2 v) : Rel T1 T2 m1 m2 v v := ⟨h.sec, h.scaled, h.msg⟩

/-- An adjustment and what it is merged to. -/
theorem adjust_fact (C : Ctx cfg I p rs S T1 T2 m1 m2) {a n : Nat} {m : Int} (ha : Inv cfg p S T1 T2 m1 m2 a)
    (hs : (T1 a).scaled = true) (hr : adjustOp T1 a m n ∈ rs) :
    Rel T1 T2 m1 m2 a n ∧ (T2 n).scale = some m ∧ (T2 n).lvl = (T1 a).lvl ∧
      ((∀ s, (T2 a).scale = some s → s ≤ m) →
        validOp cfg (attrScale T2) (fun v => (T2 v).lvl) (mergeOp S (adjustOp T1 a m n)) = true) := by
  have h2 := C.two _ hr
  have hm := C.msg2 _ hr
  cases hS : S a with
  | none =>
    have e : mergeOp S (adjustOp T1 a m n) = adjustOp T1 a m n := by
      simp [mergeOp, adjustOp, hS]
    rw [e] at h2 hm ⊢
    have hini : (T1 a).ini = false := by
      rw [← ha.src, hS]; rfl
    have hsec : (T1 a).sec = true := by
      simpa [Fact.scaled, hini] using hs
    have f1 : (T2 n).sec = (T1 a).sec := by
      have := congrArg Fact.sec h2
      simpa [adjustOp, step, ha.sec] using this
    have f2 : (T2 n).scale = some m := by
      have := congrArg Fact.scale h2
      simpa [adjustOp, step, scaleStep] using this
    have f3 : (T2 n).lvl = (T1 a).lvl := by
      have := congrArg Fact.lvl h2
      simpa [adjustOp, step] using this
    refine ⟨⟨f1, ?_, ?_⟩, f2, f3, ?_⟩
    · rw [hs]; unfold Fact.scaled; rw [f1, hsec]; rfl
    · have : m2 n = m2 a := by simpa [adjustOp, msgOp] using hm
      rw [this, ha.msg]
    · intro hle
      simp only [validOp, adjustOp, List.headD_cons]
      split
      · rename_i x y hx hy
        have hy' : y = m := by
          unfold attrScale at hy
          rw [f2] at hy
          split at hy <;> simp_all
        have hx' : (T2 a).scale = some x := by
          unfold attrScale at hx
          split at hx
          · exact hx
          · cases hx
        have := hle x hx'
        simp only [decide_eq_true_eq]
        omega
      · rfl
  | some c =>
    have e : mergeOp S (adjustOp T1 a m n) = ⟨.init, [c], n, (T1 a).lvl, some m⟩ := by
      simp [mergeOp, adjustOp, hS]
    rw [e] at h2 hm ⊢
    obtain ⟨g1, g2⟩ := ha.srcOf c hS
    have f1 : (T2 n).sec = (T1 a).sec := by
      have := congrArg Fact.sec h2
      rw [← ha.sec, g1]
      simpa [adjustOp, step] using this
    have f2 : (T2 n).scale = some m := by
      have := congrArg Fact.scale h2
      simpa [adjustOp, step, scaleStep] using this
    have f3 : (T2 n).lvl = (T1 a).lvl := by
      have := congrArg Fact.lvl h2
      simpa [adjustOp, step] using this
    have f4 : (T2 n).ini = true := by
      have := congrArg Fact.ini h2
      simpa [adjustOp, step] using this
    refine ⟨⟨f1, ?_, ?_⟩, f2, f3, fun _ => rfl⟩
    · rw [hs]; unfold Fact.scaled; rw [f4]; simp
    · have : m2 n = m2 c := by simpa [adjustOp, msgOp] using hm
      rw [this, ← g2, ha.msg]

theorem msgOp_rel {op : Op} {args' : List Nat} (hA : Arity op)
    (h : List.Forall₂ (Rel T1 T2 m1 m2) op.args args') :
    msgOp I m2 { op with args := args' } = msgOp I m1 op := by
  unfold msgOp
  have hm : args'.map m2 = op.args.map m1 := forall₂_map h fun a a' hr => hr.2.2
  have h2 : op.args.length = 2 → m2 (args'.getD 0 0) = m1 (op.args.getD 0 0) ∧
      m2 (args'.getD 1 0) = m1 (op.args.getD 1 0) := by
    intro hl
    cases hq : op.args with
    | nil => simp [hq] at hl
    | cons a l =>
      cases l with
      | nil => simp [hq] at hl
      | cons b l =>
        rw [hq] at h
        cases h with
        | cons r1 h =>
          cases h with
          | cons r2 h => exact ⟨r1.2.2, r2.2.2⟩
  have h1 : op.args.length = 1 → m2 (args'.headD 0) = m1 (op.args.headD 0) := by
    intro hl
    cases hq : op.args with
    | nil => simp [hq] at hl
    | cons a l =>
      rw [hq] at h
      cases h with
      | cons r1 h => exact r1.2.2
  cases hk : op.kind <;> simp only
  any_goals (obtain ⟨e1, e2⟩ := h2 (hA.1 (by simp [hk])); rw [e1, e2])
  any_goals (rw [h1 (hA.2 (by simp [hk]))])
  all_goals rw [hm]

/-- The result of an operation, once its scale is known. -/
theorem inv_res (C : Ctx cfg I p rs S T1 T2 m1 m2) {op : Op} (hop : op ∈ p.ops) {args' : List Nat}
    (hrs : { op with args := args' } ∈ rs) (h : List.Forall₂ (Rel T1 T2 m1 m2) op.args args')
    (hinit : op.kind = .init → args' = op.args)
    (hsc : (T1 op.res).scaled = true → (T2 op.res).scale = (T1 op.res).scale ∨
      (Lowered cfg T1 p op.res ∧ (T2 op.res).scale = some cfg.dflt)) :
    Inv cfg p S T1 T2 m1 m2 op.res := by
  have hk := (C.plain op hop).1
  have e : mergeOp S { op with args := args' } = { op with args := args' } := mergeOp_ne _ _ hk
  have h1 := C.one op hop
  have h2 := C.two _ hrs
  have hm := C.msg2 _ hrs
  have hS := C.src _ hrs
  rw [e] at h2 hm
  simp only at h2 hm hS
  have hsec : (T2 op.res).sec = (T1 op.res).sec := by
    rw [h1, h2]
    exact forall₂_any h fun a a' hr => hr.1
  refine ⟨hsec, by rw [h1, h2]; rfl, by rw [h1, h2]; rfl, hsc, ?_, ?_, ?_⟩
  · rw [hS, h1]
    unfold initSource step
    simp only
    by_cases hi : op.kind = .init
    · rw [hinit hi]
      have := (C.arity op hop).2 (Or.inl hi)
      simp only [hi, if_true, decide_true]
      match op.args, this with
      | [a], _ => rfl
    · simp [hi]
  · intro c hc
    rw [hS] at hc
    unfold initSource at hc
    simp only at hc
    split at hc
    · rename_i hi
      have hl := (C.arity op hop).2 (Or.inl hi)
      rw [hinit hi] at hc h2 hm
      match hq : op.args, hl with
      | [a], _ =>
        rw [hq] at hc h2 hm
        simp only [List.head?_cons, Option.some.injEq] at hc
        subst hc
        refine ⟨?_, ?_⟩
        · rw [h2]; simp [step]
        · rw [hm]; simp [msgOp, hi]
    · cases hc
  · rw [hm, msgOp_rel (C.arity op hop) h, C.msg1 op hop]

/-- Operands that keep their scale. -/
def NotLow (cfg : Cfg) (T1 : Nat → Fact) (p : Prog) (op : Op) : Prop := ∀ a ∈ op.args, ¬ Lowered cfg T1 p a

theorem Inv.keeps {v : Nat} (h : Inv cfg p S T1 T2 m1 m2 v) (hl : ¬ Lowered cfg T1 p v)
    (hs : (T1 v).scaled = true) : (T2 v).scale = (T1 v).scale :=
  (h.scale hs).resolve_right fun h => hl h.1

theorem rel_self {l : List Nat} (h : ∀ a ∈ l, Inv cfg p S T1 T2 m1 m2 a) : List.Forall₂ (Rel T1 T2 m1 m2) l l := by
  induction l with
  | nil => exact .nil
  | cons a l ih => exact .cons (h a (by simp)).rel (ih fun b hb => h b (by simp [hb]))

theorem operandScales_keep {op : Op} (hn : NotLow cfg T1 p op) (h : ∀ a ∈ op.args, Inv cfg p S T1 T2 m1 m2 a) :
    operandScales T2 op.args = operandScales T1 op.args := by
  unfold operandScales
  rw [List.filter_congr (q := fun a => (T1 a).scaled) fun a ha => (h a ha).scaled]
  refine mapM_congr' _ _ _ fun a ha => ?_
  obtain ⟨h1, h2⟩ := List.mem_filter.1 ha
  exact (h a h1).keeps (hn a h1) h2

/-- Two different elements make a list of length two. -/
theorem two_le_length {l : List Nat} {a b : Nat} (ha : a ∈ l) (hb : b ∈ l) (h : a ≠ b) : 1 < l.length := by
  match l with
  | [] => simp at ha
  | [x] => simp at ha hb; exact absurd (ha.trans hb.symm) h
  | _ :: _ :: _ => simp

/-- The conclusion at one operation. -/
def Step (cfg : Cfg) (p : Prog) (S : Nat → Option Nat) (T1 T2 : Nat → Fact) (m1 m2 : Nat → M) (op : Op)
    (l : List Op) : Prop :=
  Inv cfg p S T1 T2 m1 m2 op.res ∧
    ∀ o ∈ l, validOp cfg (attrScale T2) (fun v => (T2 v).lvl) (mergeOp S o) = true

theorem attr_le {f : Nat → Fact} {v : Nat} {x : Int} (h : attrScale f v = some x) :
    (f v).scaled = true ∧ (f v).scale = some x := by
  unfold attrScale at h
  split at h
  · exact ⟨by assumption, h⟩
  · cases h

theorem step_additive (C : Ctx cfg I p rs S T1 T2 m1 m2) {op : Op} (hop : op ∈ p.ops)
    (hk : op.kind.additive = true) (ih : ∀ a ∈ op.args, Inv cfg p S T1 T2 m1 m2 a) {n n' : Nat} {l : List Op}
    (h : raiseAdditive T1 op n = some (l, n')) (hl : ∀ o ∈ l, o ∈ rs) : Step cfg p S T1 T2 m1 m2 op l := by
  have hna := (C.plain op hop).1
  have hst : ∀ (b : Bool) (f : Nat → Fact) (args : List Nat),
      (step b cfg f { op with args := args }).scale = (operandScales f args).bind maxScale := by
    intro b f args
    unfold step scaleStep Kind.additive at *
    simp only
    split at hk <;> simp_all
  have hvd : ∀ args, validOp cfg (attrScale T2) (fun v => (T2 v).lvl) { op with args := args } =
      allEqual ((args ++ [op.res]).filterMap (attrScale T2)) := by
    intro args
    unfold validOp Kind.additive at *
    simp only
    split at hk <;> simp_all
  have hni : op.kind ≠ .init := by
    intro hc; simp [hc, Kind.additive] at hk
  have h1 : (T1 op.res).scale = (operandScales T1 op.args).bind maxScale := by
    rw [C.one op hop]; exact hst true T1 op.args
  unfold raiseAdditive at h
  split at h
  · rename_i hlen
    simp only [Option.map_eq_some_iff, Prod.mk.injEq] at h
    obtain ⟨m, hm, rfl, rfl⟩ := h
    have hex := raiseArgs_exact T1 m op.args n
    generalize hr : raiseArgs T1 m op.args n = r at *
    obtain ⟨pre, args', n''⟩ := r
    simp only at *
    rw [hm] at h1
    rw [Option.bind_eq_some_iff] at hm
    obtain ⟨ss, hss, hmax⟩ := hm
    have hbound : ∀ a ∈ op.args, (T1 a).scaled = true → ∃ s, (T1 a).scale = some s ∧ s ≤ m := by
      intro a ha hsa
      obtain ⟨s, h1, h2⟩ := mapM_some_mem hss a (List.mem_filter.2 ⟨ha, hsa⟩)
      exact ⟨s, h2, le_maxScale hmax s h1⟩
    have hdflt : ∀ a ∈ op.args, Lowered cfg T1 p a → cfg.dflt ≤ m := by
      intro a ha hlow
      rcases C.cov op hop a ha hlow with ⟨-, b, hb, hsb, s, hs, hle⟩ | ⟨hc, -⟩
      · obtain ⟨s', hs', hle'⟩ := hbound b hb hsb
        rw [hs] at hs'
        cases hs'
        omega
      · simp [hc, Kind.additive] at hk
    -- each operand
    have hrel : List.Forall₂ (fun a a' => Rel T1 T2 m1 m2 a a' ∧
        ((T1 a).scaled = true → (T2 a').scale = some m)) op.args args' := by
      have : ∀ args args', (∀ a ∈ args, a ∈ op.args) → List.Forall₂ (fun a a' =>
          if (T1 a).scaled && (T1 a).scale.getD 0 < m then adjustOp T1 a m a' ∈ pre else a' = a) args args' →
          List.Forall₂ (fun a a' => Rel T1 T2 m1 m2 a a' ∧
            ((T1 a).scaled = true → (T2 a').scale = some m)) args args' := by
        intro args args' hsub h
        induction h with
        | nil => exact .nil
        | @cons a a' l l' h _ ih' =>
          refine .cons ?_ (ih' fun b hb => hsub b (by simp [hb]))
          have ha := hsub a (by simp)
          split at h
          · rename_i hc
            simp only [Bool.and_eq_true, decide_eq_true_eq] at hc
            obtain ⟨g1, g2, -, -⟩ := adjust_fact C (ih a ha) hc.1 (hl _ (List.mem_append.2 (Or.inl h)))
            exact ⟨g1, fun _ => g2⟩
          · rename_i hc
            subst h
            refine ⟨(ih _ ha).rel, fun hsa => ?_⟩
            obtain ⟨s, hs, hle⟩ := hbound _ ha hsa
            have hsm : s = m := by
              simp only [hsa, hs, Option.getD_some, Bool.true_and, decide_eq_true_eq] at hc
              omega
            rcases (ih _ ha).scale hsa with h | ⟨hlow, -⟩
            · rw [h, hs, hsm]
            · obtain ⟨s', hs', hlt⟩ := hlow.2.2
              have := hdflt _ ha hlow
              rw [hs] at hs'
              cases hs'
              omega
      exact this _ _ (fun a ha => ha) hex
    have hop' : { op with args := args' } ∈ rs := hl _ (by simp)
    have h2 : (T2 op.res).scale = some m := by
      have := C.two _ hop'
      rw [mergeOp_ne S { op with args := args' } hna] at this
      simp only at this
      rw [this, hst, operandScales_rel T1 T2 (fun _ => some m) (hrel.imp fun a a' h => ⟨h.1.2.1, h.2⟩), mapM_const]
      exact maxScale_replicate _ _ (by omega)
    refine ⟨inv_res C hop hop' (hrel.imp fun a a' h => h.1) (fun hc => absurd hc hni)
      fun _ => Or.inl (by rw [h1, h2]), ?_⟩
    intro o ho
    rcases List.mem_append.1 ho with ho | ho
    · -- an adjustment
      have hadj := (raiseArgs_shape T1 m op.args n).1
      rw [hr] at hadj
      simp only at hadj
      have : ∀ n pre n', Adjs T1 op.args n pre n' → (∀ o ∈ pre, o ∈ rs) → (∀ o ∈ pre, o.ann = some m ∧
          (T1 (o.args.headD 0)).scaled = true) →
          ∀ o ∈ pre, validOp cfg (attrScale T2) (fun v => (T2 v).lvl) (mergeOp S o) = true := by
        intro n pre n' h
        induction h with
        | nil => simp
        | cons n v k l n' hv _ ih' =>
          intro hsub hann o ho
          rcases List.mem_cons.1 ho with rfl | ho
          · obtain ⟨hk', hsv⟩ := hann _ ho
            simp only [adjustOp, Option.some.injEq, List.headD_cons] at hk' hsv
            subst hk'
            refine (adjust_fact C (ih v hv) hsv (hsub _ ho)).2.2.2 ?_
            intro s hs
            obtain ⟨s', hs', hle⟩ := hbound v hv hsv
            rcases (ih v hv).scale hsv with h | ⟨hlow, h⟩
            · rw [hs, hs'] at h
              cases h
              exact hle
            · rw [hs] at h
              cases h
              exact hdflt v hv hlow
          · exact ih' (fun o ho => hsub o (by simp [ho])) (fun o ho => hann o (by simp [ho])) o ho
      refine this _ _ _ hadj (fun o ho => hl o (by simp [ho])) ?_ o ho
      have hpre : ∀ args n, ∀ o ∈ (raiseArgs T1 m args n).1, o.ann = some m ∧
          (T1 (o.args.headD 0)).scaled = true := by
        intro args
        induction args with
        | nil => simp [raiseArgs]
        | cons a as ih' =>
          intro n o ho
          rw [raiseArgs] at ho
          split at ho
          · rename_i hc
            simp only [Bool.and_eq_true, decide_eq_true_eq] at hc
            rcases List.mem_cons.1 ho with rfl | ho
            · exact ⟨rfl, hc.1⟩
            · exact ih' _ o ho
          · exact ih' _ o ho
      have := hpre op.args n
      rw [hr] at this
      exact this
    · -- the operation
      rw [List.mem_singleton] at ho
      subst ho
      rw [mergeOp_ne S { op with args := args' } hna, hvd, allEqual_iff]
      have hall : ∀ x ∈ (args' ++ [op.res]).filterMap (attrScale T2), x = m := by
        intro x hx
        obtain ⟨v, hv, hvx⟩ := List.mem_filterMap.1 hx
        obtain ⟨q1, q2⟩ := attr_le hvx
        rcases List.mem_append.1 hv with hv | hv
        · obtain ⟨a, ha, hR⟩ := forall₂_mem hrel v hv
          have := hR.2 (by rw [← hR.1.2.1]; exact q1)
          rw [q2] at this
          cases this
          rfl
        · rw [List.mem_singleton] at hv
          subst hv
          rw [q2] at h2
          cases h2
          rfl
      intro x hx y hy
      rw [hall x hx, hall y hy]
  · rename_i hlen
    cases h
    have hnl : NotLow cfg T1 p op := by
      intro a ha hlow
      rcases C.cov op hop a ha hlow with ⟨-, b, hb, hsb, s, hs, hle⟩ | ⟨hc, -⟩
      · apply hlen
        have hsa : (T1 a).scaled = true := by unfold Fact.scaled; rw [hlow.2.1]; rfl
        refine two_le_length (List.mem_filter.2 ⟨ha, hsa⟩) (List.mem_filter.2 ⟨hb, hsb⟩) ?_
        rintro rfl
        obtain ⟨s', hs', hlt⟩ := hlow.2.2
        rw [hs] at hs'
        cases hs'
        omega
      · simp [hc, Kind.additive] at hk
    have hopr : op ∈ rs := hl _ (by simp)
    have h2 : (T2 op.res).scale = (operandScales T1 op.args).bind maxScale := by
      rw [C.two _ hopr, mergeOp_ne _ _ hna]
      rw [← operandScales_keep hnl ih]
      exact hst false T2 op.args
    refine ⟨inv_res C hop (args' := op.args) hopr (rel_self ih) (fun hc => absurd hc hni)
      fun _ => Or.inl (by rw [h1, h2]), ?_⟩
    intro o ho
    rw [List.mem_singleton] at ho
    subst ho
    rw [mergeOp_ne _ _ hna]
    refine (hvd o.args).trans ?_
    rw [allEqual_iff]
    have hscaled : ∀ a ∈ o.args, (T2 a).scaled = true → a ∈ o.args.filter fun a => (T1 a).scaled := fun a ha hs =>
      List.mem_filter.2 ⟨ha, by rw [← (ih a ha).scaled]; exact hs⟩
    have hex : ∃ m, ∀ x ∈ (o.args ++ [o.res]).filterMap (attrScale T2), x = m := by
      unfold operandScales at h2
      match hq : o.args.filter (fun a => (T1 a).scaled), hlen with
      | [], _ =>
        rw [hq] at h2 hscaled
        refine ⟨0, fun x hx => ?_⟩
        obtain ⟨v, hv, hvx⟩ := List.mem_filterMap.1 hx
        obtain ⟨q1, q2⟩ := attr_le hvx
        rcases List.mem_append.1 hv with hv | hv
        · have := hscaled v hv q1; simp at this
        · rw [List.mem_singleton] at hv
          subst hv
          rw [q2] at h2
          simp [maxScale] at h2
      | [a], _ =>
        rw [hq] at h2 hscaled
        have ha : a ∈ o.args ∧ (T1 a).scaled = true := by
          have : a ∈ o.args.filter (fun a => (T1 a).scaled) := by rw [hq]; simp
          exact List.mem_filter.1 this
        have hka := (ih a ha.1).keeps (hnl a ha.1) ha.2
        refine ⟨((T1 a).scale).getD 0, fun x hx => ?_⟩
        obtain ⟨v, hv, hvx⟩ := List.mem_filterMap.1 hx
        obtain ⟨q1, q2⟩ := attr_le hvx
        rcases List.mem_append.1 hv with hv | hv
        · have := hscaled v hv q1
          rw [List.mem_singleton] at this
          subst this
          rw [← hka, q2]; rfl
        · rw [List.mem_singleton] at hv
          subst hv
          rw [q2] at h2
          cases hs : (T1 a).scale with
          | none => simp [hs] at h2
          | some s =>
            simp [hs, maxScale] at h2
            simp [h2]
      | _ :: _ :: _, hlen => simp at hlen
    obtain ⟨m, hm⟩ := hex
    intro x hx y hy
    rw [hm x hx, hm y hy]

end

end Heir.Scale
