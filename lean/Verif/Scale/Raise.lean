import Verif.Scale.Lemmas
import Mathlib.Data.List.Forall2

/-! # The program after the insertion of adjustments -/

namespace Heir.Scale

/-- Consecutive adjustments of values in `A` with results from `n` to `n'`. -/
inductive Adjs (t : Nat → Fact) (A : List Nat) : Nat → List Op → Nat → Prop
  | nil (n : Nat) : Adjs t A n [] n
  | cons (n v : Nat) (m : Int) (l : List Op) (n' : Nat) : v ∈ A → Adjs t A (n + 1) l n' →
    Adjs t A n (adjustOp t v m n :: l) n'

theorem Adjs.le {t : Nat → Fact} {A : List Nat} {n n' : Nat} {l : List Op} (h : Adjs t A n l n') : n ≤ n' := by
  induction h with
  | nil => exact le_refl _
  | cons n v m l n' _ _ ih => omega

theorem Adjs.mono {t : Nat → Fact} {A B : List Nat} {n n' : Nat} {l : List Op} (h : Adjs t A n l n')
    (hAB : ∀ v ∈ A, v ∈ B) : Adjs t B n l n' := by
  induction h with
  | nil => exact .nil _
  | cons n v m l n' hv _ ih => exact .cons n v m l n' (hAB v hv) ih

/-- The operand `a` is kept or replaced by an adjustment of it. -/
def Repl (t : Nat → Fact) (pre : List Op) (a a' : Nat) : Prop := a' = a ∨ ∃ m, adjustOp t a m a' ∈ pre

/-- What the walk makes of an operation: adjustments of its operands and the operation on them. -/
def Shape (t : Nat → Fact) (op : Op) (n : Nat) (l : List Op) (n' : Nat) : Prop :=
  ∃ pre args', l = pre ++ [{ op with args := args' }] ∧ Adjs t op.args n pre n' ∧
    List.Forall₂ (Repl t pre) op.args args'

theorem forall₂_self {β : Type} {R : β → β → Prop} (h : ∀ a, R a a) : ∀ l : List β, List.Forall₂ R l l
  | [] => .nil
  | a :: l => .cons (h a) (forall₂_self h l)

theorem shape_id (t : Nat → Fact) (op : Op) (n : Nat) : Shape t op n [op] n :=
  ⟨[], op.args, rfl, .nil n, forall₂_self (R := Repl t []) (fun _ => Or.inl rfl) _⟩

theorem shape_use (t : Nat → Fact) (op : Op) (v : Nat) (hv : v ∈ op.args) (m : Int) (n : Nat) :
    Shape t op n (raiseUse t op v m n).1 (raiseUse t op v m n).2 := by
  refine ⟨[adjustOp t v m n], replaceUses op.args v n, rfl, .cons n v m [] (n + 1) hv (.nil _), ?_⟩
  unfold replaceUses
  rw [List.forall₂_map_right_iff]
  refine forall₂_self (fun a => ?_) _
  by_cases h : a = v
  · subst h; exact Or.inr ⟨m, by simp⟩
  · exact Or.inl (by simp [h])

theorem raiseArgs_shape (t : Nat → Fact) (m : Int) (args : List Nat) (n : Nat) :
    Adjs t args n (raiseArgs t m args n).1 (raiseArgs t m args n).2.2 ∧
      List.Forall₂ (Repl t (raiseArgs t m args n).1) args (raiseArgs t m args n).2.1 := by
  induction args generalizing n with
  | nil => exact ⟨.nil n, .nil⟩
  | cons a as ih =>
    rw [raiseArgs]
    split
    · obtain ⟨h1, h2⟩ := ih (n + 1)
      refine ⟨.cons n a m _ _ (by simp) (h1.mono fun v hv => by simp [hv]), .cons (Or.inr ⟨m, by simp⟩) ?_⟩
      exact h2.imp fun b b' hb => hb.imp_right fun ⟨m', hm⟩ => ⟨m', by simp [hm]⟩
    · obtain ⟨h1, h2⟩ := ih n
      exact ⟨h1.mono fun v hv => by simp [hv], .cons (Or.inl rfl) h2⟩

theorem raiseOp_shape (cfg : Cfg) (t : Nat → Fact) (op : Op) (hA : Arity op) (n : Nat) (l : List Op) (n' : Nat)
    (h : raiseOp cfg t op n = some (l, n')) : Shape t op n l n' := by
  unfold raiseOp at h
  split at h
  · unfold raiseAdditive at h
    split at h
    · simp only [Option.map_eq_some_iff, Prod.mk.injEq] at h
      obtain ⟨m, -, rfl, rfl⟩ := h
      obtain ⟨h1, h2⟩ := raiseArgs_shape t m op.args n
      exact ⟨_, _, rfl, h1, h2⟩
    · cases h; exact shape_id t op n
  · split at h
    · rename_i hk
      have hl := hA.1 (by simp [hk])
      unfold raiseMul at h
      simp only at h
      split at h
      · split at h
        · split at h
          · split at h
            · cases h; exact shape_use t op _ (getD_mem (by omega)) _ n
            · split at h <;> cases h
              · exact shape_use t op _ (getD_mem (by omega)) _ n
              · exact shape_use t op _ (getD_mem (by omega)) _ n
          · cases h; exact shape_id t op n
        · cases h
      · cases h; exact shape_id t op n
    · split at h
      · rename_i hk
        have hl := hA.2 (by simp [hk])
        unfold raiseModReduce at h
        simp only at h
        split at h
        · simp only [Option.map_eq_some_iff] at h
          obtain ⟨s, -, h⟩ := h
          split at h
          · cases h; exact shape_use t op _ (headD_mem hl) _ n
          · cases h; exact shape_id t op n
        · cases h; exact shape_id t op n
      · cases h; exact shape_id t op n

/-! ## Single assignment -/

/-- The values defined after the operations. -/
def Def (P : Nat → Prop) (l : List Op) (v : Nat) : Prop := P v ∨ ∃ o ∈ l, o.res = v

theorem ssa_congr (N : Nat) (l : List Op) (P Q : Nat → Prop) (h : ∀ v, P v ↔ Q v) (hs : SSA N P l) : SSA N Q l := by
  have : P = Q := funext fun v => propext (h v)
  rwa [← this]

theorem ssa_append (N : Nat) (l₁ l₂ : List Op) (P : Nat → Prop) :
    SSA N P (l₁ ++ l₂) ↔ SSA N P l₁ ∧ SSA N (Def P l₁) l₂ := by
  induction l₁ generalizing P with
  | nil =>
    simp only [List.nil_append, SSA, true_and]
    constructor <;> refine ssa_congr _ _ _ _ fun v => by simp [Def]
  | cons o l ih =>
    simp only [List.cons_append, SSA, ih, and_assoc]
    have : ∀ v, Def (fun v => P v ∨ v = o.res) l v ↔ Def P (o :: l) v := by
      intro v
      simp only [Def, List.mem_cons]
      constructor
      · rintro ((h | rfl) | ⟨o', h, rfl⟩)
        · exact Or.inl h
        · exact Or.inr ⟨o, Or.inl rfl, rfl⟩
        · exact Or.inr ⟨o', Or.inr h, rfl⟩
      · rintro (h | ⟨o', rfl | h, rfl⟩)
        · exact Or.inl (Or.inl h)
        · exact Or.inl (Or.inr rfl)
        · exact Or.inr ⟨o', h, rfl⟩
    have : Def (fun v => P v ∨ v = o.res) l = Def P (o :: l) := funext fun v => propext (this v)
    rw [this]

theorem adjs_res {t : Nat → Fact} {A : List Nat} {n n' : Nat} {l : List Op} (h : Adjs t A n l n') (v : Nat) :
    (∃ o ∈ l, o.res = v) ↔ n ≤ v ∧ v < n' := by
  induction h with
  | nil => simp
  | cons n u m l n' _ hl ih =>
    have := hl.le
    simp only [List.mem_cons, exists_eq_or_imp, ih]
    simp only [adjustOp]
    omega

theorem adjs_ssa (N : Nat) {t : Nat → Fact} {A : List Nat} {n n' : Nat} {l : List Op} (h : Adjs t A n l n')
    (P : Nat → Prop) (hA : ∀ a ∈ A, P a) (hn : ∀ v, n ≤ v → v < n' → ¬ P v) (hN : n' ≤ N) : SSA N P l := by
  induction h generalizing P with
  | nil => trivial
  | cons n u m l n' hu hl ih =>
    have := hl.le
    refine ⟨by simpa [adjustOp] using hA u hu, hn n le_rfl (by omega), by simp [adjustOp]; omega,
      by simp [adjustOp], by simp [adjustOp], ?_⟩
    refine ih _ (fun a ha => Or.inl (hA a ha)) ?_ hN
    rintro v hv hv' (hP | rfl)
    · exact hn v (by omega) hv' hP
    · exact absurd hv (by simp [adjustOp])

/-- The walk keeps single assignment: `P` are the values defined in the input, `Q` those of the output. -/
theorem shape_ssa (N base : Nat) (t : Nat → Fact) (op : Op) (n : Nat) (l : List Op) (n' : Nat)
    (h : Shape t op n l n') (P Q : Nat → Prop) (hP : ∀ a ∈ op.args, P a) (hres : ¬ P op.res) (hb : op.res < base)
    (hA : Arity op) (hQ : ∀ v, Q v ↔ P v ∨ base ≤ v ∧ v < n) (hPb : ∀ v, P v → v < base) (hbn : base ≤ n)
    (hN : n' ≤ N) :
    SSA N Q l ∧ n ≤ n' ∧ ∀ v, Def Q l v ↔ (P v ∨ v = op.res) ∨ base ≤ v ∧ v < n' := by
  obtain ⟨pre, args', rfl, hadj, hrel⟩ := h
  have hle := hadj.le
  have hr := adjs_res hadj
  refine ⟨?_, hle, ?_⟩
  · rw [ssa_append]
    refine ⟨adjs_ssa N hadj Q (fun a ha => (hQ a).2 (Or.inl (hP a ha))) ?_ hN, ?_⟩
    · intro v hv _ hq
      rcases (hQ v).1 hq with hp | ⟨_, h⟩
      · have := hPb v hp; omega
      · omega
    · refine ⟨?_, ?_, by simp only; omega, ?_, ?_, trivial⟩
      · intro a' ha'
        simp only at ha'
        obtain ⟨a, ha, hrel'⟩ : ∃ a ∈ op.args, Repl t pre a a' := by
          clear hP hA hadj
          generalize op.args = args at hrel
          induction hrel with
          | nil => simp at ha'
          | cons h _ ih =>
            rcases List.mem_cons.1 ha' with rfl | ha'
            · exact ⟨_, by simp, h⟩
            · obtain ⟨a, h1, h2⟩ := ih ha'
              exact ⟨a, by simp [h1], h2⟩
        rcases hrel' with rfl | ⟨m, hm⟩
        · exact Or.inl ((hQ _).2 (Or.inl (hP _ ha)))
        · exact Or.inr ⟨_, hm, rfl⟩
      · rintro (hq | hq)
        · rcases (hQ _).1 hq with hp | ⟨h, _⟩
          · exact hres hp
          · simp only at h; omega
        · have := (hr _).1 hq
          simp only at this; omega
      · intro hk
        rw [← hrel.length_eq]
        exact hA.1 hk
      · intro hk
        rw [← hrel.length_eq]
        exact hA.2 hk
  · intro v
    simp only [Def, List.mem_append, or_and_right, exists_or, hr, hQ, List.mem_singleton, exists_eq_left]
    constructor
    · rintro ((h | h) | h | h)
      · exact Or.inl (Or.inl h)
      · exact Or.inr ⟨h.1, by omega⟩
      · exact Or.inr ⟨by omega, h.2⟩
      · exact Or.inl (Or.inr h.symm)
    · rintro ((h | h) | h)
      · exact Or.inl (Or.inl h)
      · exact Or.inr (Or.inr h.symm)
      · by_cases hv : v < n
        · exact Or.inl (Or.inr ⟨h.1, hv⟩)
        · exact Or.inr (Or.inl ⟨by omega, h.2⟩)

theorem raiseAll_ssa (N base : Nat) (cfg : Cfg) (t : Nat → Fact) (ops : List Op) (n : Nat) (l : List Op) (n' : Nat)
    (h : raiseAll cfg t ops n = some (l, n')) (P Q : Nat → Prop) (hs : SSA base P ops)
    (hQ : ∀ v, Q v ↔ P v ∨ base ≤ v ∧ v < n) (hPb : ∀ v, P v → v < base) (hbn : base ≤ n) (hN : n' ≤ N) :
    SSA N Q l ∧ n ≤ n' := by
  induction ops generalizing n l n' P Q with
  | nil => cases h; exact ⟨trivial, le_rfl⟩
  | cons op ops ih =>
    rw [raiseAll, Option.bind_eq_some_iff] at h
    obtain ⟨⟨l₁, n₁⟩, h1, h⟩ := h
    simp only [Option.map_eq_some_iff, Prod.mk.injEq, Prod.exists] at h
    obtain ⟨l₂, n₂, h2, rfl, rfl⟩ := h
    obtain ⟨a1, a2, a3, a4, a5, a6⟩ := hs
    have hA : Arity op := ⟨a4, a5⟩
    have hsh := raiseOp_shape cfg t op hA n l₁ n₁ h1
    have hle1 : n ≤ n₁ := by
      obtain ⟨_, _, _, h, _⟩ := hsh
      exact h.le
    have hPb' : ∀ v, P v ∨ v = op.res → v < base := by
      rintro v (h | rfl)
      · exact hPb v h
      · exact a3
    have hle2 := (ih n₁ l₂ n₂ h2 (fun v => P v ∨ v = op.res)
      (fun v => (P v ∨ v = op.res) ∨ base ≤ v ∧ v < n₁) a6 (fun _ => Iff.rfl) hPb' (by omega) hN).2
    obtain ⟨s1, -, s3⟩ := shape_ssa N base t op n l₁ n₁ hsh P Q a1 a2 a3 hA hQ hPb hbn (by omega)
    refine ⟨(ssa_append _ _ _ _).2 ⟨s1, ?_⟩, by omega⟩
    exact (ih n₁ l₂ n₂ h2 _ _ a6 s3 hPb' (by omega) hN).1

/-! ## Merging adjustments into initialisations -/

theorem initSource_local : Local initSource := fun _ _ _ _ _ => rfl

/-- The sources of the initialisations of the program. -/
def sources (l : List Op) : Nat → Option Nat := run initSource l fun _ => none

theorem mergeOp_res (src : Nat → Option Nat) (op : Op) : (mergeOp src op).res = op.res := by
  unfold mergeOp; split <;> rfl

theorem mergeOp_ne (src : Nat → Option Nat) (op : Op) (h : op.kind ≠ .adjust) : mergeOp src op = op := by
  unfold mergeOp
  split
  · simp_all
  · rfl

theorem mergeAll_eq (N : Nat) (P : Nat → Prop) (l : List Op) (src : Nat → Option Nat) (h : SSA N P l) :
    mergeAll src l = l.map (mergeOp (run initSource l src)) := by
  induction l generalizing P src with
  | nil => rfl
  | cons o l ih =>
    rw [mergeAll, List.map_cons, run, ih _ _ h.2.2.2.2.2]
    congr 1
    by_cases hk : o.kind = .adjust
    · have hm := h.1 _ (headD_mem (h.2.2.2.2.1 (by simp [hk])))
      have : run initSource l (upd src o.res (initSource src o)) (o.args.headD 0) = src (o.args.headD 0) := by
        rw [run_of_defined _ _ _ _ _ h.2.2.2.2.2 _ (Or.inl hm), upd_ne]
        intro e
        rw [e] at hm
        exact h.2.1 hm
      unfold mergeOp
      rw [this]
    · rw [mergeOp_ne _ _ hk, mergeOp_ne _ _ hk]

theorem mergeAll_ssa (N : Nat) (P : Nat → Prop) (l : List Op) (src : Nat → Option Nat) (h : SSA N P l)
    (hsrc : ∀ v c, src v = some c → P c) : SSA N P (mergeAll src l) := by
  induction l generalizing P src with
  | nil => trivial
  | cons o l ih =>
    obtain ⟨a1, a2, a3, a4, a5, a6⟩ := h
    have hrest : SSA N (fun v => P v ∨ v = (mergeOp src o).res)
        (mergeAll (upd src o.res (initSource src o)) l) := by
      rw [mergeOp_res]
      refine ih _ _ a6 ?_
      intro v c hc
      by_cases hv : v = o.res
      · subst hv
        rw [upd_eq] at hc
        unfold initSource at hc
        split at hc
        · exact Or.inl (a1 c (List.mem_of_mem_head? hc))
        · cases hc
      · rw [upd_ne _ _ hv] at hc
        exact Or.inl (hsrc v c hc)
    by_cases hk : ∃ m c, o.kind = .adjust ∧ o.ann = some m ∧ src (o.args.headD 0) = some c
    · obtain ⟨m, c, h1, h2, h3⟩ := hk
      have e : mergeOp src o = ⟨.init, [c], o.res, o.lvl, some m⟩ := by
        unfold mergeOp
        rw [h1, h2, h3]
      rw [mergeAll]
      refine ⟨?_, ?_, ?_, ?_, ?_, hrest⟩ <;> rw [e]
      · simpa using hsrc _ _ h3
      · exact a2
      · exact a3
      · simp
      · simp
    · have e : mergeOp src o = o := by
        unfold mergeOp
        split
        · rename_i m c h1 h2 h3
          exact absurd ⟨m, c, h1, h2, h3⟩ hk
        · rfl
      rw [mergeAll]
      refine ⟨?_, ?_, ?_, ?_, ?_, hrest⟩ <;> rw [e] <;> assumption

/-- The populated program is well formed. -/
theorem populate_wf (cfg : Cfg) (p p' : Prog) (hp : p.WF) (h : populate cfg p = some p') : p'.WF := by
  unfold populate at h
  simp only [Option.map_eq_some_iff, Prod.exists] at h
  obtain ⟨l, n', h, rfl⟩ := h
  have := raiseAll_ssa n' p.next cfg _ p.ops p.next l n' h (· < p.nargs) (· < p.nargs) hp.ssa
    (fun v => by omega) (fun v hv => lt_of_lt_of_le hv hp.nargs) le_rfl le_rfl
  refine ⟨le_trans hp.nargs this.2, ?_⟩
  exact mergeAll_ssa _ _ _ _ this.1 (by simp)

end Heir.Scale
