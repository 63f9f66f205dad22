import Mathlib.Data.List.GetD
import Mathlib.Tactic.Tauto
import Verif.Mgmt.After
import Verif.Place.Decode

/-! # The shape of the program with the operations placed, and simulations along it -/

namespace Heir.Place
open Heir.Mgmt

/-- Chains of kinds given by `E` on the operands. -/
inductive EdgeOps (E : Nat → Nat → List Kind → Prop) (σ : Nat → Nat) :
    Nat → Nat → List Nat → Nat → List Op → List Nat → Prop
  | nil (n i : Nat) : EdgeOps E σ n i [] n [] []
  | cons (n i a : Nat) (as : List Nat) (ks : List Kind) (n' : Nat) (pre : List Op) (args : List Nat) :
    E i a ks → EdgeOps E σ (n + ks.length) (i + 1) as n' pre args →
    EdgeOps E σ n i (a :: as) n' (chain ks (σ a) n ++ pre) (chainRes ks (σ a) n :: args)

/-- Chains given by `E` on the operands and by `N` on the results. -/
inductive Emitted (E : Op → Nat → Nat → List Kind → Prop) (N : Op → List Kind → Prop) :
    Nat → (Nat → Nat) → List Op → Nat → (Nat → Nat) → List Op → Prop
  | nil (n : Nat) (σ : Nat → Nat) : Emitted E N n σ [] n σ []
  | cons (n : Nat) (σ : Nat → Nat) (op : Op) (ops : List Op) (n₁ : Nat) (pre : List Op) (args : List Nat)
    (ks : List Kind) (n' : Nat) (σ' : Nat → Nat) (ops' : List Op) :
    EdgeOps (E op) σ n 0 op.args n₁ pre args → N op ks →
    Emitted E N (n₁ + ks.length) (upd σ op.res (chainRes ks op.res n₁)) ops n' σ' ops' →
    Emitted E N n σ (op :: ops) n' σ' (pre ++ { op with args := args } :: (chain ks op.res n₁ ++ ops'))

/-- What the pass puts on operands and on results. -/
def EdgeKinds (o : Opts) (c : Ctx) (s : Var → ℚ) (op : Op) (i a : Nat) (ks : List Kind) : Prop :=
  ∃ ms id, edgeOf o c s op i a = some ms ∧ ks = (kinds id ms).2

def NodeKinds (o : Opts) (c : Ctx) (s : Var → ℚ) (op : Op) (ks : List Kind) : Prop :=
  ∃ ms id, nodeOf o c s op = some ms ∧ ks = relinOf c op ++ (kinds id ms).2

theorem placeEdges_ops {o : Opts} {c : Ctx} {s : Var → ℚ} {op : Op} {σ : Nat → Nat} (as : List Nat) :
    ∀ {n id i r}, placeEdges o c s op σ n id i as = some r →
      EdgeOps (EdgeKinds o c s op) σ n i as r.1 r.2.2.1 r.2.2.2 := by
  induction as with
  | nil => intro n id i r h; simp only [placeEdges, Option.some.injEq] at h; subst h; exact .nil n i
  | cons a as ih =>
    intro n id i r h
    simp only [placeEdges, Option.bind_eq_some_iff, Option.map_eq_some_iff] at h
    obtain ⟨ms, hm, r', hr, rfl⟩ := h
    exact .cons n i a as _ _ _ _ ⟨ms, id, hm, rfl⟩ (ih hr)

theorem placeOps_emitted {o : Opts} {c : Ctx} {s : Var → ℚ} (ops : List Op) :
    ∀ {n id σ r}, placeOps o c s n id σ ops = some r →
      Emitted (EdgeKinds o c s) (NodeKinds o c s) n σ ops r.1 r.2.1 r.2.2 := by
  induction ops with
  | nil => intro n id σ r h; simp only [placeOps, Option.some.injEq] at h; subst h; exact .nil n σ
  | cons op ops ih =>
    intro n id σ r h
    simp only [placeOps, Option.bind_eq_some_iff, Option.map_eq_some_iff] at h
    obtain ⟨e, he, ms, hm, r', hr, rfl⟩ := h
    exact .cons n σ op ops _ _ _ _ _ _ _ (placeEdges_ops _ he) ⟨ms, _, hm, rfl⟩ (ih hr)

theorem placeEdges_some {o : Opts} {c : Ctx} {s : Var → ℚ} {op : Op} {σ : Nat → Nat} (as : List Nat) :
    ∀ n id i, (∀ j a, as[j]? = some a → ∃ ms, edgeOf o c s op (i + j) a = some ms) →
      ∃ r, placeEdges o c s op σ n id i as = some r := by
  induction as with
  | nil => intro n id i _; exact ⟨_, rfl⟩
  | cons a as ih =>
    intro n id i h
    obtain ⟨ms, hm⟩ := h 0 a rfl
    simp only [Nat.add_zero] at hm
    obtain ⟨r, hr⟩ := ih (n + (kinds id ms).2.length) (kinds id ms).1 (i + 1) (fun j a' hj => by
      have := h (j + 1) a' (by simpa using hj)
      rwa [show i + (j + 1) = i + 1 + j by omega] at this)
    exact ⟨_, by simp only [placeEdges, hm, Option.bind_some, hr, Option.map_some]; rfl⟩

theorem placeOps_some {o : Opts} {c : Ctx} {s : Var → ℚ} (ops : List Op) :
    ∀ n id σ, (∀ op ∈ ops, ∀ (j : Nat) (a : Nat), op.args[j]? = some a → ∃ ms, edgeOf o c s op j a = some ms) →
      (∀ op ∈ ops, ∃ ms, nodeOf o c s op = some ms) → ∃ r, placeOps o c s n id σ ops = some r := by
  induction ops with
  | nil => intro n id σ _ _; exact ⟨_, rfl⟩
  | cons op ops ih =>
    intro n id σ he hn
    obtain ⟨e, he'⟩ := placeEdges_some (o := o) (c := c) (s := s) (op := op) (σ := σ) op.args n id 0
      (fun j a h => by simpa using he op (by simp) j a h)
    obtain ⟨ms, hm⟩ := hn op (by simp)
    obtain ⟨r, hr⟩ := ih (e.1 + (relinOf c op ++ (kinds e.2.1 ms).2).length) (kinds e.2.1 ms).1
      (upd σ op.res (chainRes (relinOf c op ++ (kinds e.2.1 ms).2) op.res e.1))
      (fun op h => he op (by simp [h])) (fun op h => hn op (by simp [h]))
    exact ⟨_, by simp only [placeOps, he', hm, Option.bind_some, hr, Option.map_some]; rfl⟩

/-! ## Simulation -/

/-- Running operations that relate the state before to the result. -/
inductive ExecR {α : Type} (S : (Nat → α) → Op → α → Prop) : (Nat → α) → List Op → (Nat → α) → Prop
  | nil (t : Nat → α) : ExecR S t [] t
  | cons (t t' : Nat → α) (op : Op) (ops : List Op) (x : α) :
    S t op x → ExecR S (upd t op.res x) ops t' → ExecR S t (op :: ops) t'

variable {α : Type}

theorem execR_append {S : (Nat → α) → Op → α → Prop} {l₁ l₂ : List Op} :
    ∀ {t t' t''}, ExecR S t l₁ t' → ExecR S t' l₂ t'' → ExecR S t (l₁ ++ l₂) t'' := by
  induction l₁ with
  | nil => intro t t' t'' h h'; cases h; exact h'
  | cons o l ih => intro t t' t'' h h'; cases h with | cons _ _ _ _ x h1 h2 => exact .cons _ _ _ _ x h1 (ih h2 h')

/-- A chain of kinds takes `x` to `y`. -/
def Path (S : (Nat → α) → Op → α → Prop) : List Kind → α → α → Prop
  | [], x, y => x = y
  | k :: ks, x, y => ∃ z, (∀ t u r, t u = x → S t ⟨k, [u], r⟩ z) ∧ Path S ks z y

theorem path_append {S : (Nat → α) → Op → α → Prop} {l₁ l₂ : List Kind} :
    ∀ {x y z}, Path S l₁ x y → Path S l₂ y z → Path S (l₁ ++ l₂) x z := by
  induction l₁ with
  | nil => intro x y z h h'; cases h; exact h'
  | cons k l ih => intro x y z h h'; obtain ⟨w, h1, h2⟩ := h; exact ⟨w, h1, ih h2 h'⟩

theorem path_chain {S : (Nat → α) → Op → α → Prop} {ks : List Kind} :
    ∀ {x y v n t}, Path S ks x y → t v = x →
      ∃ t', ExecR S t (chain ks v n) t' ∧ t' (chainRes ks v n) = y ∧ ∀ u < n, t' u = t u := by
  induction ks with
  | nil => intro x y v n t h ht; exact ⟨t, .nil t, ht.trans h, fun _ _ => rfl⟩
  | cons k ks ih =>
    intro x y v n t h ht
    obtain ⟨z, h1, h2⟩ := h
    obtain ⟨t', e1, e2, e3⟩ := ih (v := n) (n := n + 1) (t := upd t n z) h2 (upd_eq t n z)
    exact ⟨t', .cons _ _ _ _ z (h1 t v n ht) e1, e2, fun u hu => by
      rw [e3 u (by omega), upd_ne _ _ (by omega)]⟩

theorem edgeOps_sim {S : (Nat → α) → Op → α → Prop} {E : Nat → Nat → List Kind → Prop} {σ : Nat → Nat}
    {V : Nat → α → Prop} {W : Nat → α → Prop} {n i n' : Nat} {as : List Nat} {pre : List Op} {args : List Nat}
    (h : EdgeOps E σ n i as n' pre args) :
    ∀ (t : Nat → α), (∀ j a ks x, as[j]? = some a → E (i + j) a ks → V a x → ∃ y, Path S ks x y ∧ W (i + j) y) →
      (∀ a ∈ as, V a (t (σ a))) → (∀ a ∈ as, σ a < n) →
      n ≤ n' ∧ args.length = as.length ∧ (∀ a ∈ args, a < n') ∧
      ∃ t', ExecR S t pre t' ∧ (∀ j a, args[j]? = some a → W (i + j) (t' a)) ∧ ∀ u < n, t' u = t u := by
  induction h with
  | nil n i => intro t _ _ _; exact ⟨Nat.le_refl _, rfl, by simp, t, .nil t, by simp, fun _ _ => rfl⟩
  | cons n i a as ks n' pre args hE _ ih =>
    intro t hp hV hσ
    obtain ⟨y, p1, p2⟩ := hp 0 a ks (t (σ a)) rfl (by simpa using hE) (hV a (by simp))
    simp only [Nat.add_zero] at p2
    have hσa := hσ a (by simp)
    obtain ⟨t₁, e1, e2, e3⟩ := path_chain (v := σ a) (n := n) p1 rfl
    obtain ⟨i1, i2, i3, t', f1, f2, f3⟩ := ih t₁ (fun j a' ks' x hj h1 h2 => by
        have := hp (j + 1) a' ks' x (by simpa using hj) (by rw [show i + (j + 1) = i + 1 + j by omega]; exact h1) h2
        rwa [show i + (j + 1) = i + 1 + j by omega] at this)
      (fun b hb => by rw [e3 _ (hσ b (by simp [hb]))]; exact hV b (by simp [hb]))
      (fun b hb => by have := hσ b (by simp [hb]); omega)
    have hres := chainRes_lt (ks := ks) hσa
    refine ⟨by omega, by simp [i2], ?_, t', execR_append e1 f1, ?_, fun u hu => by rw [f3 u (by omega), e3 u hu]⟩
    · intro b hb
      rcases List.mem_cons.1 hb with rfl | hb
      · omega
      · exact i3 b hb
    · intro j b hb
      cases j with
      | zero =>
        simp only [List.getElem?_cons_zero, Option.some.injEq] at hb
        subst hb
        rw [f3 _ hres, e2]
        exact p2
      | succ j =>
        have := f2 j b (by simpa using hb)
        rwa [show i + (j + 1) = i + 1 + j by omega]

theorem goodRen_chain {base n n₁ : Nat} {P : Nat → Prop} {σ : Nat → Nat} (h : GoodRen base n P σ) (hb : base ≤ n)
    (hn : n ≤ n₁) (ks : List Kind) (r : Nat) :
    GoodRen base (n₁ + ks.length) (fun v => P v ∨ v = r) (upd σ r (chainRes ks r n₁)) := by
  have hc := chainRes_cases ks r n₁
  refine ⟨fun v hv => ?_, fun v => ?_⟩
  · by_cases hr : v = r
    · subst hr; rw [upd_eq]
      exact chainRes_lt (by omega)
    · rw [upd_ne _ _ hr]; have := h.lt v hv; omega
  · by_cases hr : v = r
    · subst hr; rw [upd_eq]
      rcases hc with h' | h'
      · exact Or.inl h'
      · exact Or.inr ⟨by omega, Or.inr rfl⟩
    · rw [upd_ne _ _ hr]; exact (h.cases v).imp_right fun x => ⟨x.1, Or.inl x.2⟩

/-- If chains and operations keep the relation `V` to the values of the original program, the program with the
operations placed runs and ends in related values. -/
theorem emitted_sim {S : (Nat → α) → Op → α → Prop} {E : Op → Nat → Nat → List Kind → Prop} {N : Op → List Kind → Prop}
    {V : Nat → α → Prop} {W : Op → Nat → α → Prop} {base n n' : Nat} {σ σ' : Nat → Nat} {ops ops' : List Op}
    (h : Emitted E N n σ ops n' σ' ops') :
    (∀ op ∈ ops, ∀ j a ks x, op.args[j]? = some a → E op j a ks → V a x → ∃ y, Path S ks x y ∧ W op j y) →
    (∀ op ∈ ops, ∀ ks (t : Nat → α) args, N op ks → args.length = op.args.length →
      (∀ j a, args[j]? = some a → W op j (t a)) → ∃ x y, S t { op with args := args } x ∧ Path S ks x y ∧ V op.res y) →
    ∀ (P : Nat → Prop) (t : Nat → α), base ≤ n → SSA base P ops → (∀ v, P v → v < base) → GoodRen base n P σ →
      (∀ v, P v → V v (t (σ v))) →
      ∃ t', ExecR S t ops' t' ∧ ∀ v, (P v ∨ ∃ op ∈ ops, op.res = v) → V v (t' (σ' v)) := by
  induction h with
  | nil n σ => intro _ _ P t _ _ _ _ hV; exact ⟨t, .nil t, fun v hv => hV v (by simpa using hv)⟩
  | cons n σ op ops n₁ pre args ks n' σ' ops' hpre hN _ ih =>
    intro hE hO P t hb hs hP hσ hV
    obtain ⟨h1, h2, h3, h4, h5, h6⟩ := hs
    obtain ⟨i1, i2, i3, t₁, e1, e2, e3⟩ := edgeOps_sim (V := V) (W := W op) hpre t
      (fun j a ks x hj he hx => by
        rw [Nat.zero_add] at he ⊢
        exact hE op (by simp) j a ks x hj he hx)
      (fun a ha => hV a (h1 a ha)) (fun a ha => hσ.lt a (hP a (h1 a ha)))
    obtain ⟨x, y, x1, x2, x3⟩ := hO op (by simp) ks t₁ args hN i2 (fun j a hj => by
      have := e2 j a hj
      rwa [Nat.zero_add] at this)
    obtain ⟨t₂, c1, c2, c3⟩ := path_chain (v := op.res) (n := n₁) (t := upd t₁ op.res x) x2 (upd_eq _ _ _)
    have hne : ∀ v, P v → σ v ≠ op.res := by
      intro v hv h
      rcases hσ.cases v with h' | ⟨h', _⟩
      · exact h2 (by rw [← h, h']; exact hv)
      · omega
    obtain ⟨t', d1, d2⟩ := ih (fun o ho => hE o (by simp [ho])) (fun o ho => hO o (by simp [ho]))
      (fun v => P v ∨ v = op.res) t₂ (by omega) h6
      (by rintro v (hv | rfl)
          · exact hP v hv
          · exact h3) (goodRen_chain hσ hb i1 ks op.res) (by
        intro v hv
        by_cases hr : v = op.res
        · subst hr
          rw [upd_eq, c2]
          exact x3
        · have hv' : P v := by rcases hv with hv | hv; exacts [hv, absurd hv hr]
          have hlt := hσ.lt v (hP v hv')
          rw [upd_ne _ _ hr, c3 _ (by omega), upd_ne _ _ (hne v hv'), e3 _ hlt]
          exact hV v hv')
    refine ⟨t', execR_append e1 (.cons _ _ _ _ x x1 (execR_append c1 d1)), fun v hv => d2 v ?_⟩
    rcases hv with hv | ⟨o, ho, rfl⟩
    · exact Or.inl (Or.inl hv)
    · rcases List.mem_cons.1 ho with rfl | ho
      · exact Or.inl (Or.inr rfl)
      · exact Or.inr ⟨o, ho, rfl⟩

/-! ## Static single assignment -/

theorem edgeOps_le {E : Nat → Nat → List Kind → Prop} {σ : Nat → Nat} {n i n' : Nat} {as : List Nat} {pre : List Op}
    {args : List Nat} (h : EdgeOps E σ n i as n' pre args) : n ≤ n' := by
  induction h with
  | nil => exact Nat.le_refl _
  | cons _ _ _ _ _ _ _ _ _ _ ih => omega

theorem edgeOps_ssa {E : Nat → Nat → List Kind → Prop} {σ : Nat → Nat} {M n i n' : Nat} {as : List Nat} {pre : List Op}
    {args : List Nat} (h : EdgeOps E σ n i as n' pre args) (hE : ∀ i a ks, E i a ks → ∀ k ∈ ks, k.isMgmt = true) :
    ∀ (P : Nat → Prop), (∀ a ∈ as, P (σ a)) → (∀ u, P u → u < n) → n' ≤ M →
      n ≤ n' ∧ args.length = as.length ∧ SSA M P pre ∧ (∀ o ∈ pre, n ≤ o.res ∧ o.res < n') ∧
      ∀ a ∈ args, P a ∨ ∃ o ∈ pre, o.res = a := by
  induction h with
  | nil n i => intro P _ _ _; exact ⟨Nat.le_refl _, rfl, trivial, by simp, by simp⟩
  | cons n i a as ks n' pre args hk hrest ih =>
    intro P hσ hP hM
    have hle := edgeOps_le hrest
    obtain ⟨s1, s2⟩ := ssa_chain (N := M) ks (hE i a ks hk) (σ a) n P (hσ a (by simp)) hP (by omega)
    obtain ⟨i1, i2, i3, i4, i5⟩ := ih (fun v => P v ∨ ∃ o ∈ chain ks (σ a) n, o.res = v)
      (fun b hb => Or.inl (hσ b (by simp [hb])))
      (by rintro u (hu | ⟨o, ho, rfl⟩)
          · have := hP u hu; omega
          · exact (chain_mem ho).2.1) hM
    refine ⟨by omega, by simp [i2], (ssa_append _ _ _).2 ⟨s1, i3⟩, ?_, ?_⟩
    · intro o ho
      rcases List.mem_append.1 ho with ho | ho
      · have := chain_mem ho; omega
      · have := i4 o ho; omega
    · intro b hb
      simp only [List.mem_append]
      rcases List.mem_cons.1 hb with rfl | hb
      · rcases s2 with h | ⟨o, ho, h⟩
        · exact Or.inl h
        · exact Or.inr ⟨o, Or.inl ho, h⟩
      · rcases i5 b hb with (h | ⟨o, ho, h⟩) | ⟨o, ho, h⟩
        · exact Or.inl h
        · exact Or.inr ⟨o, Or.inl ho, h⟩
        · exact Or.inr ⟨o, Or.inr ho, h⟩

theorem emitted_le {E : Op → Nat → Nat → List Kind → Prop} {N : Op → List Kind → Prop} {n n' : Nat}
    {σ σ' : Nat → Nat} {ops ops' : List Op} (h : Emitted E N n σ ops n' σ' ops') : n ≤ n' := by
  induction h with
  | nil => exact Nat.le_refl _
  | cons _ _ _ _ _ _ _ _ _ _ _ h1 _ _ ih => have := edgeOps_le h1; omega

theorem emitted_ssa {E : Op → Nat → Nat → List Kind → Prop} {N : Op → List Kind → Prop} {base n n' : Nat}
    {σ σ' : Nat → Nat} {ops ops' : List Op} (h : Emitted E N n σ ops n' σ' ops')
    (hE : ∀ op i a ks, E op i a ks → ∀ k ∈ ks, k.isMgmt = true) (hN : ∀ op ks, N op ks → ∀ k ∈ ks, k.isMgmt = true) :
    ∀ (P P' : Nat → Prop), base ≤ n → SSA base P ops → (∀ v, P v → v < base) → GoodRen base n P σ →
      (∀ v < base, P' v ↔ P v) → (∀ v, P v → P' (σ v)) → (∀ v, P' v → v < n) →
      SSA n' P' ops' ∧ ∀ v, (P v ∨ ∃ op ∈ ops, op.res = v) → P' (σ' v) ∨ ∃ o ∈ ops', o.res = σ' v := by
  induction h with
  | nil n σ =>
    intro P P' _ _ _ _ _ hPσ _
    exact ⟨trivial, fun v hv => Or.inl (hPσ v (by simpa using hv))⟩
  | cons n σ op ops n₁ pre args ks n' σ' ops' hpre hNk hrest ih =>
    intro P P' hb hs hP hσ hPP hPσ hPn
    obtain ⟨h1, h2, h3, h4, h5, h6⟩ := hs
    have hle := emitted_le hrest
    obtain ⟨e1, e2, e3, e4, e5⟩ := edgeOps_ssa (M := n') hpre (hE op) P' (fun a ha => hPσ a (h1 a ha)) hPn (by omega)
    have hnres : ¬ P' op.res := fun h => h2 ((hPP _ h3).1 h)
    set Q : Nat → Prop := fun v => (P' v ∨ ∃ o ∈ pre, o.res = v) ∨ v = op.res with hQ
    have hQn : ∀ u, Q u → u < n₁ := by
      rintro u ((hu | ⟨o, ho, rfl⟩) | rfl)
      · have := hPn u hu; omega
      · exact (e4 o ho).2
      · omega
    obtain ⟨s1, s2⟩ := ssa_chain (N := n') ks (hN op ks hNk) op.res n₁ Q (Or.inr rfl) hQn hle
    obtain ⟨r1, r2⟩ := ih (fun v => P v ∨ v = op.res) (fun v => Q v ∨ ∃ o ∈ chain ks op.res n₁, o.res = v)
      (by omega) h6
      (by rintro v (hv | rfl)
          · exact hP v hv
          · exact h3) (goodRen_chain hσ hb e1 ks op.res)
      (by intro v hv
          constructor
          · rintro (((h | ⟨o, ho, rfl⟩) | h) | ⟨o, ho, rfl⟩)
            · exact Or.inl ((hPP v hv).1 h)
            · have := (e4 o ho).1; omega
            · exact Or.inr h
            · have := (chain_mem ho).1; omega
          · rintro (h | h)
            · exact Or.inl (Or.inl (Or.inl ((hPP v hv).2 h)))
            · exact Or.inl (Or.inr h))
      (by intro v hv
          by_cases hr : v = op.res
          · subst hr; rw [upd_eq]; exact s2
          · rw [upd_ne _ _ hr]
            rcases hv with hv | hv
            · exact Or.inl (Or.inl (Or.inl (hPσ v hv)))
            · exact absurd hv hr)
      (by rintro v (hv | ⟨o, ho, rfl⟩)
          · have := hQn v hv; omega
          · exact (chain_mem ho).2.1)
    refine ⟨?_, ?_⟩
    · rw [ssa_append]
      refine ⟨e3, ?_, ?_, ?_, ?_, ?_, ?_⟩
      · exact e5
      · rintro (h | ⟨o, ho, h⟩)
        · exact hnres h
        · have := (e4 o ho).1
          have h' : o.res = op.res := h
          omega
      · show op.res < n'
        omega
      · intro h; simp only; rw [e2]; exact h4 h
      · intro h; simp only; rw [e2]; exact h5 h
      · rw [ssa_append]
        exact ⟨s1, r1⟩
    · intro v hv
      have hv' : (P v ∨ v = op.res) ∨ ∃ o ∈ ops, o.res = v := by
        rcases hv with hv | ⟨o, ho, rfl⟩
        · exact Or.inl (Or.inl hv)
        · rcases List.mem_cons.1 ho with rfl | ho
          · exact Or.inl (Or.inr rfl)
          · exact Or.inr ⟨o, ho, rfl⟩
      simp only [List.mem_append, List.mem_cons]
      rcases r2 v hv' with (((h | ⟨o, ho, h⟩) | h) | ⟨o, ho, h⟩) | ⟨o, ho, h⟩
      · exact Or.inl h
      · exact Or.inr ⟨o, Or.inl ho, h⟩
      · exact Or.inr ⟨{ op with args := args }, Or.inr (Or.inl rfl), h.symm⟩
      · exact Or.inr ⟨o, Or.inr (Or.inr (Or.inl ho)), h⟩
      · exact Or.inr ⟨o, Or.inr (Or.inr (Or.inr ho)), h⟩

end Heir.Place
