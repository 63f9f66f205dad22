import Mathlib.Algebra.BigOperators.Group.List.Basic
import Verif.Place.Values

/-! # How many operations are placed -/

namespace Heir.Place
open Heir.Mgmt

theorem count_append (k : Kind) (l l' : List Op) : count k (l ++ l') = count k l + count k l' := List.countP_append

theorem count_chain (k : Kind) (ks : List Kind) : ∀ v n, count k (chain ks v n) = ks.countP (· == k) := by
  induction ks with
  | nil => intro v n; rfl
  | cons x ks ih =>
    intro v n
    have := ih n (n + 1)
    simp only [count] at this ⊢
    rw [chain, List.countP_cons, List.countP_cons, this]

/-- The sum over the operands from position `i` on. -/
def argSum (f : Nat → Nat → Nat) : Nat → List Nat → Nat
  | _, [] => 0
  | i, a :: as => f i a + argSum f (i + 1) as

theorem edgeOps_count (k : Kind) {E : Nat → Nat → List Kind → Prop} {f : Nat → Nat → Nat} {σ : Nat → Nat} {n i n' : Nat}
    {as : List Nat} {pre : List Op} {args : List Nat} (h : EdgeOps E σ n i as n' pre args) :
    (∀ j a ks, as[j]? = some a → E (i + j) a ks → ks.countP (· == k) = f (i + j) a) → count k pre = argSum f i as := by
  induction h with
  | nil => intro _; rfl
  | cons n i a as ks n' pre args hE _ ih =>
    intro hf
    rw [count_append, count_chain, argSum, hf 0 a ks rfl hE, ih]
    · rfl
    · intro j b ks hj he
      rw [show i + 1 + j = i + (j + 1) by omega] at he ⊢
      exact hf (j + 1) b ks (by simpa using hj) he

theorem emitted_count (k : Kind) {E : Op → Nat → Nat → List Kind → Prop} {N : Op → List Kind → Prop}
    {f : Op → Nat → Nat → Nat} {g : Op → Nat} {n n' : Nat} {σ σ' : Nat → Nat} {ops ops' : List Op}
    (h : Emitted E N n σ ops n' σ' ops') :
    (∀ op ∈ ops, op.kind ≠ k) →
    (∀ op ∈ ops, ∀ j a ks, op.args[j]? = some a → E op j a ks → ks.countP (· == k) = f op j a) →
    (∀ op ∈ ops, ∀ ks, N op ks → ks.countP (· == k) = g op) →
    count k ops' = (ops.map fun op => argSum (f op) 0 op.args + g op).sum := by
  induction h with
  | nil => intro _ _ _; rfl
  | cons n σ op ops n₁ pre args ks n' σ' ops' hpre hN _ ih =>
    intro hk hf hg
    rw [count_append, edgeOps_count k hpre fun j a ks hj he => by
      rw [Nat.zero_add] at he ⊢
      exact hf op (by simp) j a ks hj he]
    have h1 : count k ({ op with args := args } :: (chain ks op.res n₁ ++ ops')) =
        count k (chain ks op.res n₁ ++ ops') := by
      have := hk op (by simp)
      simp only [count, List.countP_cons]
      simp [this]
    rw [h1, count_append, count_chain, hg op (by simp) ks hN, ih (fun o ho => hk o (by simp [ho]))
      (fun o ho => hf o (by simp [ho])) (fun o ho => hg o (by simp [ho])), List.map_cons, List.sum_cons]
    omega

theorem kinds_boot (ms : List Mg) : ∀ id, (kinds id ms).2.countP (· == .bootstrap) = ms.countP (· == .boot) := by
  induction ms with
  | nil => intro id; rfl
  | cons m ms ih =>
    intro id
    cases m <;> simp only [kinds, List.countP_cons, ih] <;> simp

theorem kinds_rescale (ms : List Mg) : ∀ id, (kinds id ms).2.countP (· == .modReduce) = rescales ms := by
  induction ms with
  | nil => intro id; rfl
  | cons m ms ih =>
    intro id
    simp only [rescales] at ih ⊢
    cases m <;> simp only [kinds, List.countP_cons, ih] <;> simp

theorem argSum_zero {f : Nat → Nat → Nat} (as : List Nat) : ∀ i, (∀ j a, as[j]? = some a → f (i + j) a = 0) →
    argSum f i as = 0 := by
  induction as with
  | nil => intro i _; rfl
  | cons a as ih =>
    intro i h
    have h0 := h 0 a rfl
    rw [Nat.add_zero] at h0
    rw [argSum, h0, ih (i + 1) fun j b hj => by
      have := h (j + 1) b (by simpa using hj)
      rwa [show i + (j + 1) = i + 1 + j by omega] at this]

theorem argSum_le {sec : Nat → Bool} {f : Nat → Nat → Nat} {g : Nat → Int} (as : List Nat) : ∀ i,
    (∀ j a, as[j]? = some a → sec a = true → (f (i + j) a : Int) ≤ g (i + j)) →
    (∀ j a, as[j]? = some a → sec a = false → f (i + j) a = 0) →
    (argSum f i as : Int) ≤ ((((as.zipIdx i).map fun x => (x.2, x.1)).filter fun x => sec x.2).map fun x => g x.1).sum := by
  induction as with
  | nil => intro i _ _; simp [argSum]
  | cons a as ih =>
    intro i h1 h2
    have ih' := ih (i + 1)
      (fun j b hj hs => by
        have := h1 (j + 1) b (by simpa using hj) hs
        rwa [show i + (j + 1) = i + 1 + j by omega] at this)
      (fun j b hj hs => by
        have := h2 (j + 1) b (by simpa using hj) hs
        rwa [show i + (j + 1) = i + 1 + j by omega] at this)
    simp only [argSum, List.zipIdx_cons, List.map_cons, List.filter_cons]
    cases hs : sec a
    · have := h2 0 a rfl hs
      rw [Nat.add_zero] at this
      rw [this]
      simpa using ih'
    · have := h1 0 a rfl hs
      rw [Nat.add_zero] at this
      simp only [if_true, List.map_cons, List.sum_cons]
      push_cast
      omega

section
variable {o : Opts} {c : Ctx} {p : Prog} {s : Var → ℚ}

theorem count_nil_kinds {k : Kind} : ([] : List Kind).countP (· == k) = 0 := rfl

/-- As many bootstraps as the solution has. -/
theorem Feasible.bootstraps (h : Feasible o c p s) (ht : Told c p) (hsw : 0 < o.sw) (hfb : 0 < o.factorBits)
    (hlb : 0 ≤ o.lower) {q : Prog} (hq : placeProg o c s p = some q) :
    count .bootstrap q.ops = (tracked c p).countP fun op => boots s op.res := by
  obtain ⟨n, σ, ops, h1, rfl⟩ := placeProg_some hq
  have hem := placeOps_emitted p.ops h1
  rw [emitted_count .bootstrap (f := fun _ _ _ => 0) (g := fun op => if c.sec op.res && boots s op.res then 1 else 0) hem
    (by intro op hop hk
        have := (ht.kind op hop).1
        simp [hk, erased] at this)
    (by intro op hop j a ks hj hks
        by_cases hs : c.sec op.res = true ∧ c.sec a = true
        · obtain ⟨ms, id, hm, rfl⟩ := hks
          obtain ⟨ms', hm', _, _, hb⟩ := h.decode_edge hsw hfb (mem_tracked.2 ⟨hop, hs.1⟩) hj hs.2
            (ht.args hop a (List.mem_of_getElem? hj))
          rw [hm] at hm'
          cases hm'
          rw [kinds_boot, List.countP_eq_zero]
          intro m hm' hb'
          rw [beq_iff_eq] at hb'
          exact hb (hb' ▸ hm')
        · rw [edgeKinds_free hks (by simpa using hs)]
          rfl)
    (by intro op hop ks hks
        cases hs : c.sec op.res
        · rw [nodeKinds_free hks hs]
          rfl
        · obtain ⟨ms, id, hm, rfl⟩ := hks
          obtain ⟨ms', hm', _, hb, _⟩ := h.decode_node hsw hfb hlb (mem_tracked.2 ⟨hop, hs⟩)
          rw [hm] at hm'
          cases hm'
          rw [List.countP_append, kinds_boot, hb, List.countP_eq_zero.2 (by
            intro k hk
            rw [relinOf_mem k hk]
            simp)]
          simp)]
  have : ∀ l : List Op, (l.map fun op => argSum (fun _ _ => 0) 0 op.args +
      if c.sec op.res && boots s op.res then 1 else 0).sum = (l.filter fun op => c.sec op.res).countP fun op => boots s op.res := by
    intro l
    induction l with
    | nil => rfl
    | cons op l ih =>
      rw [List.map_cons, List.sum_cons, ih, argSum_zero op.args 0 fun _ _ _ => rfl, List.filter_cons]
      cases hs : c.sec op.res
      · simp
      · simp only [if_true, List.countP_cons, Bool.true_and]
        omega
  exact this p.ops

theorem sum_boot (h : Feasible o c p s) :
    ((tracked c p).map fun op => s (.boot op.res)).sum = (((tracked c p).countP fun op => boots s op.res : Nat) : ℚ) := by
  have : ∀ l : List Op, (∀ op ∈ l, op ∈ tracked c p) →
      (l.map fun op => s (.boot op.res)).sum = ((l.countP fun op => boots s op.res : Nat) : ℚ) := by
    intro l
    induction l with
    | nil => intro _; simp
    | cons op l ih =>
      intro hl
      obtain ⟨b, hb, hb0, hb1⟩ := h.box.boot op (hl op (by simp))
      rw [List.map_cons, List.sum_cons, ih fun x hx => hl x (by simp [hx]), List.countP_cons, hb]
      have : b = 0 ∨ b = 1 := by omega
      rcases this with rfl | rfl
      · have : boots s op.res = false := by simp [boots, hb]
        rw [this]
        simp
      · have : boots s op.res = true := by
          rw [boots, hb]
          norm_num
        rw [this]
        simp only [if_true]
        push_cast
        ring
  exact this _ fun _ h => h

/-- Without bootstraps at most as many rescalings as the solution has. -/
theorem Feasible.rescalings (h : Feasible o c p s) (ht : Told c p) (hsw : 0 < o.sw) (hfb : 0 < o.factorBits)
    (hlb : 0 ≤ o.lower) (hnb : ∀ op ∈ tracked c p, boots s op.res = false) {q : Prog} (hq : placeProg o c s p = some q) :
    (count .modReduce q.ops : Int) ≤ ((tracked c p).map fun op => rounded (s (.rescale op.res))).sum +
      ((tracked c p).flatMap fun op => (edges c op).map fun x => rounded (s (.edgeRescale op.res x.1))).sum := by
  obtain ⟨n, σ, ops, h1, rfl⟩ := placeProg_some hq
  have hem := placeOps_emitted p.ops h1
  rw [emitted_count .modReduce (f := fun op j a => rescales ((edgeOf o c s op j a).getD []))
    (g := fun op => rescales ((nodeOf o c s op).getD [])) hem
    (by intro op hop hk
        have := (ht.kind op hop).1
        simp [hk, erased] at this)
    (by rintro op hop j a ks hj ⟨ms, id, hm, rfl⟩
        rw [kinds_rescale, hm]
        rfl)
    (by rintro op hop ks ⟨ms, id, hm, rfl⟩
        rw [List.countP_append, kinds_rescale, hm, List.countP_eq_zero.2 (by
            intro k hk
            rw [relinOf_mem k hk]
            simp)]
        simp)]
  have : ∀ l : List Op, (∀ op ∈ l, op ∈ p.ops) → (((l.map fun op =>
      argSum (fun j a => rescales ((edgeOf o c s op j a).getD [])) 0 op.args + rescales ((nodeOf o c s op).getD [])).sum :
      Nat) : Int) ≤
      ((l.filter fun op => c.sec op.res).map fun op => rounded (s (.rescale op.res))).sum +
      ((l.filter fun op => c.sec op.res).flatMap fun op => (edges c op).map fun x => rounded (s (.edgeRescale op.res x.1))).sum := by
    intro l
    induction l with
    | nil => intro _; simp
    | cons op l ih =>
      intro hl
      have hop := hl op (by simp)
      have ih' := ih fun x hx => hl x (by simp [hx])
      rw [List.map_cons, List.sum_cons, List.filter_cons]
      cases hs : c.sec op.res
      · have h1 : argSum (fun j a => rescales ((edgeOf o c s op j a).getD [])) 0 op.args = 0 :=
          argSum_zero _ _ fun j a _ => by simp [edgeOf, hs, rescales]
        have h2 : rescales ((nodeOf o c s op).getD []) = 0 := by simp [nodeOf, hs, rescales]
        rw [h1, h2]
        simpa using ih'
      · have hop' := mem_tracked.2 ⟨hop, hs⟩
        obtain ⟨ms, hm, _, _, hr⟩ := h.decode_node hsw hfb hlb hop'
        have h2 : (rescales ((nodeOf o c s op).getD []) : Int) ≤ rounded (s (.rescale op.res)) := by
          rw [hm]
          exact hr (hnb op hop')
        have h1 := argSum_le (sec := c.sec) (f := fun j a => rescales ((edgeOf o c s op j a).getD []))
          (g := fun j => rounded (s (.edgeRescale op.res j))) op.args 0
          (fun j a hj ha => by
            obtain ⟨ms, hm, _, hr, _⟩ := h.decode_edge hsw hfb hop' hj ha (ht.args hop a (List.mem_of_getElem? hj))
            simp only [Nat.zero_add, hm, Option.getD_some]
            exact hr)
          (fun j a hj ha => by simp [edgeOf, ha, rescales])
        have h1' : (argSum (fun j a => rescales ((edgeOf o c s op j a).getD [])) 0 op.args : Int) ≤
          ((edges c op).map fun x => rounded (s (.edgeRescale op.res x.1))).sum := h1
        simp only [if_true, List.map_cons, List.sum_cons, List.flatMap_cons, List.sum_append]
        push_cast at ih' ⊢
        omega
  exact this p.ops fun _ h => h

end
end Heir.Place
