import Verif.RotKeys.Scope

/-!
# Values of the nodes of a block
-/

namespace Heir.RotKeys

open Heir.Dag (Kind LoopNode Sem Heap Env Lit FreeVar Ordered)

/-- Evaluation that stops at a rotation recorded in `P`. -/
abbrev RS (P : Int → Bool) : Sem Lit ROp := reject rotSem recOf P

/-- The value of a node with one result. -/
def den1 (P : Int → Bool) (D : Heap ROp) (σ : Env Lit) (v : Nat) : Option Lit :=
  (Dag.den (RS P) D σ v).bind Dag.only

/-- A node with one result. -/
def IsVal : Kind ROp → Prop
  | .pure _ _ => True
  | .var => True
  | .resultAt _ _ => True
  | _ => False

variable {P : Int → Bool} {D : Heap ROp} {cs : List (Nat × Cst)}

theorem den_val (hD : Ordered D) {v : Nat} (hv : IsVal (D v)) (σ : Env Lit) :
    ∃ o : Option Lit, Dag.den (RS P) D σ v = o.map (fun l => [l]) := by
  unfold Dag.den
  rw [Dag.denK]
  cases h : D v with
  | pure o c =>
    simp only
    cases h1 : Dag.allSome (fun c => (Dag.denK (RS P) D v σ c).bind List.head?) c with
    | none => exact ⟨none, by simp⟩
    | some vs => exact ⟨(RS P).pure o vs, by simp⟩
  | var => exact ⟨σ v, rfl⟩
  | resultAt m i =>
    simp only
    cases h1 : Dag.denK (RS P) D v σ m with
    | none => exact ⟨none, by simp⟩
    | some r => exact ⟨r[i]?, by simp⟩
  | ifElse _ _ _ => rw [h] at hv; exact hv.elim
  | loop _ => rw [h] at hv; exact hv.elim
  | yield _ => rw [h] at hv; exact hv.elim

theorem den1_head (hD : Ordered D) {v : Nat} (hv : IsVal (D v)) (σ : Env Lit) :
    (Dag.den (RS P) D σ v).bind List.head? = den1 P D σ v := by
  obtain ⟨o, ho⟩ := den_val (P := P) hD hv σ
  rw [den1, ho]
  cases o <;> rfl

theorem den1_pure (hD : Ordered D) {n : Nat} {o : ROp} {c : List Nat} (hn : D n = .pure o c)
    (hc : ∀ v ∈ c, IsVal (D v)) (σ : Env Lit) :
    den1 P D σ n = (Dag.allSome (den1 P D σ) c).bind ((RS P).pure o) := by
  rw [den1, Dag.den, Dag.denK, hn]
  simp only
  rw [Dag.allSome_congr (g := den1 P D σ)]
  · cases Dag.allSome (den1 P D σ) c with
    | none => rfl
    | some vs =>
      simp only [Option.bind_some]
      cases (RS P).pure o vs <;> rfl
  · intro v hv
    rw [Dag.denK_eq_den _ hD]
    · exact den1_head hD (hc v hv) σ
    · exact hD n v (by rw [hn]; exact hv)

theorem den1_var {n : Nat} (hn : D n = .var) (σ : Env Lit) : den1 P D σ n = σ n := by
  rw [den1, Dag.den, Dag.denK, hn]
  simp only
  cases σ n <;> rfl

theorem den1_resultAt (hD : Ordered D) {n m i : Nat} (hn : D n = .resultAt m i) (σ : Env Lit) :
    den1 P D σ n = (Dag.den (RS P) D σ m).bind fun r => r[i]? := by
  rw [den1, Dag.den, Dag.denK, hn]
  simp only
  rw [Dag.denK_eq_den _ hD _ (hD n m (by rw [hn]; simp [Dag.clearChildren]))]
  cases Dag.den (RS P) D σ m with
  | none => rfl
  | some r =>
    simp only [Option.bind_some]
    cases r[i]? <;> rfl

theorem den_yield (hD : Ordered D) {n : Nat} {c : List Nat} (hn : D n = .yield c) (σ : Env Lit) :
    Dag.den (RS P) D σ n = Dag.allSome (den1 P D σ) c := by
  rw [Dag.den, Dag.denK, hn]
  apply Dag.allSome_congr
  intro v hv
  rw [Dag.denK_eq_den _ hD _ (hD n v (by rw [hn]; exact hv))]
  rfl

theorem den_ite (hD : Ordered D) {n c t e : Nat} (hn : D n = .ifElse c t e) (hc : IsVal (D c))
    (σ : Env Lit) :
    Dag.den (RS P) D σ n = (den1 P D σ c).bind fun v =>
      (rotSem.truth v).bind fun b => Dag.den (RS P) D σ (if b then t else e) := by
  rw [Dag.den, Dag.denK, hn]
  simp only
  rw [Dag.denK_eq_den _ hD _ (hD n c (by rw [hn]; simp [Dag.clearChildren])), den1_head hD hc]
  congr 1; funext v
  congr 1; funext b
  refine Dag.denK_eq_den _ hD _ (hD n _ ?_)
  rw [hn]
  cases b <;> simp [Dag.clearChildren]

/-- One iteration. -/
def denRound (P : Int → Bool) (D : Heap ROp) (l : LoopNode) (σ : Env Lit) (i : Int)
    (vals : List Lit) : Option (List Lit) :=
  if l.iterArgs.length = vals.length ∧ Dag.isYield (D l.body) = true then
    (Dag.den (RS P) D (Dag.loopEnv (RS P) l σ i vals) l.body).bind
      fun r => if r.length = vals.length then some r else none
  else none

theorem den_loop (hD : Ordered D) {n : Nat} {l : LoopNode} (hn : D n = .loop l) (σ : Env Lit) :
    Dag.den (RS P) D σ n = (Dag.allSome (den1 P D σ) l.inits).bind fun vals =>
      (Dag.tripList l.lower l.upper l.step).bind fun is =>
        Dag.denLoop (denRound P D l σ) is vals := by
  rw [Dag.den, Dag.denK, hn]
  simp only
  rw [Dag.allSome_congr (g := den1 P D σ)]
  · congr 1; funext vals
    congr 1; funext is
    apply Dag.denLoop_congr
    intro i vals
    unfold denRound
    rw [Dag.denK_eq_den _ hD _ (hD n l.body (by rw [hn]; exact Dag.body_mem_clear l))]
    rfl
  · intro v hv
    rw [Dag.denK_eq_den _ hD _ (hD n v (by rw [hn]; simp [Dag.clearChildren, hv]))]
    rfl

theorem allSome_mem {α β : Type} {f : α → Option β} {l : List α} {vs : List β}
    (h : Dag.allSome f l = some vs) : ∀ a ∈ l, f a ≠ none := by
  induction l generalizing vs with
  | nil => simp
  | cons a l ih =>
    simp only [Dag.allSome] at h
    obtain ⟨b, hb, h⟩ := Option.bind_eq_some_iff.1 h
    obtain ⟨bs, hbs, -⟩ := Option.bind_eq_some_iff.1 h
    intro x hx
    rcases List.mem_cons.1 hx with rfl | hx
    · simp [hb]
    · exact ih hbs x hx

theorem allSome_cons {α β : Type} {f : α → Option β} {a : α} {l : List α} {vs : List β}
    (h : Dag.allSome f (a :: l) = some vs) : ∃ b bs, f a = some b ∧ Dag.allSome f l = some bs ∧
      vs = b :: bs := by
  simp only [Dag.allSome] at h
  obtain ⟨b, hb, h⟩ := Option.bind_eq_some_iff.1 h
  obtain ⟨bs, hbs, h⟩ := Option.bind_eq_some_iff.1 h
  exact ⟨b, bs, hb, hbs, (Option.some.inj h).symm⟩

theorem allSome_length {α β : Type} {f : α → Option β} {l : List α} {vs : List β}
    (h : Dag.allSome f l = some vs) : vs.length = l.length := by
  induction l generalizing vs with
  | nil => simp only [Dag.allSome, Option.some.injEq] at h; subst h; rfl
  | cons a l ih =>
    obtain ⟨b, bs, -, h2, rfl⟩ := allSome_cons h
    simp [ih h2]

/-- The operators below the stop. -/
theorem rs_pure {o : ROp} {vs : List Lit} {l : Lit} (h : (RS P).pure o vs = some l) :
    (∀ k ∈ recOf o vs, P k = false) ∧ rotPure o vs = some l := by
  simp only [RS, reject] at h
  split at h
  · simp at h
  · next h1 =>
    refine ⟨fun k hk => ?_, h⟩
    rw [List.any_eq_true] at h1
    cases hp : P k with
    | false => rfl
    | true => exact absurd ⟨k, hk, hp⟩ h1

/-- A value below a loop does not depend on the variables of the loop. -/
theorem den_below (hD : Ordered D) {l : LoopNode} (hl : ∀ a ∈ l.iterArgs, l.iv < a) {v : Nat}
    (hv : v < l.iv) (σ : Env Lit) (i : Int) (vals : List Lit) :
    den1 P D (Dag.loopEnv (RS P) l σ i vals) v = den1 P D σ v := by
  unfold den1
  rw [Dag.den_congr (RS P) hD (env' := σ)]
  intro x hx
  have := FreeVar.le hD hx
  apply Dag.loopEnv_other
  rintro (h | h)
  · omega
  · have := hl x h; omega

theorem node_isVal {k : K} {args : List Nat} {nd : Kind ROp} (h : node cs k args = some nd) :
    IsVal nd := by
  rcases node_children h with rfl | ⟨o, c, rfl, -⟩ <;> trivial

theorem opqNode_isVal (args : List (Nat × Bool)) : IsVal (opqNode args) := by
  rcases opqNode_children args with h | ⟨c, h, -⟩ <;> rw [h] <;> trivial

theorem yieldNode_isYield (b : Block) : ∀ {ns : List (Nat × Kind ROp)}, build cs b = some ns →
    (b.yieldNode, Kind.yield b.yields) ∈ ns := by
  induction b with
  | done y vs =>
    intro ns hb
    simp only [build, Option.some.injEq] at hb
    subst hb
    simp [Block.yieldNode, Block.yields]
  | op r k args rest ih =>
    intro ns hb
    obtain ⟨nd, ns', hn, hbr, rfl⟩ := build_op hb
    exact List.mem_cons_of_mem _ (ih hbr)
  | rot r t sh rest ih =>
    intro ns hb
    obtain ⟨ns', hbr, rfl⟩ := build_rot hb
    exact List.mem_cons_of_mem _ (ih hbr)
  | opq rs args rest ih =>
    intro ns hb
    obtain ⟨ns', hbr, rfl⟩ := build_opq hb
    exact List.mem_append_right _ (ih hbr)
  | region rs args ivs body rest ihb ih =>
    intro ns hb
    obtain ⟨ns', hbr, rfl⟩ := build_region hb
    exact List.mem_append_right _ (ih hbr)
  | loop n lb ub st iv inits args rs body rest ihb ih =>
    intro ns hb
    obtain ⟨l', u, s, ms, ns', -, -, -, hb1, hb2, rfl⟩ := build_loop hb
    exact List.mem_append_right _ (ih hb2)
  | ite n c rs hasElse t e rest iht ihe ih =>
    intro ns hb
    obtain ⟨ms, ms', ns', hb1, hb2, hb3, rfl⟩ := build_ite hb
    exact List.mem_append_right _ (ih hb3)

/-! ## Needed values -/

/-- Visible values come before and have one result. -/
def Vis (D : Heap ROp) (lo : Nat) (sc : List Nat) : Prop := ∀ v ∈ sc, v < lo ∧ IsVal (D v)

theorem Vis.cons {lo hi : Nat} {sc : List Nat} (h : Vis D lo sc) {r : Nat} (h1 : r < hi)
    (hlo : lo ≤ hi) (h2 : IsVal (D r)) : Vis D hi (r :: sc) := by
  intro v hv
  rcases List.mem_cons.1 hv with rfl | hv
  · exact ⟨h1, h2⟩
  · exact ⟨by have := (h v hv).1; omega, (h v hv).2⟩

theorem Vis.append {lo hi : Nat} {sc rs : List Nat} (h : Vis D lo sc) (hlo : lo ≤ hi)
    (h1 : ∀ r ∈ rs, r < hi ∧ IsVal (D r)) : Vis D hi (rs ++ sc) := by
  intro v hv
  rcases List.mem_append.1 hv with hv | hv
  · exact h1 v hv
  · exact ⟨by have := (h v hv).1; omega, (h v hv).2⟩

theorem Vis.weaken {lo hi : Nat} {sc : List Nat} (h : Vis D lo sc) (hlo : lo ≤ hi) : Vis D hi sc :=
  fun v hv => ⟨by have := (h v hv).1; omega, (h v hv).2⟩

theorem const32_iff {v : Nat} (h : const32 cs v = true) :
    ∃ i, List.lookup v cs = some (.int i) ∧ in32 i = true := by
  unfold const32 at h
  split at h
  · next i hi => exact ⟨i, hi, h⟩
  · simp at h

theorem wrap32_of {x : Int} (h : in32 x = true) : wrap32 x = x := by
  simp only [in32, decide_eq_true_eq] at h
  unfold wrap32
  rw [Int.bmod_eq_iff (by decide)]
  refine ⟨by omega, by omega, by simp⟩

theorem intConst_of {v : Nat} {i : Int} (h : List.lookup v cs = some (.int i)) :
    intConst cs v = some i := by
  simp only [intConst, h]

theorem tripList_once {l u s : Int} (h1 : l < u) (h2 : 0 < s) {is : List Int}
    (h : Dag.tripList l u s = some is) : ∃ js, is = l :: js := by
  unfold Dag.tripList at h
  rw [if_neg (by omega), if_neg (by omega)] at h
  simp only at h
  split at h
  · simp at h
  · have hc : 0 < ((u - l + s - 1) / s).toNat := by
      have : 1 ≤ (u - l + s - 1) / s := by
        rw [Int.le_ediv_iff_mul_le h2]; omega
      omega
    obtain ⟨c, hc⟩ : ∃ c, ((u - l + s - 1) / s).toNat = c + 1 := ⟨_, (Nat.succ_pred_eq_of_pos hc).symm⟩
    rw [hc, List.range_succ_eq_map] at h
    simp only [Option.some.injEq] at h
    exact ⟨_, by rw [← h]; simp; rfl⟩

/-- The nodes of the results of a loop or a conditional. -/
theorem results_node {ns : List (Nat × Kind ROp)} {n : Nat} {rs : List Nat}
    (hns : ∀ p ∈ resultsFrom n 0 rs, D p.1 = p.2) {i r : Nat} (h : rs[i]? = some r) :
    D r = .resultAt n i := by
  have := hns _ (resultsFrom_get (n := n) (j := 0) h)
  simpa using this

theorem results_isVal {n : Nat} {rs : List Nat}
    (hns : ∀ p ∈ resultsFrom n 0 rs, D p.1 = p.2) {r : Nat} (h : r ∈ rs) : IsVal (D r) := by
  obtain ⟨i, hi⟩ := List.getElem?_of_mem h
  rw [results_node (ns := []) hns hi]
  trivial

theorem results_den (hD : Ordered D) {n : Nat} {rs : List Nat}
    (hns : ∀ p ∈ resultsFrom n 0 rs, D p.1 = p.2) {σ : Env Lit} {L : List Nat}
    (hL : ∀ v ∈ L, den1 P D σ v ≠ none) (h : rs.any (L.contains ·) = true) :
    Dag.den (RS P) D σ n ≠ none := by
  rw [List.any_eq_true] at h
  obtain ⟨r, hr, hrL⟩ := h
  obtain ⟨i, hi⟩ := List.getElem?_of_mem hr
  have h1 := hL r (by simpa using hrL)
  rw [den1_resultAt hD (results_node (ns := []) hns hi)] at h1
  intro h2
  rw [h2] at h1
  exact h1 rfl

theorem needs_children {k : K} {args : List Nat} {nd : Kind ROp} (h : node cs k args = some nd)
    {v : Nat} (hv : v ∈ needs k args) : ∃ o c, nd = .pure o c ∧ v ∈ c := by
  unfold node at h
  split at h
  case h_9 =>
    simp [needs] at hv
  case h_7 =>
    obtain ⟨d, -, rfl⟩ := Option.map_eq_some_iff.1 h
    exact ⟨_, _, rfl, by simpa [needs] using hv⟩
  all_goals first
    | (simp only [Option.some.injEq] at h; subst h
       first
         | (simp [needs] at hv; done)
         | exact ⟨_, _, rfl, by simpa [needs] using hv⟩)
    | simp at h

theorem opq_needs (hD : Ordered D) {sc : List Nat} {args : List (Nat × Bool)} {r : Nat}
    (hr : D r = opqNode args) (ha : ∀ a ∈ args, a.1 ∈ sc) (hsc : ∀ v ∈ sc, IsVal (D v))
    {σ : Env Lit} (h : den1 P D σ r ≠ none) :
    ∀ v ∈ (args.filter (·.2)).map Prod.fst, den1 P D σ v ≠ none := by
  intro v hv
  rcases opqNode_children args with h' | ⟨c, h', hc, rfl⟩
  · unfold opqNode at h'
    split at h'
    · next h0 => rw [h0] at hv; simp at hv
    · simp at h'
  · rw [den1_pure hD (hr.trans h') (fun v hv => hsc v (opqNode_mem ha hv))] at h
    cases h1 : Dag.allSome (den1 P D σ) ((args.filter (·.2)).map Prod.fst) with
    | none => rw [h1] at h; exact absurd rfl h
    | some vs => exact allSome_mem h1 v hv

theorem live_den (hD : Ordered D) (b : Block) : ∀ {lo hi : Nat} {sc L : List Nat}
    {ns : List (Nat × Kind ROp)} {σ : Env Lit}, wf lo sc b = some hi → build cs b = some ns →
    (∀ p ∈ ns, D p.1 = p.2) → Vis D lo sc → live cs b = some L →
    Dag.den (RS P) D σ b.yieldNode ≠ none → ∀ v ∈ L, den1 P D σ v ≠ none := by
  induction b with
  | done y vs =>
    intro lo hi sc L ns σ h hb hN hsc hL hy v hv
    simp only [build, Option.some.injEq] at hb
    subst hb
    have hn := hN (y, .yield vs) (by simp)
    simp only [live, Option.some.injEq] at hL
    subst hL
    simp only [Block.yieldNode] at hy
    rw [den_yield hD hn] at hy
    cases h1 : Dag.allSome (den1 P D σ) vs with
    | none => exact absurd h1 hy
    | some vs => exact allSome_mem h1 v hv
  | op r k args rest ih =>
    intro lo hi sc L ns σ h hb hN hsc hL hy
    obtain ⟨h1, h2, h3⟩ := wf_op h
    obtain ⟨nd, ns', hn, hbr, rfl⟩ := build_op hb
    have hr := hN (r, nd) (by simp)
    simp only at hr
    simp only [live] at hL
    obtain ⟨L', hL', hL⟩ := Option.bind_eq_some_iff.1 hL
    have H := ih h3 hbr (fun p hp => hN p (by simp [hp]))
      (hsc.cons (by omega) (by omega) (hr ▸ node_isVal hn)) hL' hy
    split at hL
    case isFalse => simp only [Option.some.injEq] at hL; subst hL; exact H
    case isTrue hrL =>
      simp only [Option.some.injEq] at hL
      subst hL
      intro v hv
      rcases List.mem_append.1 hv with hv | hv
      · obtain ⟨o, c, rfl, hvc⟩ := needs_children hn hv
        rcases node_children hn with h' | ⟨o', c', h', hc'⟩
        · simp at h'
        · simp only [Kind.pure.injEq] at h'
          obtain ⟨rfl, rfl⟩ := h'
          have := H r (by simpa using hrL)
          rw [den1_pure hD hr (fun v hv => (hsc v (h2 v (hc' v hv))).2)] at this
          cases h1 : Dag.allSome (den1 P D σ) c with
          | none => rw [h1] at this; exact absurd rfl this
          | some vs => exact allSome_mem h1 v hvc
      · exact H v hv
  | rot r t sh rest ih =>
    intro lo hi sc L ns σ h hb hN hsc hL hy
    obtain ⟨h1, ht, h2, h3⟩ := wf_rot h
    obtain ⟨ns', hbr, rfl⟩ := build_rot hb
    have hr := hN _ (List.mem_cons_self ..)
    simp only at hr
    simp only [live] at hL
    obtain ⟨L', hL', hL⟩ := Option.bind_eq_some_iff.1 hL
    have H := ih h3 hbr (fun p hp => hN p (by simp [hp]))
      (hsc.cons (by omega) (by omega) (hr ▸ trivial)) hL' hy
    split at hL
    case isFalse => simp at hL
    case isTrue hrL =>
      simp only [Option.some.injEq] at hL
      subst hL
      intro v hv
      rcases List.mem_append.1 hv with hv | hv
      · have := H r (by simpa using hrL)
        rw [den1_pure hD hr (fun v hv => (hsc v (by
          rcases List.mem_cons.1 hv with rfl | hv
          · exact ht
          · exact h2 v hv)).2)] at this
        cases h1 : Dag.allSome (den1 P D σ) (t :: dynShifts sh) with
        | none => rw [h1] at this; exact absurd rfl this
        | some vs => exact allSome_mem h1 v hv
      · exact H v hv
  | opq rs args rest ih =>
    intro lo hi sc L ns σ h hb hN hsc hL hy
    obtain ⟨h1, m, h2, h3⟩ := wf_opq h
    obtain ⟨ns', hbr, rfl⟩ := build_opq hb
    have hr : ∀ r ∈ rs, D r = opqNode args := fun r hr =>
      hN (r, opqNode args) (List.mem_append_left _ (List.mem_map.2 ⟨r, hr, rfl⟩))
    simp only [live] at hL
    obtain ⟨L', hL', hL⟩ := Option.bind_eq_some_iff.1 hL
    have H := ih h3 hbr (fun p hp => hN p (by simp [hp]))
      (hsc.append (inc_asc h2).le fun r h =>
        ⟨((inc_asc h2).mem h).2, hr r h ▸ opqNode_isVal args⟩) hL' hy
    split at hL
    case isFalse => simp only [Option.some.injEq] at hL; subst hL; exact H
    case isTrue hrL =>
      simp only [Option.some.injEq] at hL
      subst hL
      intro v hv
      rcases List.mem_append.1 hv with hv | hv
      · rw [List.any_eq_true] at hrL
        obtain ⟨r, hrm, hrL⟩ := hrL
        exact opq_needs hD (hr r hrm) h1 (fun v hv => (hsc v hv).2) (H r (by simpa using hrL)) v hv
      · exact H v hv
  | region rs args ivs body rest ihb ih =>
    intro lo hi sc L ns σ h hb hN hsc hL hy
    obtain ⟨h0, m1, m2, m3, h1, h2, h3, h4⟩ := wf_region h
    obtain ⟨ns', hbr, rfl⟩ := build_region hb
    have hr : ∀ r ∈ rs, D r = opqNode args := fun r hr =>
      hN (r, opqNode args) (List.mem_append_left _ (List.mem_map.2 ⟨r, hr, rfl⟩))
    simp only [live] at hL
    obtain ⟨L', hL', hL⟩ := Option.bind_eq_some_iff.1 hL
    have l1 := (inc_asc h1).le
    have l2 := wf_le h2
    have l3 := (inc_asc h3).le
    have H := ih h4 hbr (fun p hp => hN p (by simp [hp]))
      (hsc.append (by omega) fun r h =>
        ⟨((inc_asc h3).mem h).2, hr r h ▸ opqNode_isVal args⟩) hL' hy
    split at hL
    · simp at hL
    split at hL
    case isFalse => simp only [Option.some.injEq] at hL; subst hL; exact H
    case isTrue hrL =>
      simp only [Option.some.injEq] at hL
      subst hL
      intro v hv
      rcases List.mem_append.1 hv with hv | hv
      · rw [List.any_eq_true] at hrL
        obtain ⟨r, hrm, hrL⟩ := hrL
        exact opq_needs hD (hr r hrm) h0 (fun v hv => (hsc v hv).2) (H r (by simpa using hrL)) v hv
      · exact H v hv
  | loop n lb ub st iv inits args rs body rest ihb ih =>
    intro lo hi sc L ns σ h hb hN hsc hL hy
    obtain ⟨hh, m1, m2, m3, h1, h2, h3, h4, h5⟩ := wf_loop h
    obtain ⟨l', u, s, ms, ns', hl', hu, hs, hb1, hb2, rfl⟩ := build_loop hb
    simp only [List.cons_append, List.append_assoc] at hN
    have hres : ∀ p ∈ resultsFrom n 0 rs, D p.1 = p.2 := fun p hp => hN p (by simp [hp])
    simp only [live] at hL
    obtain ⟨L', hL', hL⟩ := Option.bind_eq_some_iff.1 hL
    have l1 := (inc_asc h1).le
    have l2 := wf_le h2
    have l3 := (inc_asc h4).le
    have H := ih h5 hb2 (fun p hp => hN p (by simp [hp]))
      (hsc.append (by have := hh.1; omega) fun r h =>
        ⟨((inc_asc h4).mem h).2, results_isVal hres h⟩) hL' hy
    split at hL
    case isFalse =>
      split at hL
      · simp only [Option.some.injEq] at hL; subst hL; exact H
      · simp at hL
    case isTrue hrL =>
      obtain ⟨M, hM, hL⟩ := Option.bind_eq_some_iff.1 hL
      simp only [Option.some.injEq] at hL
      subst hL
      have hn := results_den hD hres H hrL
      have hnD := hN (n, .loop ⟨iv, inits, args, body.yieldNode, wrap32 l', wrap32 u, wrap32 s⟩)
        (by simp)
      rw [den_loop hD hnD] at hn
      simp only at hn
      cases hi' : Dag.allSome (den1 P D σ) inits with
      | none => rw [hi'] at hn; exact absurd rfl hn
      | some vals =>
        rw [hi', Option.bind_some] at hn
        intro v hv
        rcases List.mem_append.1 hv with hv | hv
        · rcases List.mem_append.1 hv with hv | hv
          · exact allSome_mem hi' v hv
          · split at hv
            case isFalse => simp at hv
            case isTrue hro =>
              simp only [List.mem_filter, decide_eq_true_eq] at hv
              simp only [runsOnce, Bool.and_eq_true] at hro
              obtain ⟨⟨⟨c1, c2⟩, c3⟩, hro⟩ := hro
              obtain ⟨x1, e1, i1⟩ := const32_iff c1
              obtain ⟨x2, e2, i2⟩ := const32_iff c2
              obtain ⟨x3, e3, i3⟩ := const32_iff c3
              rw [intConst_of e1, Option.some.injEq] at hl'
              rw [intConst_of e2, Option.some.injEq] at hu
              rw [intConst_of e3, Option.some.injEq] at hs
              subst hl' hu hs
              rw [e1, e2, e3] at hro
              simp only [Bool.and_eq_true, decide_eq_true_eq] at hro
              rw [wrap32_of i1, wrap32_of i2, wrap32_of i3] at hn
              cases ht : Dag.tripList x1 x2 x3 with
              | none => rw [ht] at hn; exact absurd rfl hn
              | some is =>
                obtain ⟨js, rfl⟩ := tripList_once hro.1 hro.2 ht
                rw [ht, Option.bind_some, Dag.denLoop, denRound] at hn
                simp only at hn
                split at hn
                case isFalse => exact absurd rfl hn
                case isTrue =>
                  have hbody : Dag.den (RS P) D (Dag.loopEnv (RS P) ⟨iv, inits, args,
                      body.yieldNode, x1, x2, x3⟩ σ x1 vals) body.yieldNode ≠ none := by
                    intro h0
                    apply hn
                    rw [h0]
                    rfl
                  have hM' := ihb h2 hb1 (fun p hp => hN p (by simp [hp])) (by
                    have hc : Vis D (iv + 1) (iv :: sc) := hsc.cons (by omega)
                      (by have := hh.1; omega) (by
                        have := hN (iv, .var) (by simp)
                        simp only at this
                        rw [this]; trivial)
                    exact hc.append l1 fun a ha => ⟨((inc_asc h1).mem ha).2, by
                      have := hN (a, .var) (by simp [ha])
                      simp only at this
                      rw [this]; trivial⟩) hM hbody v hv.1
                  rwa [den_below hD (fun a ha => ((inc_asc h1).mem ha).1) hv.2] at hM'
        · exact H v hv
  | ite n c rs hasElse t e rest iht ihe ih =>
    intro lo hi sc L ns σ h hb hN hsc hL hy
    obtain ⟨hh, m1, m2, m3, h1, h2, h3, h4, h5⟩ := wf_ite h
    obtain ⟨ms, ms', ns', hb1, hb2, hb3, rfl⟩ := build_ite hb
    simp only [List.cons_append, List.append_assoc] at hN
    have hres : ∀ p ∈ resultsFrom n 0 rs, D p.1 = p.2 := fun p hp => hN p (by simp [hp])
    simp only [live] at hL
    obtain ⟨L', hL', hL⟩ := Option.bind_eq_some_iff.1 hL
    have l1 := wf_le h1
    have l2 := wf_le h2
    have l3 := (inc_asc h4).le
    have H := ih h5 hb3 (fun p hp => hN p (by simp [hp]))
      (hsc.append (by omega) fun r h =>
        ⟨((inc_asc h4).mem h).2, results_isVal hres h⟩) hL' hy
    split at hL
    case isFalse =>
      split at hL
      · simp only [Option.some.injEq] at hL; subst hL; exact H
      · simp at hL
    case isTrue hrL =>
      obtain ⟨M, hM, hL⟩ := Option.bind_eq_some_iff.1 hL
      obtain ⟨M', hM', hL⟩ := Option.bind_eq_some_iff.1 hL
      simp only [Option.some.injEq] at hL
      subst hL
      have hn := results_den hD hres H hrL
      have hnD := hN (n, .ifElse c t.yieldNode e.yieldNode) (by simp)
      simp only at hnD
      rw [den_ite hD hnD (hsc c hh.1).2] at hn
      cases hc : den1 P D σ c with
      | none => rw [hc] at hn; exact absurd rfl hn
      | some vc =>
        rw [hc, Option.bind_some] at hn
        cases ht : rotSem.truth vc with
        | none => rw [ht] at hn; exact absurd rfl hn
        | some b =>
          rw [ht, Option.bind_some] at hn
          intro v hv
          rcases List.mem_append.1 hv with hv | hv
          · rcases List.mem_cons.1 hv with rfl | hv
            · simp [hc]
            · simp only [List.mem_filter] at hv
              cases b with
              | true => exact iht h1 hb1 (fun p hp => hN p (by simp [hp])) hsc hM hn v hv.1
              | false =>
                exact ihe h2 hb2 (fun p hp => hN p (by simp [hp])) (hsc.weaken (by omega)) hM' hn v
                  (by simpa using hv.2)
          · exact H v hv

end Heir.RotKeys
