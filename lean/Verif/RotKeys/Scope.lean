import Verif.RotKeys.Heap

/-!
# Scoping of the DAG of a block
-/

namespace Heir.RotKeys

open Heir.Dag (Kind LoopNode Sem Heap Env Lit FreeVar Ordered)

/-- The variables of the loops of a block, with the loops. -/
def Block.binders : Block → List (Nat × Nat)
  | .done _ _ => []
  | .op _ _ _ rest => rest.binders
  | .rot _ _ _ rest => rest.binders
  | .opq _ _ rest => rest.binders
  | .region _ _ _ _ rest => rest.binders
  | .loop n _ _ _ iv _ args _ body rest =>
    (iv, n) :: args.map (fun a => (a, n)) ++ body.binders ++ rest.binders
  | .ite _ _ _ _ t e rest => t.binders ++ e.binders ++ rest.binders

/-- The results of operations of a block. -/
def Block.plain : Block → List Nat
  | .done _ _ => []
  | .op r _ _ rest => r :: rest.plain
  | .rot r _ _ rest => r :: rest.plain
  | .opq rs _ rest => rs ++ rest.plain
  | .region rs _ _ _ rest => rs ++ rest.plain
  | .loop _ _ _ _ _ _ _ _ body rest => body.plain ++ rest.plain
  | .ite _ _ _ _ t e rest => t.plain ++ e.plain ++ rest.plain

variable {cs : List (Nat × Cst)}

theorem binders_asc (b : Block) : ∀ {lo hi : Nat} {sc : List Nat}, wf lo sc b = some hi →
    Asc lo (b.binders.map Prod.fst) hi := by
  induction b with
  | done y vs =>
    intro lo hi sc h
    exact wf_le h
  | op r k args rest ih =>
    intro lo hi sc h
    obtain ⟨h1, -, h2⟩ := wf_op h
    exact (ih h2).weaken (by omega) (Nat.le_refl _)
  | rot r t sh rest ih =>
    intro lo hi sc h
    obtain ⟨h1, -, -, h2⟩ := wf_rot h
    exact (ih h2).weaken (by omega) (Nat.le_refl _)
  | opq rs args rest ih =>
    intro lo hi sc h
    obtain ⟨-, m, h1, h2⟩ := wf_opq h
    have := (inc_asc h1).le
    exact (ih h2).weaken (by omega) (Nat.le_refl _)
  | region rs args ivs body rest ihb ih =>
    intro lo hi sc h
    obtain ⟨-, a, b, c, h1, h2, h3, h4⟩ := wf_region h
    have := (inc_asc h1).le; have := (inc_asc h3).le; have := wf_le h2
    exact (ih h4).weaken (by omega) (Nat.le_refl _)
  | loop n lb ub st iv inits args rs body rest ihb ih =>
    intro lo hi sc h
    obtain ⟨hh, a, b, c, h1, h2, h3, h4, h5⟩ := wf_loop h
    simp only [Block.binders, List.map_append, List.map_cons, List.map_map]
    have e1 : List.map (Prod.fst ∘ fun a => (a, n)) args = args := List.map_id' args
    rw [e1]
    have A : Asc lo (iv :: args) a := ⟨hh.1, inc_asc h1⟩
    have := (inc_asc h4).le
    exact (A.append (ihb h2)).append ((ih h5).weaken (by omega) (Nat.le_refl _))
  | ite n c rs hasElse t e rest iht ihe ih =>
    intro lo hi sc h
    obtain ⟨hh, a, b, c', h1, h2, h3, h4, h5⟩ := wf_ite h
    simp only [Block.binders, List.map_append]
    have := (inc_asc h4).le
    exact ((iht h1).append (ihe h2)).append ((ih h5).weaken (by omega) (Nat.le_refl _))

theorem plain_range (b : Block) : ∀ {lo hi : Nat} {sc : List Nat}, wf lo sc b = some hi →
    ∀ r ∈ b.plain, lo ≤ r ∧ r < hi := by
  induction b with
  | done y vs => intro lo hi sc h r hr; simp [Block.plain] at hr
  | op r k args rest ih =>
    intro lo hi sc h x hx
    obtain ⟨h1, -, h2⟩ := wf_op h
    have := wf_le h2
    rcases List.mem_cons.1 hx with rfl | hx
    · omega
    · have := ih h2 x hx; omega
  | rot r t sh rest ih =>
    intro lo hi sc h x hx
    obtain ⟨h1, -, -, h2⟩ := wf_rot h
    have := wf_le h2
    rcases List.mem_cons.1 hx with rfl | hx
    · omega
    · have := ih h2 x hx; omega
  | opq rs args rest ih =>
    intro lo hi sc h x hx
    obtain ⟨-, m, h1, h2⟩ := wf_opq h
    have := wf_le h2
    rcases List.mem_append.1 hx with hx | hx
    · have := (inc_asc h1).mem hx; omega
    · have := ih h2 x hx; have := (inc_asc h1).le; omega
  | region rs args ivs body rest ihb ih =>
    intro lo hi sc h x hx
    obtain ⟨-, a, b, c, h1, h2, h3, h4⟩ := wf_region h
    have := (inc_asc h1).le; have := (inc_asc h3).le; have := wf_le h2; have := wf_le h4
    rcases List.mem_append.1 hx with hx | hx
    · have := (inc_asc h3).mem hx; omega
    · have := ih h4 x hx; omega
  | loop n lb ub st iv inits args rs body rest ihb ih =>
    intro lo hi sc h x hx
    obtain ⟨hh, a, b, c, h1, h2, h3, h4, h5⟩ := wf_loop h
    have := (inc_asc h1).le; have := (inc_asc h4).le; have := wf_le h2; have := wf_le h5
    have := hh.1
    rcases List.mem_append.1 hx with hx | hx
    · have := ihb h2 x hx; omega
    · have := ih h5 x hx; omega
  | ite n c rs hasElse t e rest iht ihe ih =>
    intro lo hi sc h x hx
    obtain ⟨hh, a, b, c', h1, h2, h3, h4, h5⟩ := wf_ite h
    have := wf_le h1; have := (inc_asc h4).le; have := wf_le h2; have := wf_le h5
    simp only [Block.plain, List.mem_append] at hx
    rcases hx with (hx | hx) | hx
    · have := iht h1 x hx; omega
    · have := ihe h2 x hx; omega
    · have := ih h5 x hx; omega

theorem plain_disjoint (b : Block) : ∀ {lo hi : Nat} {sc : List Nat}, wf lo sc b = some hi →
    ∀ r ∈ b.plain, r ∉ b.binders.map Prod.fst := by
  induction b with
  | done y vs => intro lo hi sc h r hr; simp [Block.plain] at hr
  | op r k args rest ih =>
    intro lo hi sc h x hx hb
    obtain ⟨h1, -, h2⟩ := wf_op h
    rcases List.mem_cons.1 hx with rfl | hx
    · have := (binders_asc rest h2).mem hb; omega
    · exact ih h2 x hx hb
  | rot r t sh rest ih =>
    intro lo hi sc h x hx hb
    obtain ⟨h1, -, -, h2⟩ := wf_rot h
    rcases List.mem_cons.1 hx with rfl | hx
    · have := (binders_asc rest h2).mem hb; omega
    · exact ih h2 x hx hb
  | opq rs args rest ih =>
    intro lo hi sc h x hx hb
    obtain ⟨-, m, h1, h2⟩ := wf_opq h
    rcases List.mem_append.1 hx with hx | hx
    · have := (inc_asc h1).mem hx; have := (binders_asc rest h2).mem hb; omega
    · exact ih h2 x hx hb
  | region rs args ivs body rest ihb ih =>
    intro lo hi sc h x hx hb
    obtain ⟨-, a, b, c, h1, h2, h3, h4⟩ := wf_region h
    rcases List.mem_append.1 hx with hx | hx
    · have := (inc_asc h3).mem hx; have := (binders_asc rest h4).mem hb; omega
    · exact ih h4 x hx hb
  | loop n lb ub st iv inits args rs body rest ihb ih =>
    intro lo hi sc h x hx hb
    obtain ⟨hh, a, b, c, h1, h2, h3, h4, h5⟩ := wf_loop h
    have := (inc_asc h1).le; have := (inc_asc h4).le; have := wf_le h2; have := wf_le h5
    have := hh.1
    simp only [Block.binders, List.map_append, List.map_cons, List.map_map] at hb
    have e1 : List.map (Prod.fst ∘ fun a => (a, n)) args = args := List.map_id' args
    rw [e1] at hb
    simp only [List.mem_append, List.mem_cons] at hb
    rcases List.mem_append.1 hx with hx | hx
    · have hr := plain_range body h2 x hx
      rcases hb with ((rfl | hb) | hb) | hb
      · omega
      · have := (inc_asc h1).mem hb; omega
      · exact ihb h2 x hx hb
      · have := (binders_asc rest h5).mem hb; omega
    · have hr := plain_range rest h5 x hx
      rcases hb with ((rfl | hb) | hb) | hb
      · omega
      · have := (inc_asc h1).mem hb; omega
      · have := (binders_asc body h2).mem hb; omega
      · exact ih h5 x hx hb
  | ite n c rs hasElse t e rest iht ihe ih =>
    intro lo hi sc h x hx hb
    obtain ⟨hh, a, b, c', h1, h2, h3, h4, h5⟩ := wf_ite h
    have := wf_le h1; have := (inc_asc h4).le; have := wf_le h2; have := wf_le h5
    simp only [Block.plain, List.mem_append] at hx
    simp only [Block.binders, List.map_append, List.mem_append] at hb
    rcases hx with (hx | hx) | hx
    · have hr := plain_range t h1 x hx
      rcases hb with (hb | hb) | hb
      · exact iht h1 x hx hb
      · have := (binders_asc e h2).mem hb; omega
      · have := (binders_asc rest h5).mem hb; omega
    · have hr := plain_range e h2 x hx
      rcases hb with (hb | hb) | hb
      · have := (binders_asc t h1).mem hb; omega
      · exact ihe h2 x hx hb
      · have := (binders_asc rest h5).mem hb; omega
    · have hr := plain_range rest h5 x hx
      rcases hb with (hb | hb) | hb
      · have := (binders_asc t h1).mem hb; omega
      · have := (binders_asc e h2).mem hb; omega
      · exact ih h5 x hx hb

theorem node_not_loop {k : K} {args : List Nat} {l : LoopNode}
    (h : node cs k args = some (.loop l)) : False := by
  rcases node_children h with h | ⟨o, c, h, -⟩ <;> simp at h

theorem opqNode_not_loop {args : List (Nat × Bool)} {l : LoopNode}
    (h : opqNode args = .loop l) : False := by
  rcases opqNode_children args with h' | ⟨c, h', -⟩ <;> simp [h'] at h

/-- The loops of the DAG are those of the block. -/
theorem loop_binders (b : Block) : ∀ {ns : List (Nat × Kind ROp)} {m : Nat} {l : LoopNode} {x : Nat},
    build cs b = some ns → (m, .loop l) ∈ ns → l.binds x → (x, m) ∈ b.binders := by
  induction b with
  | done y vs =>
    intro ns m l x hb hm hx
    simp only [build, Option.some.injEq] at hb
    subst hb
    simp at hm
  | op r k args rest ih =>
    intro ns m l x hb hm hx
    obtain ⟨nd, ns', hn, hbr, rfl⟩ := build_op hb
    rcases List.mem_cons.1 hm with hm | hm
    · simp only [Prod.mk.injEq] at hm
      rw [← hm.2] at hn
      exact (node_not_loop hn).elim
    · exact ih hbr hm hx
  | rot r t sh rest ih =>
    intro ns m l x hb hm hx
    obtain ⟨ns', hbr, rfl⟩ := build_rot hb
    rcases List.mem_cons.1 hm with hm | hm
    · simp at hm
    · exact ih hbr hm hx
  | opq rs args rest ih =>
    intro ns m l x hb hm hx
    obtain ⟨ns', hbr, rfl⟩ := build_opq hb
    rcases List.mem_append.1 hm with hm | hm
    · obtain ⟨r, -, hr⟩ := List.mem_map.1 hm
      simp only [Prod.mk.injEq] at hr
      exact (opqNode_not_loop hr.2).elim
    · exact ih hbr hm hx
  | region rs args ivs body rest ihb ih =>
    intro ns m l x hb hm hx
    obtain ⟨ns', hbr, rfl⟩ := build_region hb
    rcases List.mem_append.1 hm with hm | hm
    · obtain ⟨r, -, hr⟩ := List.mem_map.1 hm
      simp only [Prod.mk.injEq] at hr
      exact (opqNode_not_loop hr.2).elim
    · exact ih hbr hm hx
  | loop n lb ub st iv inits args rs body rest ihb ih =>
    intro ns m l x hb hm hx
    obtain ⟨l', u, s, ms, ns', -, -, -, hb1, hb2, rfl⟩ := build_loop hb
    simp only [List.mem_append, List.mem_cons, List.cons_append, List.append_assoc] at hm
    simp only [Block.binders, List.mem_append, List.mem_cons, List.cons_append, List.append_assoc]
    rcases hm with hm | hm | hm | hm | hm | hm
    · simp at hm
    · obtain ⟨a, -, hr⟩ := List.mem_map.1 hm
      simp at hr
    · exact Or.inr (Or.inr (Or.inl (ihb hb1 hm hx)))
    · simp only [Prod.mk.injEq, Kind.loop.injEq] at hm
      obtain ⟨rfl, rfl⟩ := hm
      rcases hx with rfl | hx
      · exact Or.inl rfl
      · exact Or.inr (Or.inl (List.mem_map.2 ⟨x, hx, rfl⟩))
    · obtain ⟨i, hi⟩ := mem_resultsFrom hm
      simp at hi
    · exact Or.inr (Or.inr (Or.inr (ih hb2 hm hx)))
  | ite n c rs hasElse t e rest iht ihe ih =>
    intro ns m l x hb hm hx
    obtain ⟨ms, ms', ns', hb1, hb2, hb3, rfl⟩ := build_ite hb
    simp only [List.mem_append, List.mem_cons, List.append_assoc, List.cons_append] at hm
    simp only [Block.binders, List.mem_append, List.append_assoc]
    rcases hm with hm | hm | hm | hm | hm
    · exact Or.inl (iht hb1 hm hx)
    · exact Or.inr (Or.inl (ihe hb2 hm hx))
    · simp at hm
    · obtain ⟨i, hi⟩ := mem_resultsFrom hm
      simp at hi
    · exact Or.inr (Or.inr (ih hb3 hm hx))

/-! ## Free variables -/

theorem FreeVar.le {D : Heap ROp} (hD : Ordered D) {v x : Nat} (h : FreeVar D v x) : x ≤ v := by
  induction h with
  | var _ => exact Nat.le_refl _
  | child hc _ ih => have := hD _ _ (Dag.scope_sub_clear hc); omega
  | body hl _ _ ih =>
    have := hD _ _ (by rw [hl]; exact Dag.body_mem_clear _)
    omega

/-- A free variable of a node comes from a child, or the node is a variable. -/
theorem free_pure {D : Heap ROp} {n : Nat} {o : ROp} {c : List Nat} {Q : Nat → Prop}
    (hn : D n = .pure o c) (h : ∀ v ∈ c, ∀ x, FreeVar D v x → Q x) (x : Nat) (hx : FreeVar D n x) :
    Q x := by
  cases hx with
  | var h' => rw [hn] at h'; simp at h'
  | child hc hx => rw [hn] at hc; exact h _ hc _ hx
  | body h' => rw [hn] at h'; simp at h'

theorem free_resultAt {D : Heap ROp} {n m i : Nat} {Q : Nat → Prop}
    (hn : D n = .resultAt m i) (h : ∀ x, FreeVar D m x → Q x) (x : Nat) (hx : FreeVar D n x) :
    Q x := by
  cases hx with
  | var h' => rw [hn] at h'; simp at h'
  | child hc hx =>
    rw [hn] at hc
    simp only [Dag.scopeChildren, List.mem_singleton] at hc
    subst hc
    exact h _ hx
  | body h' => rw [hn] at h'; simp at h'

theorem free_var {D : Heap ROp} {n : Nat} {Q : Nat → Prop}
    (hn : D n = .var) (h : Q n) (x : Nat) (hx : FreeVar D n x) : Q x := by
  cases hx with
  | var h' => exact h
  | child hc hx => rw [hn] at hc; simp [Dag.scopeChildren] at hc
  | body h' => rw [hn] at h'; simp at h'

theorem free_opq {D : Heap ROp} {n : Nat} {sc : List Nat} {args : List (Nat × Bool)}
    {Q : Nat → Prop} (hn : D n = opqNode args) (ha : ∀ a ∈ args, a.1 ∈ sc)
    (h : ∀ v ∈ sc, ∀ x, FreeVar D v x → Q x) (hQ : Q n) (x : Nat) (hx : FreeVar D n x) : Q x := by
  rcases opqNode_children args with h' | ⟨c, h', -, hc⟩
  · exact free_var (hn.trans h') hQ x hx
  · refine free_pure (hn.trans h') (fun v hv => h v ?_) x hx
    rw [hc] at hv
    exact opqNode_mem ha hv

theorem free_loop {D : Heap ROp} {n : Nat} {l : LoopNode} {Q : Nat → Prop} (hn : D n = .loop l)
    (h : ∀ v ∈ l.inits, ∀ x, FreeVar D v x → Q x)
    (hb : ∀ x, FreeVar D l.body x → Q x ∨ l.binds x) (x : Nat) (hx : FreeVar D n x) : Q x := by
  cases hx with
  | var h' => rw [hn] at h'; simp at h'
  | child hc hx => rw [hn] at hc; exact h _ hc _ hx
  | body h' hx hnb =>
    rw [hn] at h'
    simp only [Kind.loop.injEq] at h'
    subst h'
    exact (hb _ hx).resolve_right hnb

/-- Free variables of the terminator of a block are those of the visible values, and results. -/
theorem free_block {D : Heap ROp} (b : Block) : ∀ {lo hi : Nat} {sc : List Nat}
    {ns : List (Nat × Kind ROp)} {Q : Nat → Prop}, wf lo sc b = some hi → build cs b = some ns →
    (∀ p ∈ ns, D p.1 = p.2) → (∀ v ∈ sc, ∀ x, FreeVar D v x → Q x) → (∀ r ∈ b.plain, Q r) →
    ∀ x, FreeVar D b.yieldNode x → Q x := by
  induction b with
  | done y vs =>
    intro lo hi sc ns Q h hb hD hsc hQ x hx
    obtain ⟨-, h2, -⟩ := wf_done h
    simp only [build, Option.some.injEq] at hb
    subst hb
    have hn := hD (y, .yield vs) (by simp)
    simp only at hn
    simp only [Block.yieldNode] at hx
    cases hx with
    | var h' => rw [hn] at h'; simp at h'
    | child hc hx => rw [hn] at hc; exact hsc _ (h2 _ hc) _ hx
    | body h' => rw [hn] at h'; simp at h'
  | op r k args rest ih =>
    intro lo hi sc ns Q h hb hD hsc hQ
    obtain ⟨h1, h2, h3⟩ := wf_op h
    obtain ⟨nd, ns', hn, hbr, rfl⟩ := build_op hb
    refine ih h3 hbr (fun p hp => hD p (by simp [hp])) (fun v hv => ?_)
      (fun r hr => hQ r (by simp [Block.plain, hr]))
    rcases List.mem_cons.1 hv with rfl | hv
    · have hv := hD (v, nd) (by simp)
      simp only at hv
      rcases node_children hn with rfl | ⟨o, c, rfl, hc⟩
      · exact free_var hv (hQ v (by simp [Block.plain]))
      · exact free_pure hv fun v hv => hsc v (h2 v (hc v hv))
    · exact hsc v hv
  | rot r t sh rest ih =>
    intro lo hi sc ns Q h hb hD hsc hQ
    obtain ⟨h1, ht, h2, h3⟩ := wf_rot h
    obtain ⟨ns', hbr, rfl⟩ := build_rot hb
    refine ih h3 hbr (fun p hp => hD p (by simp [hp])) (fun v hv => ?_)
      (fun r hr => hQ r (by simp [Block.plain, hr]))
    rcases List.mem_cons.1 hv with rfl | hv
    · have hv := hD _ (List.mem_cons_self ..)
      simp only at hv
      refine free_pure hv fun v hv => hsc v ?_
      rcases List.mem_cons.1 hv with rfl | hv
      · exact ht
      · exact h2 v hv
    · exact hsc v hv
  | opq rs args rest ih =>
    intro lo hi sc ns Q h hb hD hsc hQ
    obtain ⟨h1, m, h2, h3⟩ := wf_opq h
    obtain ⟨ns', hbr, rfl⟩ := build_opq hb
    refine ih h3 hbr (fun p hp => hD p (by simp [hp])) (fun v hv => ?_)
      (fun r hr => hQ r (by simp [Block.plain, hr]))
    rcases List.mem_append.1 hv with hv | hv
    · have hvD := hD (v, opqNode args)
        (List.mem_append_left _ (List.mem_map.2 ⟨v, hv, rfl⟩))
      exact free_opq hvD h1 hsc (hQ v (by simp [Block.plain, hv]))
    · exact hsc v hv
  | region rs args ivs body rest ihb ih =>
    intro lo hi sc ns Q h hb hD hsc hQ
    obtain ⟨h0, m1, m2, m3, h1, h2, h3, h4⟩ := wf_region h
    obtain ⟨ns', hbr, rfl⟩ := build_region hb
    refine ih h4 hbr (fun p hp => hD p (by simp [hp])) (fun v hv => ?_)
      (fun r hr => hQ r (by simp [Block.plain, hr]))
    rcases List.mem_append.1 hv with hv | hv
    · have hvD := hD (v, opqNode args)
        (List.mem_append_left _ (List.mem_map.2 ⟨v, hv, rfl⟩))
      exact free_opq hvD h0 hsc (hQ v (by simp [Block.plain, hv]))
    · exact hsc v hv
  | loop n lb ub st iv inits args rs body rest ihb ih =>
    intro lo hi sc ns Q h hb hD hsc hQ
    obtain ⟨hh, m1, m2, m3, h1, h2, h3, h4, h5⟩ := wf_loop h
    obtain ⟨l', u, s, ms, ns', -, -, -, hb1, hb2, rfl⟩ := build_loop hb
    simp only [List.cons_append, List.append_assoc] at hD
    refine ih h5 hb2 (fun p hp => hD p (by simp [hp])) (fun v hv => ?_)
      (fun r hr => hQ r (by simp [Block.plain, hr]))
    rcases List.mem_append.1 hv with hv | hv
    · have hvr : v ∈ (resultsFrom n 0 rs).map Prod.fst := by rwa [resultsFrom_keys]
      obtain ⟨p, hp, rfl⟩ := List.mem_map.1 hvr
      obtain ⟨i, hi⟩ := mem_resultsFrom hp
      have hpD := hD p (by simp [hp])
      rw [hi] at hpD
      refine free_resultAt hpD ?_
      have hnD := hD (n, .loop ⟨iv, inits, args, body.yieldNode, wrap32 l', wrap32 u, wrap32 s⟩)
        (by simp)
      refine free_loop hnD (fun v hv => hsc v (hh.2.2.2.2.1 v hv)) ?_
      refine ihb h2 hb1 (fun p hp => hD p (by simp [hp])) (fun v hv => ?_)
        (fun r hr => Or.inl (hQ r (by simp [Block.plain, hr])))
      rcases List.mem_append.1 hv with hv | hv
      · have hvD := hD (v, .var) (by simp [hv])
        exact free_var hvD (Or.inr (Or.inr hv))
      · rcases List.mem_cons.1 hv with rfl | hv
        · have hvD := hD (v, .var) (by simp)
          exact free_var hvD (Or.inr (Or.inl rfl))
        · exact fun x hx => Or.inl (hsc v hv x hx)
    · exact hsc v hv
  | ite n c rs hasElse t e rest iht ihe ih =>
    intro lo hi sc ns Q h hb hD hsc hQ
    obtain ⟨hh, m1, m2, m3, h1, h2, h3, h4, h5⟩ := wf_ite h
    obtain ⟨ms, ms', ns', hb1, hb2, hb3, rfl⟩ := build_ite hb
    simp only [List.cons_append, List.append_assoc] at hD
    refine ih h5 hb3 (fun p hp => hD p (by simp [hp])) (fun v hv => ?_)
      (fun r hr => hQ r (by simp [Block.plain, hr]))
    rcases List.mem_append.1 hv with hv | hv
    · have hvr : v ∈ (resultsFrom n 0 rs).map Prod.fst := by rwa [resultsFrom_keys]
      obtain ⟨p, hp, rfl⟩ := List.mem_map.1 hvr
      obtain ⟨i, hi⟩ := mem_resultsFrom hp
      have hpD := hD p (by simp [hp])
      rw [hi] at hpD
      refine free_resultAt hpD fun x hx => ?_
      have hnD := hD (n, .ifElse c t.yieldNode e.yieldNode) (by simp)
      simp only at hnD
      cases hx with
      | var h' => rw [hnD] at h'; simp at h'
      | child hc hx =>
        rw [hnD] at hc
        simp only [Dag.scopeChildren, List.mem_cons, List.not_mem_nil, or_false] at hc
        rcases hc with rfl | rfl | rfl
        · exact hsc _ hh.1 _ hx
        · exact iht h1 hb1 (fun p hp => hD p (by simp [hp])) hsc
            (fun r hr => hQ r (by simp [Block.plain, hr])) _ hx
        · exact ihe h2 hb2 (fun p hp => hD p (by simp [hp])) hsc
            (fun r hr => hQ r (by simp [Block.plain, hr])) _ hx
      | body h' => rw [hnD] at h'; simp at h'
    · exact hsc v hv

/-- The DAG of an outermost loop is closed. -/
theorem heapOf_closed {n lb ub st iv : Nat} {inits args : List Nat} {body : Block} {lo hi : Nat}
    {sc : List Nat} {ns : List (Nat × Kind ROp)}
    {rs : List Nat} {rest : Block}
    (hwf : wf lo sc (.loop n lb ub st iv inits args rs body rest) = some hi)
    (hsc : ∀ v ∈ sc, v < lo)
    (hb : build cs (.loop n lb ub st iv inits args [] body (.done (n + 1) [])) = some ns) :
    Dag.Closed (heapOf cs ns) [n] := by
  obtain ⟨hh, m1, m2, h1, h2, h3⟩ :
      (lo ≤ iv ∧ (∀ v ∈ inits, v ∈ sc)) ∧ ∃ h1 h2, inc (iv + 1) args = some h1 ∧
        wf h1 (args ++ iv :: sc) body = some h2 ∧ h2 ≤ n := by
    obtain ⟨hh, m1, m2, m3, h1, h2, h3, h4, h5⟩ := wf_loop hwf
    exact ⟨⟨hh.1, hh.2.2.2.2.1⟩, m1, m2, h1, h2, h3⟩
  obtain ⟨l', u, s, ms, ns', -, -, -, hb1, hb2, rfl⟩ := build_loop hb
  simp only [build, Option.some.injEq] at hb2
  subst hb2
  simp only [resultsFrom, List.cons_append, List.append_assoc, List.nil_append] at hb ⊢
  set ns := (iv, Kind.var) :: (args.map (fun a => (a, Kind.var)) ++ (ms ++
    [(n, Kind.loop ⟨iv, inits, args, body.yieldNode, wrap32 l', wrap32 u, wrap32 s⟩),
      (n + 1, (Kind.yield [] : Kind ROp))])) with hns
  have hasc : Asc lo (ns.map Prod.fst) (n + 2) := by
    simp only [hns, List.map_append, List.map_cons, List.map_map, List.map_nil]
    have e1 : List.map (Prod.fst ∘ fun a => ((a, .var) : Nat × Kind ROp)) args = args :=
      List.map_id' args
    rw [e1]
    have A : Asc lo (iv :: args) m1 := ⟨hh.1, inc_asc h1⟩
    have B : Asc m2 [n, n + 1] (n + 2) := ⟨h3, Nat.le_refl _, Nat.le_refl _⟩
    exact A.append ((build_asc body h2 hb1).append B)
  have hD : ∀ p ∈ ns, heapOf cs ns p.1 = p.2 := fun p hp => heapOf_mem hasc.nodup hp
  have hbind : ∀ m l x, heapOf cs ns m = .loop l → l.binds x →
      (x, m) ∈ (iv, n) :: args.map (fun a => (a, n)) ++ body.binders := by
    intro m l x hm hx
    have := loop_binders _ hb (heapOf_loop hm) hx
    simpa only [Block.binders, List.append_nil] using this
  have hasc2 : Asc lo (((iv, n) :: args.map (fun a => (a, n)) ++ body.binders).map Prod.fst) m2 := by
    simp only [List.map_append, List.map_cons, List.map_map]
    have e1 : List.map (Prod.fst ∘ fun a => (a, n)) args = args := List.map_id' args
    rw [e1]
    have A : Asc lo (iv :: args) m1 := ⟨hh.1, inc_asc h1⟩
    exact A.append (binders_asc body h2)
  have hout : ∀ v, v < lo → ∀ x, FreeVar (heapOf cs ns) v x → x < lo := by
    intro v hv
    have hv' : v ∉ ns.map Prod.fst := fun h => by have := (hasc.mem h).1; omega
    rcases heapOf_other (cs := cs) hv' with ⟨h, -⟩ | ⟨c, h, -⟩
    · exact free_var h hv
    · exact free_pure h (by simp)
  constructor
  · intro n' hn' x hx m l _ hm hl
    simp only [List.mem_singleton] at hn'
    subst hn'
    have hmem := List.mem_map_of_mem (f := Prod.fst) (hbind m l x hm hl)
    have hnD := hD (n', .loop ⟨iv, inits, args, body.yieldNode, wrap32 l', wrap32 u, wrap32 s⟩)
      (by simp [hns])
    refine free_loop (Q := fun x => x ∉ ((iv, n') :: args.map (fun a => (a, n')) ++
      body.binders).map Prod.fst) hnD (fun v hv x hx h => ?_) ?_ x hx hmem
    · have := hout v (hsc v (hh.2 v hv)) x hx
      have := (hasc2.mem h).1
      omega
    · refine free_block body h2 hb1 (fun p hp => hD p (by simp [hns, hp])) (fun v hv => ?_)
        (fun r hr => Or.inl fun h => ?_)
      · rcases List.mem_append.1 hv with hv | hv
        · have hvD := hD (v, .var) (by simp [hns, hv])
          exact free_var hvD (Or.inr (Or.inr hv))
        · rcases List.mem_cons.1 hv with rfl | hv
          · have hvD := hD (v, .var) (by simp [hns])
            exact free_var hvD (Or.inr (Or.inl rfl))
          · intro x hx
            left
            intro h
            have := hout v (hsc v hv) x hx
            have := (hasc2.mem h).1
            omega
      · have hr' := plain_range body h2 r hr
        simp only [List.map_append, List.map_cons, List.map_map] at h
        have e1 : List.map (Prod.fst ∘ fun a => (a, n')) args = args := List.map_id' args
        rw [e1] at h
        simp only [List.mem_append, List.mem_cons] at h
        have l1 := (inc_asc h1).le
        rcases h with (rfl | h) | h
        · omega
        · have := (inc_asc h1).mem h; omega
        · exact plain_disjoint body h2 r hr h
  · intro m l m' l' x _ _ hm hm' hx hx'
    have h := hbind m l x hm hx
    have h' := hbind m' l' x hm' hx'
    have e := lookup_of_mem hasc2.nodup h
    rw [lookup_of_mem hasc2.nodup h'] at e
    exact (Option.some.inj e).symm

end Heir.RotKeys
