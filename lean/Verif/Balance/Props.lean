import Verif.Balance.Rewrite

/-! # Properties of operation balancing -/

namespace Heir.Balance

variable {R : Type}

/-- State at the start of the second loop. -/
theorem inv_start {C : Ctx R} (hC : C.OK) (hs : Sat C.S C.rel C.b₀ C.E₀) :
    Ctx.Inv C (collect C.b₀ C.T C.b₀.reverse []) C.b₀ C.n₀ := by
  obtain ⟨h1, -⟩ := roots_ok (T := C.T) hC.valid
  have hn := hC.valid.nodup.1
  refine ⟨hC.valid, hC.below, le_rfl, ⟨C.E₀, fun _ _ => rfl, hs⟩, fun p hp => .inl hp, ?_, ?_,
    fun p hp _ => hp⟩
  · intro r hr x hx
    rcases List.mem_cons.mp hx with rfl | hx
    · obtain ⟨a, c, h⟩ := (h1 r hr).def_
      exact mem_ids.mpr ⟨_, h⟩
    · obtain ⟨ac, h⟩ := (h1 r hr).int x hx
      exact mem_ids.mpr ⟨_, (internal_some hn h).1⟩
  · intro r hr o ho
    rcases (h1 r hr).before o (List.mem_append_left _ ho) with h | ⟨h, h'⟩
    · exact avail_of_mem h
    · exact avail_of_pos hn h h'

/-- The roots can be replaced whenever their values can. -/
theorem tryBalanceBlock_inv {C : Ctx R} (hC : C.OK) (isPublic : Nat → Bool)
    (hs : Sat C.S C.rel C.b₀ C.E₀)
    (hrel : ∀ r ∈ collect C.b₀ C.T C.b₀.reverse [], ∀ t,
      balancedTree r.operands.length (groupPublic isPublic r.operands) = some t →
      C.rel (t.eval C.S C.T C.E₀) (C.E₀ r.root)) :
    ∃ st, tryBalanceBlock isPublic C.T C.b₀ C.n₀ = some st ∧ Ctx.Inv C [] st.1 st.2 := by
  obtain ⟨h1, h2⟩ := roots_ok (T := C.T) hC.valid
  exact Ctx.fold_ok hC isPublic _ h1 h2 hrel (C.b₀, C.n₀) (inv_start hC hs)

/-- A new tree has the value of its root. -/
theorem root_eq {D : List Nat} {b : Block} {T : Name} {r : Root} (hr : FlatOK D b T r) {S : Sem R}
    (hac : AC (S.arith T)) {E : Nat → R} (hs : Sat S Eq b E) {isPublic : Nat → Bool} {t : Tree}
    (ht : balancedTree r.operands.length (groupPublic isPublic r.operands) = some t)
    (hl : 2 ≤ r.operands.length) : t.eval S T E = E r.root := by
  obtain ⟨t₀, h1, h2⟩ := hr.tree
  rw [← h2 R S E hs]
  apply Tree.eval_perm hac
  have hperm := groupPublic_perm isPublic r.operands
  obtain ⟨t', k1, k2, -⟩ := balancedTree_ok r.operands.length (groupPublic isPublic r.operands)
    (by rw [hperm.length_eq]; exact hl) (by rw [hperm.length_eq])
  rw [ht] at k1
  cases k1
  rw [k2, h1]
  exact hperm

theorem two_le_operands {D : List Nat} {b : Block} {T : Name} {r : Root} (hv : Valid D b)
    (hr : r ∈ collect b T b.reverse []) : 2 ≤ r.operands.length := by
  have key : ∀ (l : Block) (vis : List Nat), (∀ p ∈ l, p ∈ b) → ∀ r ∈ collect b T l vis,
      2 ≤ r.operands.length := by
    intro l
    induction l with
    | nil => intro vis _ r hr; simp [collect] at hr
    | cons p l ih =>
      obtain ⟨v, i⟩ := p
      intro vis hm r hr
      have hm' : ∀ p ∈ l, p ∈ b := fun p hp => hm p (List.mem_cons_of_mem _ hp)
      cases i with
      | other tag args => simp only [collect] at hr; exact ih vis hm' r hr
      | arith op a c =>
        simp only [collect] at hr
        split at hr
        · rename_i hc
          obtain ⟨rfl, -⟩ := hc
          rcases List.mem_cons.mp hr with rfl | hr
          · obtain ⟨l, hl⟩ := isTree_exists (T := op) hv _ a le_rfl
            obtain ⟨r, hr⟩ := isTree_exists (T := op) hv _ c le_rfl
            have h1 := weight_arith hv (hm _ List.mem_cons_self)
            have h2 := weight_le (b := b) v
            have := flattenLoop_tree hv hl hr (fuel := 3 ^ b.length) (by omega)
            show 2 ≤ (flattenLoop b op (3 ^ b.length) [a, c] [] []).1.length
            rw [this, List.length_append]
            have pos : ∀ t : Tree, 1 ≤ t.leaves.length := by
              intro t
              induction t with
              | leaf v => simp [Tree.leaves]
              | node l r i1 i2 => rw [Tree.leaves, List.length_append]; omega
            have := pos l
            have := pos r
            omega
          · exact ih _ hm' r hr
        · exact ih _ hm' r hr
  exact key b.reverse [] (fun p hp => List.mem_reverse.mp hp) r hr

/-! ## C45 -/

/-- C45: balancing one kind of op in a block. No op is erased twice or while it has uses, the result
is well-formed, all other ops are still there with the same operands, and every value that is still
there is what it was, if the op may be reordered. -/
theorem C45_balance (isPublic : Nat → Bool) (T : Name) {D : List Nat} {b : Block} {n : Nat}
    (hv : Valid D b) (hb : Below n D b) :
    ∃ b' n', tryBalanceBlock isPublic T b n = some (b', n') ∧ Valid D b' ∧ Below n' D b' ∧
      (∀ p ∈ b, (∀ x y, p.2 ≠ .arith T x y) → p ∈ b') ∧
      ∀ (R : Type) (S : Sem R), AC (S.arith T) → ∀ (e : Nat → R), ∀ v < n,
        (v ∈ ids b' ∨ v ∉ ids b) → exec S b' e v = exec S b e v := by
  have main : ∀ (R : Type) (S : Sem R), AC (S.arith T) → ∀ (e : Nat → R),
      ∃ st, tryBalanceBlock isPublic T b n = some st ∧
        Ctx.Inv ⟨b, D, T, n, S, Eq, exec S b e⟩ [] st.1 st.2 := by
    intro R S hac e
    refine tryBalanceBlock_inv (C := ⟨b, D, T, n, S, Eq, exec S b e⟩) ⟨hv, hb, fun _ => rfl⟩ isPublic
      (exec_sat hv e) ?_
    intro r hr t ht
    exact root_eq ((roots_ok hv).1 r hr) hac (exec_sat hv e) ht (two_le_operands hv hr)
  obtain ⟨⟨b', n'⟩, h1, h2⟩ := main Unit ⟨fun _ _ => (), fun _ _ _ => ()⟩
    ⟨fun _ _ _ => rfl, fun _ _ => rfl⟩ fun _ => ()
  refine ⟨b', n', h1, h2.valid, h2.below, h2.keep, ?_⟩
  intro R S hac e v hvn hmem
  obtain ⟨st, k1, k2⟩ := main R S hac e
  rw [h1] at k1
  cases k1
  by_cases hvb : v ∈ ids b'
  · obtain ⟨E, s1, s2⟩ := k2.sol
    simp only at s1 s2
    rw [← s1 v hvn]
    refine exec_rel (rel := Eq) (fun x y z h h' => h.trans h') (fun i e e' h => eval_congr h) k2.valid
      s2 ?_ v (List.mem_append_right _ hvb)
    intro d hd
    rw [s1 d (hb.1 d hd)]
    exact (exec_not_mem fun h => hv.nodup.2 d h hd).symm
  · have hvb' : v ∉ ids b := by tauto
    rw [exec_not_mem hvb, exec_not_mem hvb']

/-- C45: the whole pass on a block. -/
theorem C45_pass (isPublic : Name → Nat → Bool) {D : List Nat} {b : Block} {n : Nat}
    (hv : Valid D b) (hb : Below n D b) :
    ∃ b' n', runOnBody isPublic b n = some (b', n') ∧ Valid D b' ∧
      (∀ v t args, (v, .other t args) ∈ b → (v, .other t args) ∈ b') ∧
      ∀ (R : Type) (S : Sem R), (∀ T, AC (S.arith T)) → ∀ (e : Nat → R) v t args,
        (v, .other t args) ∈ b → ∀ o ∈ v :: args, exec S b' e o = exec S b e o := by
  have key : ∀ (Ts : List Name) (b : Block) (n : Nat), Valid D b → Below n D b →
      ∃ b' n', Ts.foldlM (fun (st : Block × Nat) T => tryBalanceBlock (isPublic T) T st.1 st.2) (b, n) =
          some (b', n') ∧ Valid D b' ∧
        (∀ v t args, (v, .other t args) ∈ b → (v, .other t args) ∈ b') ∧
        ∀ (R : Type) (S : Sem R), (∀ T, AC (S.arith T)) → ∀ (e : Nat → R) v t args,
          (v, .other t args) ∈ b → ∀ o ∈ v :: args, exec S b' e o = exec S b e o := by
    intro Ts
    induction Ts with
    | nil =>
      intro b n hv hb
      exact ⟨b, n, rfl, hv, fun _ _ _ h => h, fun _ _ _ _ _ _ _ _ _ _ => rfl⟩
    | cons T Ts ih =>
      intro b n hv hb
      obtain ⟨b1, n1, h1, h2, h3, h4, h5⟩ := C45_balance (isPublic T) T hv hb
      obtain ⟨b2, n2, k1, k2, k3, k4⟩ := ih b1 n1 h2 h3
      have hk : ∀ v t args, (v, Inst.other t args) ∈ b → (v, Inst.other t args) ∈ b1 :=
        fun v t args h => h4 _ h (by simp)
      refine ⟨b2, n2, ?_, k2, fun v t args h => k3 v t args (hk v t args h), ?_⟩
      · rw [List.foldlM_cons, h1]; exact k1
      · intro R S hac e v t args h o ho
        rw [k4 R S hac e v t args (hk v t args h) o ho]
        obtain ⟨m1, m2⟩ := hb.2 _ h
        rcases List.mem_cons.mp ho with rfl | ho
        · exact h5 R S (hac T) e o m1 (.inl (mem_ids.mpr ⟨_, hk o t args h⟩))
        · refine h5 R S (hac T) e o (m2 o ho) ?_
          rcases h2.before (hk v t args h) ho with h' | ⟨h', -⟩
          · exact .inr fun hm => hv.nodup.2 o hm h'
          · exact .inl h'
  exact key _ b n hv hb

/-- C45: a tree of `n` operands has depth `⌈log₂ n⌉` and the given operands, in order; no tree has
less depth. -/
theorem C45_depth (l : List Nat) (hl : 2 ≤ l.length) :
    ∃ t, balancedTree l.length l = some t ∧ t.leaves = l ∧ t.depth = Nat.clog 2 l.length ∧
      ∀ t' : Tree, t'.leaves.length = l.length → t.depth ≤ t'.depth := by
  obtain ⟨t, h1, h2, h3⟩ := balancedTree_ok l.length l hl le_rfl
  refine ⟨t, h1, h2, h3, fun t' ht' => ?_⟩
  rw [h3, ← ht']
  exact Nat.clog_le_of_le_pow t'.leaves_le

/-- A product of four inputs, its square, and a terminator. -/
def sample : Block :=
  [(10, .arith .muli 0 1), (11, .arith .muli 10 2), (12, .arith .muli 11 3),
   (13, .arith .muli 12 12), (14, .other 0 [13])]

example : Valid [0, 1, 2, 3] sample ∧ Below 20 [0, 1, 2, 3] sample := by
  refine ⟨?_, ?_, ?_⟩ <;> simp [sample, Valid, Inst.operands]

example : runOnBody (fun _ v => v == 2) sample 20 =
    some ([(20, .arith .muli 2 0), (21, .arith .muli 1 3), (12, .arith .muli 20 21),
      (13, .arith .muli 12 12), (14, .other 0 [13])], 22) := by
  decide

/-! ## C54 -/

/-- Depth of a tree whose leaves are at one depth. -/
theorem eval_depth {T : Name} {E : Nat → Nat} {t : Tree} {d : Nat} (h : ∀ v ∈ t.leaves, E v = d) :
    t.eval (depthSem T) T E = d + t.depth := by
  induction t with
  | leaf v => exact h v (by simp [Tree.leaves])
  | node l r ihl ihr =>
    rw [Tree.eval, ihl fun v hv => h v (List.mem_append_left _ hv),
      ihr fun v hv => h v (List.mem_append_right _ hv), Tree.depth]
    simp only [depthSem, if_true]
    omega

theorem depthSem_mono (T : Name) (i : Inst) (e e' : Nat → Nat) (h : ∀ o ∈ i.operands, e o ≤ e' o) :
    i.eval (depthSem T) e ≤ i.eval (depthSem T) e' := by
  cases i with
  | other t args =>
    simp only [Inst.eval, depthSem]
    have h' : ∀ o ∈ args, e o ≤ e' o := h
    clear h
    induction args with
    | nil => simp
    | cons a args ih =>
      simp only [List.map_cons, List.foldr_cons]
      exact max_le_max (h' a List.mem_cons_self) (ih fun o ho => h' o (List.mem_cons_of_mem _ ho))
  | arith op a c =>
    have h1 := h a (by simp [Inst.operands])
    have h2 := h c (by simp [Inst.operands])
    simp only [Inst.eval, depthSem]
    split <;> omega

/-- C54: the depth of no value grows, if the operands of every tree that is balanced have one depth.

Partial: operands of different depths are not covered; the depth may then grow. -/
theorem C54_depth_partial (isPublic : Nat → Bool) (T : Name) {D : List Nat} {b : Block} {n : Nat}
    (hv : Valid D b) (hb : Below n D b) {b' : Block} {n' : Nat}
    (h : tryBalanceBlock isPublic T b n = some (b', n')) (e : Nat → Nat)
    (heq : ∀ r ∈ collect b T b.reverse [], ∀ o ∈ r.operands, ∀ o' ∈ r.operands,
      exec (depthSem T) b e o = exec (depthSem T) b e o') :
    ∀ v ∈ ids b', v < n → exec (depthSem T) b' e v ≤ exec (depthSem T) b e v := by
  have hs := exec_sat (S := depthSem T) hv e
  obtain ⟨st, h1, h2⟩ := tryBalanceBlock_inv
    (C := ⟨b, D, T, n, depthSem T, (· ≤ ·), exec (depthSem T) b e⟩) ⟨hv, hb, fun _ => le_rfl⟩ isPublic
    (fun p hp => le_of_eq (hs p hp)) (by
      intro r hr t ht
      have hl := two_le_operands hv hr
      have hperm := groupPublic_perm isPublic r.operands
      obtain ⟨t', k1, k2, k3⟩ := balancedTree_ok r.operands.length (groupPublic isPublic r.operands)
        (by rw [hperm.length_eq]; exact hl) (by rw [hperm.length_eq])
      simp only at ht ⊢
      rw [ht] at k1
      cases k1
      obtain ⟨t₀, m1, m2⟩ := ((roots_ok hv).1 r hr).tree
      rw [← m2 Nat (depthSem T) _ hs]
      obtain ⟨o, ho⟩ : ∃ o, o ∈ r.operands := List.exists_mem_of_length_pos (by omega)
      rw [eval_depth (t := t) (d := exec (depthSem T) b e o), eval_depth (t := t₀) (d := exec (depthSem T) b e o), k3]
      · apply Nat.add_le_add_left
        rw [hperm.length_eq, ← m1]
        exact Nat.clog_le_of_le_pow t₀.leaves_le
      · intro v hv
        rw [m1] at hv
        exact heq r hr v hv o ho
      · intro v hv
        rw [k2] at hv
        exact heq r hr v (hperm.mem_iff.mp hv) o ho)
  simp only at h1 h2
  rw [h] at h1
  cases h1
  obtain ⟨E, s1, s2⟩ := h2.sol
  simp only at s1 s2
  intro v hvm hvn
  rw [← s1 v hvn]
  refine exec_rel (rel := (· ≤ ·)) (fun x y z h h' => h.trans h') (depthSem_mono T) h2.valid s2 ?_ v
    (List.mem_append_right _ hvm)
  intro d hd
  rw [s1 d (hb.1 d hd)]
  exact le_of_eq (exec_not_mem fun h => hv.nodup.2 d h hd).symm

example : ∀ r ∈ collect sample .muli sample.reverse [], ∀ o ∈ r.operands, ∀ o' ∈ r.operands,
    exec (depthSem .muli) sample (fun _ => 0) o = exec (depthSem .muli) sample (fun _ => 0) o' := by
  decide

/-- C54: balancing one kind of op does not change the depth of another. -/
theorem C54_other_depth (isPublic : Nat → Bool) (T T' : Name) (hT : T ≠ T') {D : List Nat} {b : Block}
    {n : Nat} (hv : Valid D b) (hb : Below n D b) {b' : Block} {n' : Nat}
    (h : tryBalanceBlock isPublic T b n = some (b', n')) (e : Nat → Nat) :
    ∀ v ∈ ids b', v < n → exec (depthSem T') b' e v = exec (depthSem T') b e v := by
  obtain ⟨b1, n1, h1, -, -, -, h5⟩ := C45_balance isPublic T hv hb
  rw [h] at h1
  cases h1
  intro v hvm hvn
  refine h5 Nat (depthSem T') ?_ e v hvn (.inl hvm)
  simp only [depthSem, hT, if_false]
  exact ⟨fun x y z => by simp only; omega, fun x y => by simp only; omega⟩

/-- A product of three inputs and a value that is three multiplications deep. -/
def deepLast : Block :=
  [(10, .arith .muli 0 0), (11, .arith .muli 10 10), (12, .arith .muli 11 11),
   (13, .arith .muli 1 2), (14, .arith .muli 13 3), (15, .arith .muli 14 12), (16, .other 0 [15, 12])]

/-- C54 fails: `((a·b)·c)·x` with a deep `x` becomes `(a·b)·(c·x)`, one level deeper. -/
theorem C54_violated :
    Valid [0, 1, 2, 3] deepLast ∧ Below 20 [0, 1, 2, 3] deepLast ∧
      ∃ b' n', tryBalanceBlock (fun _ => false) .muli deepLast 20 = some (b', n') ∧
        exec (depthSem .muli) deepLast (fun _ => 0) 15 = 4 ∧
        exec (depthSem .muli) b' (fun _ => 0) 15 = 5 := by
  refine ⟨by simp [deepLast, Valid, Inst.operands], ?_, _, _, by rfl, by decide, by decide⟩
  constructor <;> simp [deepLast, Inst.operands]

end Heir.Balance
