import Verif.RotKeys.Match

/-!
# Runs of a block and the evaluation of its DAG
-/

namespace Heir.RotKeys

open Heir.Dag (Kind LoopNode Sem Heap Env Lit Ordered)

/-! ## Constants -/

/-- All names defined in a block, with the constants. -/
def Block.defs : Block → List (Nat × Option Cst)
  | .done _ _ => []
  | .op r (.const c) _ rest => (r, some c) :: rest.defs
  | .op r _ _ rest => (r, none) :: rest.defs
  | .rot r _ _ rest => (r, none) :: rest.defs
  | .opq rs _ rest => rs.map (fun r => (r, none)) ++ rest.defs
  | .region rs _ ivs body rest =>
    ivs.map (fun r => (r, none)) ++ body.defs ++ rs.map (fun r => (r, none)) ++ rest.defs
  | .loop _ _ _ _ iv _ args rs body rest =>
    (iv, none) :: args.map (fun r => (r, none)) ++ body.defs ++ rs.map (fun r => (r, none)) ++
      rest.defs
  | .ite _ _ rs _ t e rest => t.defs ++ e.defs ++ rs.map (fun r => (r, none)) ++ rest.defs

theorem map_none_fst (rs : List Nat) :
    (rs.map (fun r => ((r, none) : Nat × Option Cst))).map Prod.fst = rs := by
  rw [List.map_map]; exact List.map_id' rs

theorem defs_op (r : Nat) (k : K) (args : List Nat) (rest : Block) :
    ∃ o, (Block.op r k args rest).defs = (r, o) :: rest.defs ∧
      ∀ c, o = some c ↔ k = .const c := by
  cases k <;> exact ⟨_, rfl, by simp⟩

theorem defs_asc (b : Block) : ∀ {lo hi : Nat} {sc : List Nat}, wf lo sc b = some hi →
    Asc lo (b.defs.map Prod.fst) hi := by
  induction b with
  | done y vs => intro lo hi sc h; exact wf_le h
  | op r k args rest ih =>
    intro lo hi sc h
    obtain ⟨h1, -, h2⟩ := wf_op h
    obtain ⟨o, ho, -⟩ := defs_op r k args rest
    rw [ho]
    exact ⟨h1, ih h2⟩
  | rot r t sh rest ih =>
    intro lo hi sc h
    obtain ⟨h1, -, -, h2⟩ := wf_rot h
    exact ⟨h1, ih h2⟩
  | opq rs args rest ih =>
    intro lo hi sc h
    obtain ⟨-, m, h1, h2⟩ := wf_opq h
    simp only [Block.defs, List.map_append, map_none_fst]
    exact (inc_asc h1).append (ih h2)
  | region rs args ivs body rest ihb ih =>
    intro lo hi sc h
    obtain ⟨-, a, b, c, h1, h2, h3, h4⟩ := wf_region h
    simp only [Block.defs, List.map_append, map_none_fst]
    exact (((inc_asc h1).append (ihb h2)).append (inc_asc h3)).append (ih h4)
  | loop n lb ub st iv inits args rs body rest ihb ih =>
    intro lo hi sc h
    obtain ⟨hh, a, b, c, h1, h2, h3, h4, h5⟩ := wf_loop h
    simp only [Block.defs, List.map_append, List.map_cons, map_none_fst]
    have A : Asc lo (iv :: args) a := ⟨hh.1, inc_asc h1⟩
    exact ((A.append (ihb h2)).append ((inc_asc h4).weaken (by omega) (Nat.le_refl _))).append
      (ih h5)
  | ite n c rs hasElse t e rest iht ihe ih =>
    intro lo hi sc h
    obtain ⟨hh, a, b, c', h1, h2, h3, h4, h5⟩ := wf_ite h
    simp only [Block.defs, List.map_append, map_none_fst]
    exact (((iht h1).append (ihe h2)).append ((inc_asc h4).weaken (by omega) (Nat.le_refl _))).append
      (ih h5)

theorem filterMap_none (rs : List Nat) :
    (rs.map (fun r => ((r, none) : Nat × Option Cst))).filterMap
      (fun p => p.2.map fun c => (p.1, c)) = [] := by
  induction rs with
  | nil => rfl
  | cons r rs ih => simp only [List.map_cons, List.filterMap_cons, Option.map_none, ih]

theorem consts_defs (b : Block) : b.consts = b.defs.filterMap fun p => p.2.map fun c => (p.1, c) := by
  induction b with
  | done y vs => rfl
  | op r k args rest ih => cases k <;> simp [Block.consts, Block.defs, ih]
  | rot r t sh rest ih => simp [Block.consts, Block.defs, ih]
  | opq rs args rest ih =>
    simp only [Block.consts, Block.defs, ih, List.filterMap_append, filterMap_none, List.nil_append]
  | region rs args ivs body rest ihb ih =>
    simp only [Block.consts, Block.defs, ih, ihb, List.filterMap_append, filterMap_none,
      List.nil_append, List.append_nil]
  | loop n lb ub st iv inits args rs body rest ihb ih =>
    simp only [Block.consts, Block.defs, ih, ihb, List.filterMap_append, filterMap_none,
      List.nil_append, List.append_nil, List.cons_append, List.filterMap_cons, Option.map_none]
  | ite n c rs hasElse t e rest iht ihe ih =>
    simp only [Block.consts, Block.defs, ih, iht, ihe, List.filterMap_append, filterMap_none,
      List.nil_append, List.append_nil]

/-- The table of constants is right for the names of the block. -/
def Cons (cs : List (Nat × Cst)) (b : Block) : Prop := ∀ p ∈ b.defs, List.lookup p.1 cs = p.2

theorem lookup_none_of {β : Type} {l : List (Nat × β)} {x : Nat} (h : ∀ b, (x, b) ∉ l) :
    List.lookup x l = none := by
  cases hl : List.lookup x l with
  | none => rfl
  | some b => exact absurd (mem_of_lookup hl) (h b)

theorem mem_consts {b : Block} {x : Nat} {c : Cst} : (x, c) ∈ b.consts ↔ (x, some c) ∈ b.defs := by
  rw [consts_defs, List.mem_filterMap]
  constructor
  · rintro ⟨⟨y, o⟩, hy, h⟩
    obtain ⟨c', hc', h⟩ := Option.map_eq_some_iff.1 h
    simp only [Prod.mk.injEq] at h hc'
    obtain ⟨rfl, rfl⟩ := h
    rwa [← hc']
  · intro h
    exact ⟨_, h, rfl⟩

theorem cons_of_wf {b : Block} {lo hi : Nat} {sc : List Nat} (h : wf lo sc b = some hi) :
    Cons b.consts b := by
  have hnd := (defs_asc b h).nodup
  rintro ⟨x, o⟩ hx
  have hx' := lookup_of_mem hnd hx
  simp only
  cases hl : List.lookup x b.consts with
  | some c =>
    have := lookup_of_mem hnd (mem_consts.1 (mem_of_lookup hl))
    rw [hx', Option.some.injEq] at this
    exact this.symm
  | none =>
    cases o with
    | none => rfl
    | some c =>
      exfalso
      have := mem_consts.2 hx
      have hk : ∀ (l : List (Nat × Cst)), (x, c) ∈ l → List.lookup x l ≠ none := by
        intro l
        induction l with
        | nil => simp
        | cons p l ih =>
          intro hp
          rw [List.lookup_cons]
          by_cases hxp : x = p.1
          · simp [hxp]
          · rw [beq_false_of_ne hxp]
            refine ih ?_
            rcases List.mem_cons.1 hp with h | h
            · exact absurd (congrArg Prod.fst h) hxp
            · exact h
      exact hk _ this hl

theorem consts_range {b : Block} {lo hi : Nat} {sc : List Nat} (h : wf lo sc b = some hi) {v : Nat}
    (hv : v < lo) : List.lookup v b.consts = none := by
  apply lookup_none_of
  intro c hc
  have := ((defs_asc b h).mem (List.mem_map_of_mem (f := Prod.fst) (mem_consts.1 hc))).1
  simp only at this
  omega

/-- Visible constants have their values. -/
def CVal (cs : List (Nat × Cst)) (ρ : Nat → RVal) (sc : List Nat) : Prop :=
  ∀ v ∈ sc, ∀ c, List.lookup v cs = some c → ρ v = cstVal c

variable {cs : List (Nat × Cst)} {cls : Nat → Cls} {P : Int → Bool} {D : Heap ROp} {G : Sig}
  {W : World}

theorem CVal.cons {ρ : Nat → RVal} {sc : List Nat} (h : CVal cs ρ sc) {r : Nat} {v : RVal}
    (hsc : r ∉ sc) (hr : ∀ c, List.lookup r cs = some c → v = cstVal c) :
    CVal cs (upd ρ r v) (r :: sc) := by
  intro x hx c hc
  by_cases hxr : x = r
  · subst hxr; rw [upd_same]; exact hr c hc
  · rw [upd_other _ _ hxr]
    exact h x ((List.mem_cons.1 hx).resolve_left hxr) c hc

theorem CVal.append {ρ : Nat → RVal} {sc rs : List Nat} (h : CVal cs ρ sc) (vs : List RVal)
    (hr : ∀ r ∈ rs, List.lookup r cs = none) : CVal cs (updL ρ rs vs) (rs ++ sc) := by
  intro x hx c hc
  by_cases hxr : x ∈ rs
  · rw [hr x hxr] at hc; simp at hc
  · rw [updL_other _ _ hxr]
    exact h x ((List.mem_append.1 hx).resolve_left hxr) c hc

/-! ## No rotations -/

theorem rounds_nil {f : Int → List RVal → Nat → Option (List RVal × List Int × Nat)}
    (hf : ∀ i vs p ys tr p', f i vs p = some (ys, tr, p') → tr = []) :
    ∀ (is : List Int) (vs : List RVal) (p : Nat) (ys : List RVal) (tr : List Int) (p' : Nat),
    rounds f is vs p = some (ys, tr, p') → tr = []
  | [], vs, p, ys, tr, p', h => by
    simp only [rounds, Option.some.injEq, Prod.mk.injEq] at h; exact h.2.1.symm
  | i :: is, vs, p, ys, tr, p', h => by
    simp only [rounds] at h
    obtain ⟨⟨v1, t1, p1⟩, h1, h⟩ := Option.bind_eq_some_iff.1 h
    obtain ⟨⟨v2, t2, p2⟩, h2, h⟩ := Option.map_eq_some_iff.1 h
    simp only [Prod.mk.injEq] at h
    rw [← h.2.1, hf _ _ _ _ _ _ h1, rounds_nil hf _ _ _ _ _ _ h2]
    rfl

theorem exec_norots (b : Block) : ∀ {ρ : Nat → RVal} {p : Nat} {ys : List RVal} {tr : List Int}
    {p' : Nat}, b.rots = [] → exec W b ρ p = some (ys, tr, p') → tr = [] := by
  induction b with
  | done y vs =>
    intro ρ p ys tr p' _ h
    simp only [exec, Option.some.injEq, Prod.mk.injEq] at h; exact h.2.1.symm
  | op r k args rest ih =>
    intro ρ p ys tr p' hr h
    simp only [exec] at h
    obtain ⟨v, -, h⟩ := Option.bind_eq_some_iff.1 h
    exact ih hr h
  | rot r t sh rest ih => intro ρ p ys tr p' hr h; simp [Block.rots] at hr
  | opq rs args rest ih =>
    intro ρ p ys tr p' hr h
    simp only [exec] at h
    exact ih hr h
  | region rs args ivs body rest ihb ih =>
    intro ρ p ys tr p' hr h
    simp only [Block.rots, List.append_eq_nil_iff] at hr
    simp only [exec] at h
    obtain ⟨⟨v1, t1, p1⟩, h1, h⟩ := Option.bind_eq_some_iff.1 h
    obtain ⟨⟨v2, t2, p2⟩, h2, h⟩ := Option.map_eq_some_iff.1 h
    simp only [Prod.mk.injEq] at h
    rw [← h.2.1, rounds_nil (fun i vs p ys tr p' h => ihb hr.1 h) _ _ _ _ _ _ h1, ih hr.2 h2]
    rfl
  | loop n lb ub st iv inits args rs body rest ihb ih =>
    intro ρ p ys tr p' hr h
    simp only [Block.rots, List.append_eq_nil_iff] at hr
    simp only [exec] at h
    split at h
    · split at h
      · simp at h
      · obtain ⟨⟨v1, t1, p1⟩, h1, h⟩ := Option.bind_eq_some_iff.1 h
        obtain ⟨⟨v2, t2, p2⟩, h2, h⟩ := Option.map_eq_some_iff.1 h
        simp only [Prod.mk.injEq] at h
        rw [← h.2.1, rounds_nil (fun i vs p ys tr p' h => ihb hr.1 h) _ _ _ _ _ _ h1, ih hr.2 h2]
        rfl
    · simp at h
  | ite n c rs hasElse t e rest iht ihe ih =>
    intro ρ p ys tr p' hr h
    simp only [Block.rots, List.append_eq_nil_iff] at hr
    simp only [exec] at h
    split at h
    · obtain ⟨⟨v1, t1, p1⟩, h1, h⟩ := Option.bind_eq_some_iff.1 h
      obtain ⟨⟨v2, t2, p2⟩, h2, h⟩ := Option.map_eq_some_iff.1 h
      simp only [Prod.mk.injEq] at h
      have : t1 = [] := by
        split at h1
        · exact iht hr.1.1 h1
        · exact ihe hr.1.2 h1
      rw [← h.2.1, this, ih hr.2 h2]
      rfl
    · simp at h

theorem live_norots (b : Block) : b.rots = [] → ∃ L, live cs b = some L := by
  induction b with
  | done y vs => intro _; exact ⟨_, rfl⟩
  | op r k args rest ih =>
    intro hr
    obtain ⟨L, hL⟩ := ih hr
    simp only [live, hL, Option.bind_eq_bind, Option.bind_some]
    split <;> exact ⟨_, rfl⟩
  | rot r t sh rest ih => intro hr; simp [Block.rots] at hr
  | opq rs args rest ih =>
    intro hr
    obtain ⟨L, hL⟩ := ih hr
    simp only [live, hL, Option.bind_eq_bind, Option.bind_some]
    split <;> exact ⟨_, rfl⟩
  | region rs args ivs body rest ihb ih =>
    intro hr
    simp only [Block.rots, List.append_eq_nil_iff] at hr
    obtain ⟨L, hL⟩ := ih hr.2
    simp only [live, hL, hr.1, Option.bind_eq_bind, Option.bind_some, ne_eq, not_true_eq_false,
      if_false]
    split <;> exact ⟨_, rfl⟩
  | loop n lb ub st iv inits args rs body rest ihb ih =>
    intro hr
    simp only [Block.rots, List.append_eq_nil_iff] at hr
    obtain ⟨L, hL⟩ := ih hr.2
    obtain ⟨M, hM⟩ := ihb hr.1
    simp only [live, hL, hM, hr.1, Option.bind_eq_bind, Option.bind_some, if_true]
    split <;> exact ⟨_, rfl⟩
  | ite n c rs hasElse t e rest iht ihe ih =>
    intro hr
    simp only [Block.rots, List.append_eq_nil_iff] at hr
    obtain ⟨L, hL⟩ := ih hr.2
    obtain ⟨M, hM⟩ := iht hr.1.1
    obtain ⟨M', hM'⟩ := ihe hr.1.2
    simp only [live, hL, hM, hM', hr.1.1, hr.1.2, Option.bind_eq_bind, Option.bind_some, and_self,
      if_true]
    split <;> exact ⟨_, rfl⟩

/-! ## Runs -/

/-- Evaluated visible values describe those of the run. -/
def Agree (G : Sig) (cls : Nat → Cls) (P : Int → Bool) (D : Heap ROp) (σ : Env Lit)
    (ρ : Nat → RVal) (sc : List Nat) : Prop :=
  ∀ v ∈ sc, ∀ l, den1 P D σ v = some l → Rep G.slots (cls v) l (ρ v)

theorem Agree.cons {σ : Env Lit} {ρ : Nat → RVal} {sc : List Nat} (h : Agree G cls P D σ ρ sc)
    {r : Nat} {v : RVal} (hr : ∀ l, den1 P D σ r = some l → Rep G.slots (cls r) l v) :
    Agree G cls P D σ (upd ρ r v) (r :: sc) := by
  intro x hx l hl
  by_cases hxr : x = r
  · subst hxr; rw [upd_same]; exact hr l hl
  · rw [upd_other _ _ hxr]
    exact h x ((List.mem_cons.1 hx).resolve_left hxr) l hl

theorem Agree.append {σ : Env Lit} {ρ : Nat → RVal} {sc rs : List Nat} (h : Agree G cls P D σ ρ sc)
    {vs : List RVal}
    (hr : ∀ r ∈ rs, ∀ l, den1 P D σ r = some l → Rep G.slots (cls r) l (updL ρ rs vs r)) :
    Agree G cls P D σ (updL ρ rs vs) (rs ++ sc) := by
  intro x hx l hl
  by_cases hxr : x ∈ rs
  · exact hr x hxr l hl
  · rw [updL_other _ _ hxr]
    exact h x ((List.mem_append.1 hx).resolve_left hxr) l hl

theorem tripList_steps {l u s : Int} (hs : 0 < s) {is : List Int}
    (h : Dag.tripList l u s = some is) : is = steps l u s := by
  unfold Dag.tripList at h
  unfold steps
  split at h
  · next hle =>
    simp only [Option.some.injEq] at h
    have : ((u - l + s - 1) / s).toNat = 0 := by
      have : (u - l + s - 1) / s < 1 := by
        rw [Int.ediv_lt_iff_lt_mul hs]; omega
      omega
    rw [this, ← h]
    rfl
  · rw [if_neg (by omega)] at h
    simp only at h
    split at h
    · simp at h
    · exact (Option.some.inj h).symm

/-- Rounds on both sides. -/
theorem rounds_agree {slots : Nat} {args : List Nat} {x₀ : Int}
    {f : Int → List Lit → Option (List Lit)}
    {g : Int → List RVal → Nat → Option (List RVal × List Int × Nat)}
    (hfg : ∀ i ls vs p ls' vs' tr p', RepL slots cls args ls vs → f i ls = some ls' →
      g i vs p = some (vs', tr, p') → x₀ ∉ tr ∧ RepL slots cls args ls' vs') :
    ∀ (is : List Int) (ls : List Lit) (vs : List RVal) (p : Nat) (ls' : List Lit)
      (vs' : List RVal) (tr : List Int) (p' : Nat), RepL slots cls args ls vs →
    Dag.denLoop f is ls = some ls' → rounds g is vs p = some (vs', tr, p') →
    x₀ ∉ tr ∧ RepL slots cls args ls' vs'
  | [], ls, vs, p, ls', vs', tr, p', h, h1, h2 => by
    simp only [Dag.denLoop, Option.some.injEq] at h1
    simp only [rounds, Option.some.injEq, Prod.mk.injEq] at h2
    obtain ⟨rfl, rfl, -⟩ := h2
    subst h1
    exact ⟨by simp, h⟩
  | i :: is, ls, vs, p, ls', vs', tr, p', h, h1, h2 => by
    simp only [Dag.denLoop] at h1
    obtain ⟨l1, hl1, h1⟩ := Option.bind_eq_some_iff.1 h1
    simp only [rounds] at h2
    obtain ⟨⟨v1, t1, p1⟩, hv1, h2⟩ := Option.bind_eq_some_iff.1 h2
    obtain ⟨⟨v2, t2, p2⟩, hv2, h2⟩ := Option.map_eq_some_iff.1 h2
    simp only [Prod.mk.injEq] at h2
    obtain ⟨rfl, rfl, rfl⟩ := h2
    obtain ⟨a1, a2⟩ := hfg i ls vs p l1 v1 t1 p1 h hl1 hv1
    obtain ⟨b1, b2⟩ := rounds_agree hfg is l1 v1 p1 ls' v2 t2 p2 a2 h1 hv2
    exact ⟨by simp [a1, b1], b2⟩

theorem node_var_splat {k : K} {args : List Nat} (h : node cs k args = some .var) :
    ∃ n x, k = .splat n ∧ args = [x] ∧ intConst cs x = none := by
  unfold node at h
  split at h
  case h_9 n x =>
    split at h
    · simp at h
    · next hx => exact ⟨n, x, rfl, rfl, hx⟩
  case h_7 =>
    obtain ⟨d, -, h⟩ := Option.map_eq_some_iff.1 h
    simp at h
  all_goals simp at h

/-- A splat of something that is not constant has no class. -/
theorem node_var {r : Nat} {k : K} {args : List Nat} (h : node cs k args = some .var)
    (hk : okK cs cls r k args = true) : cls r = .unk := by
  obtain ⟨n, x, rfl, rfl, hx⟩ := node_var_splat h
  cases hc : cls r with
  | unk => rfl
  | table =>
    simp only [okK, hc] at hk
    obtain ⟨i, hi, -⟩ := const32_iff hk
    rw [intConst_of hi] at hx
    simp at hx
  | num => simp [okK, hc] at hk
  | bool => simp [okK, hc] at hk
  | ct1 => simp [okK, hc] at hk
  | ct2 => simp [okK, hc] at hk

/-- The rounds of a loop. -/
theorem loop_agree {x₀ : Int} (hD : Ordered D) {n iv : Nat} {inits args : List Nat}
    {body : Block} {x1 x2 x3 : Int} {lo m1 m2 : Nat} {sc : List Nat} {σ : Env Lit}
    {ρ : Nat → RVal} {p p1 : Nat} {v1 : List RVal} {t1 : List Int} {outs : List Lit}
    (hlo : lo ≤ iv) (hin : ∀ v ∈ inits, v ∈ sc) (hlen : inits.length = args.length)
    (hyl : body.yields.length = args.length) (h1 : inc (iv + 1) args = some m1)
    (h2 : wf m1 (args ++ iv :: sc) body = some m2) (hV : Vis D lo sc)
    (hvar : ∀ x, x = iv ∨ x ∈ args → D x = .var)
    (hnD : D n = .loop ⟨iv, inits, args, body.yieldNode, x1, x2, x3⟩)
    (hCiv : ∀ a, a = iv ∨ a ∈ args → List.lookup a cs = none)
    (hiv : cls iv = .num ∨ cls iv = .unk) (hTi : (List.zipWith (sub cls) args inits).all id = true)
    (hTy : (List.zipWith (sub cls) args body.yields).all id = true)
    (hσ : ∀ r ∈ body.plain, σ r = G.env r) (hA : Agree G cls P D σ ρ sc) (hCV : CVal cs ρ sc)
    (hpos : ¬ x3 ≤ 0)
    (ihb : ∀ {σ : Env Lit} {ρ : Nat → RVal} {p : Nat} {ys : List RVal} {tr : List Int} {p' : Nat}
      {out : List Lit}, (∀ r ∈ body.plain, σ r = G.env r) →
      Agree G cls P D σ ρ (args ++ iv :: sc) → CVal cs ρ (args ++ iv :: sc) →
      Dag.den (RS P) D σ body.yieldNode = some out → exec W body ρ p = some (ys, tr, p') →
      x₀ ∉ tr ∧ RepL G.slots cls body.yields out ys)
    (houts : Dag.den (RS P) D σ n = some outs)
    (hr1 : rounds (fun i vals p => exec W body (updL (upd ρ iv (.int i)) args vals) p)
      (steps x1 x2 x3) (inits.map ρ) p = some (v1, t1, p1)) :
    x₀ ∉ t1 ∧ RepL G.slots cls args outs v1 := by
  rw [den_loop hD hnD] at houts
  simp only at houts
  obtain ⟨vals, hvals, houts⟩ := Option.bind_eq_some_iff.1 houts
  obtain ⟨is, his, houts⟩ := Option.bind_eq_some_iff.1 houts
  rw [tripList_steps (by omega) his] at houts
  have hinit : RepL G.slots cls args vals (inits.map ρ) :=
    RepL.sub hTi hlen.symm (RepL.of_map hvals fun v hv => hA v (hin v hv))
  refine rounds_agree ?_ _ _ _ _ _ _ _ _ hinit houts hr1
  intro i ls vs q ls' vs' tr' q' hrep hf hg
  unfold denRound at hf
  split at hf
  case isFalse => simp at hf
  case isTrue hlen =>
    obtain ⟨r, hr, hf⟩ := Option.bind_eq_some_iff.1 hf
    split at hf
    case isFalse => simp at hf
    case isTrue hlr =>
      simp only [Option.some.injEq] at hf
      subst hf
      have hargs := inc_asc h1
      have hgt : ∀ a ∈ args, iv < a := fun a ha => (hargs.mem ha).1
      obtain ⟨hx, hy⟩ := ihb (fun x hx => by
          have := (plain_range body h2 x hx).1
          rw [Dag.loopEnv_other]
          · exact hσ x hx
          · rintro (hxi | hxa)
            · simp only at hxi; have := hargs.le; omega
            · have := (hargs.mem hxa).2; omega)
        (fun v hv l hl => by
          rcases List.mem_append.1 hv with hv | hv
          · obtain ⟨j, hj⟩ := List.getElem?_of_mem hv
            rw [den1_var (hvar v (Or.inr hv))] at hl
            refine hrep.upd hargs.nodup _ hj ?_
            rw [setVars_get _ hargs.nodup hrep.length.1 hj]
            exact hl
          · have hva : v ∉ args := by
              intro hva
              have := hgt v hva
              rcases List.mem_cons.1 hv with rfl | hv
              · omega
              · have := (hV v hv).1; omega
            rw [updL_other _ _ hva]
            rcases List.mem_cons.1 hv with rfl | hv
            · rw [den1_var (hvar v (Or.inl rfl))] at hl
              have : Dag.loopEnv (RS P) ⟨v, inits, args, body.yieldNode, x1, x2, x3⟩ σ i ls v =
                  some (.scalar i) := by
                show Dag.setVars _ args ls v = _
                rw [Dag.setVars_other _ _ hva, Dag.setVar_same]
                rfl
              rw [this, Option.some.injEq] at hl
              subst hl
              rw [upd_same]
              rcases hiv with hu | hu <;> rw [hu]
              · exact ⟨i, rfl, rfl⟩
              · trivial
            · have hvlt : v < iv := by have := (hV v hv).1; omega
              rw [den_below hD hgt hvlt] at hl
              rw [upd_other _ _ (by omega)]
              exact hA v hv l hl)
        (by
          refine CVal.append (hCV.cons ?_ ?_) _ ?_
          · intro hm; have := (hV iv hm).1; omega
          · intro c hc'
            rw [hCiv iv (Or.inl rfl)] at hc'
            simp at hc'
          · intro a ha
            exact hCiv a (Or.inr ha)) hr hg
      exact ⟨hx, RepL.sub hTy hyl.symm hy⟩

theorem forward {x₀ : Int} (hP : P = fun k => decide ((k - x₀) % (G.slots : Int) = 0))
    (hD : Ordered D) (b : Block) : ∀ {lo hi : Nat} {sc L : List Nat}
    {ns : List (Nat × Kind ROp)} {σ : Env Lit} {ρ : Nat → RVal} {p : Nat} {ys : List RVal}
    {tr : List Int} {p' : Nat} {out : List Lit}, wf lo sc b = some hi → build cs b = some ns →
    (∀ q ∈ ns, D q.1 = q.2) → Vis D lo sc → Cons cs b → typed G cs cls b = true →
    live cs b = some L → (∀ r ∈ b.plain, σ r = G.env r) → Agree G cls P D σ ρ sc →
    CVal cs ρ sc → Dag.den (RS P) D σ b.yieldNode = some out →
    exec W b ρ p = some (ys, tr, p') → x₀ ∉ tr ∧ RepL G.slots cls b.yields out ys := by
  induction b with
  | done y vs =>
    intro lo hi sc L ns σ ρ p ys tr p' out h hb hN hV hC hT hL hσ hA hCV hden hex
    obtain ⟨-, h2, -⟩ := wf_done h
    simp only [build, Option.some.injEq] at hb
    subst hb
    have hn := hN (y, .yield vs) (by simp)
    simp only [Block.yieldNode] at hden
    rw [den_yield hD hn] at hden
    simp only [exec, Option.some.injEq, Prod.mk.injEq] at hex
    obtain ⟨rfl, rfl, -⟩ := hex
    exact ⟨by simp, RepL.of_map hden fun v hv => hA v (h2 v hv)⟩
  | op r k args rest ih =>
    intro lo hi sc L ns σ ρ p ys tr p' out h hb hN hV hC hT hL hσ hA hCV hden hex
    obtain ⟨h1, h2, h3⟩ := wf_op h
    obtain ⟨nd, ns', hn, hbr, rfl⟩ := build_op hb
    have hr := hN (r, nd) (by simp)
    simp only at hr
    simp only [live] at hL
    obtain ⟨L', hL', -⟩ := Option.bind_eq_some_iff.1 hL
    simp only [typed, Bool.and_eq_true] at hT
    simp only [exec] at hex
    obtain ⟨v, hv, hex⟩ := Option.bind_eq_some_iff.1 hex
    obtain ⟨o, ho, hoc⟩ := defs_op r k args rest
    have hCr := hC (r, o) (by rw [ho]; simp)
    simp only at hCr
    have hrsc : r ∉ sc := fun hm => by have := (hV r hm).1; omega
    refine ih h3 hbr (fun q hq => hN q (by simp [hq]))
      (hV.cons (by omega) (by omega) (hr ▸ node_isVal hn))
      (fun q hq => hC q (by rw [ho]; simp [hq])) hT.2 hL'
      (fun x hx => hσ x (by simp [Block.plain, hx])) (hA.cons fun l hl => ?_)
      (hCV.cons hrsc fun c hc => ?_) hden hex
    · rcases node_children hn with rfl | ⟨o', c, rfl, hc⟩
      · -- a splat of something that is not constant
        have : cls r = .unk := node_var hn hT.1
        rw [this]; trivial
      · rw [den1_pure hD hr (fun v hv => (hV v (h2 v (hc v hv))).2)] at hl
        obtain ⟨ls, hls, hl⟩ := Option.bind_eq_some_iff.1 hl
        exact rep_op hT.1 hn (fun a ha => hCV a (h2 a ha)) hv rfl hls
          (fun a ha => hA a (h2 a ha)) (rs_pure hl).2
    · rw [hCr] at hc
      rw [(hoc c).1 hc] at hv
      simp only [evalK, Option.some.injEq] at hv
      exact hv.symm
  | rot r t sh rest ih =>
    intro lo hi sc L ns σ ρ p ys tr p' out h hb hN hV hC hT hL hσ hA hCV hden hex
    obtain ⟨h1, ht, h2, h3⟩ := wf_rot h
    obtain ⟨ns', hbr, rfl⟩ := build_rot hb
    have hr := hN _ (List.mem_cons_self ..)
    simp only at hr
    simp only [live] at hL
    obtain ⟨L', hL', hL⟩ := Option.bind_eq_some_iff.1 hL
    simp only [typed, Bool.and_eq_true, Bool.or_eq_true, beq_iff_eq] at hT
    simp only [exec] at hex
    obtain ⟨as, has, hex⟩ := Option.bind_eq_some_iff.1 hex
    obtain ⟨⟨y1, t1, p1⟩, hexr, he⟩ := Option.map_eq_some_iff.1 hex
    simp only [Prod.mk.injEq] at he
    obtain ⟨rfl, rfl, rfl⟩ := he
    have hC' : Cons cs rest := fun q hq => hC q (by simp [Block.defs, hq])
    have hN' : ∀ q ∈ ns', D q.1 = q.2 := fun q hq => hN q (by simp [hq])
    have hV' := hV.cons (hi := r + 1) (by omega) (by omega) (show IsVal (D r) from hr ▸ trivial)
    have hmem : ∀ v ∈ t :: dynShifts sh, v ∈ sc := by
      intro v hv
      rcases List.mem_cons.1 hv with rfl | hv
      · exact ht
      · exact h2 v hv
    -- the rotation is evaluated
    have key : ∀ l, den1 P D σ r = some l → Rep G.slots (cls r) l (W.val p) ∧ x₀ ∉ as := by
      intro l hl
      rw [den1_pure hD hr (fun v hv => (hV v (hmem v hv)).2)] at hl
      obtain ⟨ls, hls, hl⟩ := Option.bind_eq_some_iff.1 hl
      obtain ⟨lt, vs, hlt, hvs, rfl⟩ := allSome_cons hls
      obtain ⟨hrec, hpure⟩ := rs_pure hl
      have hcls : ∀ v ∈ dynShifts sh, cls v = .num := by
        intro v hv
        have := List.all_eq_true.1 hT.1.2 v hv
        simpa using this
      have ham : ∃ as', amounts (staticShifts sh) vs = some as' := by
        simp only [rotPure, shiftsOf] at hpure
        obtain ⟨ss, hss, -⟩ := Option.map_eq_some_iff.1 hpure
        obtain ⟨d, -, hss⟩ := Option.bind_eq_some_iff.1 hss
        obtain ⟨as', has', -⟩ := Option.bind_eq_some_iff.1 hss
        exact ⟨as', has'⟩
      obtain ⟨as', has'⟩ := ham
      have e := amounts_eq (slots := G.slots) hvs
        (fun v hv l hl => hcls v hv ▸ hA v (h2 v hv) l hl) has' has
      subst e
      obtain ⟨rfl, hx⟩ := rot_avoids hP hT.1.1.1 (hA t ht lt hlt) hpure hrec has'
      refine ⟨?_, hx⟩
      have hsub := hT.1.1.2
      simp only [sub, Bool.or_eq_true, beq_iff_eq] at hsub
      rcases hsub with hu | hu
      · rw [hu]; trivial
      · rw [hu]; exact rep_ct hT.1.1.1 (hA t ht _ hlt)
    obtain ⟨hx1, hx2⟩ := ih h3 hbr hN' hV' hC' hT.2 hL'
      (fun x hx => hσ x (by simp [Block.plain, hx])) (hA.cons fun l hl => (key l hl).1)
      (hCV.cons (fun hm => by have := (hV r hm).1; omega) fun c hc => by
        have := hC (r, none) (by simp [Block.defs])
        simp only at this
        rw [this] at hc
        simp at hc) hden hexr
    refine ⟨?_, hx2⟩
    split at hL
    case isFalse => simp at hL
    case isTrue hrL =>
      have := live_den hD rest h3 hbr hN' hV' hL' (by simp only [Block.yieldNode] at hden; rw [hden]; simp) r
        (by simpa using hrL)
      cases hdr : den1 P D σ r with
      | none => exact absurd hdr this
      | some l => simp [(key l hdr).2, hx1]
  | opq rs args rest ih =>
    intro lo hi sc L ns σ ρ p ys tr p' out h hb hN hV hC hT hL hσ hA hCV hden hex
    obtain ⟨h1, m, h2, h3⟩ := wf_opq h
    obtain ⟨ns', hbr, rfl⟩ := build_opq hb
    have hr : ∀ r ∈ rs, D r = opqNode args := fun r hr =>
      hN (r, opqNode args) (List.mem_append_left _ (List.mem_map.2 ⟨r, hr, rfl⟩))
    simp only [live] at hL
    obtain ⟨L', hL', -⟩ := Option.bind_eq_some_iff.1 hL
    simp only [typed, Bool.and_eq_true] at hT
    simp only [exec] at hex
    refine ih h3 hbr (fun q hq => hN q (by simp [hq]))
      (hV.append (inc_asc h2).le fun r h =>
        ⟨((inc_asc h2).mem h).2, hr r h ▸ opqNode_isVal args⟩)
      (fun q hq => hC q (by simp [Block.defs, hq])) hT.2 hL'
      (fun x hx => hσ x (by simp [Block.plain, hx])) (hA.append fun r hrm l hl => ?_)
      (hCV.append _ fun r hrm => ?_) hden hex
    · exact rep_opq hD (hr r hrm) h1 (fun v hv => (hV v hv).2) (List.all_eq_true.1 hT.1 r hrm)
        (hσ r (by simp [Block.plain, hrm])) hA hl _
    · exact hC (r, none) (by simp [Block.defs, hrm])
  | region rs args ivs body rest ihb ih =>
    intro lo hi sc L ns σ ρ p ys tr p' out h hb hN hV hC hT hL hσ hA hCV hden hex
    obtain ⟨h0, m1, m2, m3, h1, h2, h3, h4⟩ := wf_region h
    obtain ⟨ns', hbr, rfl⟩ := build_region hb
    have hr : ∀ r ∈ rs, D r = opqNode args := fun r hr =>
      hN (r, opqNode args) (List.mem_append_left _ (List.mem_map.2 ⟨r, hr, rfl⟩))
    simp only [live] at hL
    obtain ⟨L', hL', hL⟩ := Option.bind_eq_some_iff.1 hL
    split at hL
    · simp at hL
    next hrots =>
    rw [not_not] at hrots
    simp only [typed, Bool.and_eq_true] at hT
    simp only [exec] at hex
    obtain ⟨⟨v1, t1, p1⟩, hr1, hex⟩ := Option.bind_eq_some_iff.1 hex
    obtain ⟨⟨v2, t2, p2⟩, hr2, hex⟩ := Option.map_eq_some_iff.1 hex
    simp only [Prod.mk.injEq] at hex
    obtain ⟨rfl, rfl, rfl⟩ := hex
    have ht1 := rounds_nil (fun i vs p ys tr p' h => exec_norots body hrots h) _ _ _ _ _ _ hr1
    subst ht1
    rw [List.nil_append]
    have l1 := (inc_asc h1).le
    have l2 := wf_le h2
    have l3 := (inc_asc h3).le
    refine ih h4 hbr (fun q hq => hN q (by simp [hq]))
      (hV.append (by omega) fun r h =>
        ⟨((inc_asc h3).mem h).2, hr r h ▸ opqNode_isVal args⟩)
      (fun q hq => hC q (by simp [Block.defs, hq])) hT.2 hL'
      (fun x hx => hσ x (by simp [Block.plain, hx])) (hA.append fun r hrm l hl => ?_)
      (hCV.append _ fun r hrm => ?_) hden hr2
    · exact rep_opq hD (hr r hrm) h0 (fun v hv => (hV v hv).2) (List.all_eq_true.1 hT.1 r hrm)
        (hσ r (by simp [Block.plain, hrm])) hA hl _
    · exact hC (r, none) (by simp [Block.defs, hrm])
  | loop n lb ub st iv inits args rs body rest ihb ih =>
    intro lo hi sc L ns σ ρ p ys tr p' out h hb hN hV hC hT hL hσ hA hCV hden hex
    obtain ⟨hh, m1, m2, m3, h1, h2, h3, h4, h5⟩ := wf_loop h
    obtain ⟨l', u, s, ms, ns', hl', hu, hs, hb1, hb2, rfl⟩ := build_loop hb
    simp only [List.cons_append, List.append_assoc] at hN
    have hres : ∀ q ∈ resultsFrom n 0 rs, D q.1 = q.2 := fun q hq => hN q (by simp [hq])
    simp only [live] at hL
    obtain ⟨L', hL', hL⟩ := Option.bind_eq_some_iff.1 hL
    have l0 := hh.1
    have l1 := (inc_asc h1).le
    have l2 := wf_le h2
    have l3 := (inc_asc h4).le
    have hVr := hV.append (hi := m3) (by omega) fun r h =>
        ⟨((inc_asc h4).mem h).2, results_isVal hres h⟩
    have hNr : ∀ q ∈ ns', D q.1 = q.2 := fun q hq => hN q (by simp [hq])
    have Hlive := live_den hD rest h5 hb2 hNr hVr hL'
      (by simp only [Block.yieldNode] at hden; rw [hden]; simp)
    simp only [typed, Bool.and_eq_true, Bool.or_eq_true, beq_iff_eq] at hT
    obtain ⟨⟨⟨⟨⟨⟨⟨⟨c1, c2⟩, c3⟩, hiv⟩, hTi⟩, hTy⟩, hTr⟩, hTb⟩, hT⟩ := hT
    obtain ⟨x1, e1, i1⟩ := const32_iff c1
    obtain ⟨x2, e2, i2⟩ := const32_iff c2
    obtain ⟨x3, e3, i3⟩ := const32_iff c3
    rw [intConst_of e1, Option.some.injEq] at hl'
    rw [intConst_of e2, Option.some.injEq] at hu
    rw [intConst_of e3, Option.some.injEq] at hs
    subst hl' hu hs
    have r1 := hCV lb hh.2.1 _ e1
    have r2 := hCV ub hh.2.2.1 _ e2
    have r3 := hCV st hh.2.2.2.1 _ e3
    simp only [cstVal] at r1 r2 r3
    simp only [exec, r1, r2, r3] at hex
    split at hex
    · simp at hex
    next hpos =>
    obtain ⟨⟨v1, t1, p1⟩, hr1, hex⟩ := Option.bind_eq_some_iff.1 hex
    obtain ⟨⟨v2, t2, p2⟩, hr2, hex⟩ := Option.map_eq_some_iff.1 hex
    simp only [Prod.mk.injEq] at hex
    obtain ⟨rfl, rfl, rfl⟩ := hex
    have hnD := hN (n, .loop ⟨iv, inits, args, body.yieldNode, wrap32 x1, wrap32 x2, wrap32 x3⟩)
      (by simp)
    simp only [wrap32_of i1, wrap32_of i2, wrap32_of i3] at hnD
    -- the loop itself
    have hvar : ∀ x, x = iv ∨ x ∈ args → D x = .var := by
      rintro x (rfl | hx)
      · exact hN (x, .var) (by simp)
      · exact hN (x, .var) (by simp [hx])
    have hVb : Vis D m1 (args ++ iv :: sc) :=
      (hV.cons (hi := iv + 1) (by omega) (by omega) (by rw [hvar iv (Or.inl rfl)]; trivial)).append
        l1 fun a ha => ⟨((inc_asc h1).mem ha).2, by rw [hvar a (Or.inr ha)]; trivial⟩
    have hloop : ∀ outs, Dag.den (RS P) D σ n = some outs → ∀ M, live cs body = some M →
        x₀ ∉ t1 ∧ RepL G.slots cls args outs v1 := by
      intro outs houts M hM
      refine loop_agree hD l0 hh.2.2.2.2.1 hh.2.2.2.2.2.1 hh.2.2.2.2.2.2.2 h1 h2 hV hvar hnD ?_
        hiv hTi hTy (fun x hx => hσ x (by simp [Block.plain, hx])) hA hCV hpos
        (fun a b c d e => ihb h2 hb1 (fun q hq => hN q (by simp [hq])) hVb
          (fun q hq => hC q (by simp [Block.defs, hq])) hTb hM a b c d e) houts hr1
      rintro a (rfl | ha)
      · exact hC (a, none) (by simp [Block.defs])
      · exact hC (a, none) (by simp [Block.defs, ha])
    -- the rest
    have hrs : ∀ r ∈ rs, ∀ l, den1 P D σ r = some l → (∃ outs, Dag.den (RS P) D σ n = some outs ∧
        ∃ i : Nat, rs[i]? = some r ∧ outs[i]? = some l) := by
      intro r hrm l hl
      obtain ⟨i, hi⟩ := List.getElem?_of_mem hrm
      rw [den1_resultAt hD (results_node (ns := []) hres hi)] at hl
      obtain ⟨outs, houts, hl⟩ := Option.bind_eq_some_iff.1 hl
      exact ⟨outs, houts, i, hi, hl⟩
    have hlv : ∃ M, live cs body = some M := by
      split at hL
      · obtain ⟨M, hM, -⟩ := Option.bind_eq_some_iff.1 hL
        exact ⟨M, hM⟩
      · split at hL
        · next hrots => exact live_norots body hrots
        · simp at hL
    obtain ⟨M, hM⟩ := hlv
    obtain ⟨hx1, hx2⟩ := ih h5 hb2 hNr hVr (fun q hq => hC q (by simp [Block.defs, hq])) hT hL'
      (fun x hx => hσ x (by simp [Block.plain, hx])) (hA.append fun r hrm l hl => by
        obtain ⟨outs, houts, i, hi, hl⟩ := hrs r hrm l hl
        have := (hloop outs houts M hM).2
        exact (RepL.sub hTr hh.2.2.2.2.2.2.1 this).upd (inc_asc h4).nodup ρ hi hl)
      (hCV.append _ fun r hrm => hC (r, none) (by simp [Block.defs, hrm])) hden hr2
    refine ⟨?_, hx2⟩
    have ht1 : x₀ ∉ t1 := by
      split at hL
      case isTrue hrL =>
        have hn := results_den hD hres Hlive hrL
        cases hdn : Dag.den (RS P) D σ n with
        | none => exact absurd hdn hn
        | some outs => exact (hloop outs hdn M hM).1
      case isFalse =>
        split at hL
        · next hrots =>
          rw [rounds_nil (fun i vs p ys tr p' h => exec_norots body hrots h) _ _ _ _ _ _ hr1]
          simp
        · simp at hL
    simp [ht1, hx1]
  | ite n c rs hasElse t e rest iht ihe ih =>
    intro lo hi sc L ns σ ρ p ys tr p' out h hb hN hV hC hT hL hσ hA hCV hden hex
    obtain ⟨hh, m1, m2, m3, h1, h2, h3, h4, h5⟩ := wf_ite h
    obtain ⟨ms, ms', ns', hb1, hb2, hb3, rfl⟩ := build_ite hb
    simp only [List.cons_append, List.append_assoc] at hN
    have hres : ∀ q ∈ resultsFrom n 0 rs, D q.1 = q.2 := fun q hq => hN q (by simp [hq])
    simp only [live] at hL
    obtain ⟨L', hL', hL⟩ := Option.bind_eq_some_iff.1 hL
    have l1 := wf_le h1
    have l2 := wf_le h2
    have l3 := (inc_asc h4).le
    have hVr := hV.append (hi := m3) (by omega) fun r h =>
        ⟨((inc_asc h4).mem h).2, results_isVal hres h⟩
    have hNr : ∀ q ∈ ns', D q.1 = q.2 := fun q hq => hN q (by simp [hq])
    have Hlive := live_den hD rest h5 hb3 hNr hVr hL'
      (by simp only [Block.yieldNode] at hden; rw [hden]; simp)
    simp only [typed, Bool.and_eq_true, beq_iff_eq] at hT
    obtain ⟨⟨⟨⟨⟨hcc, hTt⟩, hTe⟩, hT1⟩, hT2⟩, hT⟩ := hT
    simp only [exec] at hex
    split at hex
    case h_2 => simp at hex
    next b hρc =>
    obtain ⟨⟨v1, t1, p1⟩, hr1, hex⟩ := Option.bind_eq_some_iff.1 hex
    obtain ⟨⟨v2, t2, p2⟩, hr2, hex⟩ := Option.map_eq_some_iff.1 hex
    simp only [Prod.mk.injEq] at hex
    obtain ⟨rfl, rfl, rfl⟩ := hex
    have hnD := hN (n, .ifElse c t.yieldNode e.yieldNode) (by simp)
    simp only at hnD
    have hite : ∀ outs, Dag.den (RS P) D σ n = some outs → ∀ M M', live cs t = some M →
        live cs e = some M' → x₀ ∉ t1 ∧ RepL G.slots cls rs outs v1 := by
      intro outs houts M M' hM hM'
      rw [den_ite hD hnD (hV c hh.1).2] at houts
      obtain ⟨vc, hvc, houts⟩ := Option.bind_eq_some_iff.1 houts
      obtain ⟨b', hb', houts⟩ := Option.bind_eq_some_iff.1 houts
      obtain ⟨x, b'', rfl, hρ, hxb⟩ := hcc ▸ hA c hh.1 vc hvc
      rw [hρc] at hρ
      simp only [RVal.bool.injEq] at hρ
      subst hρ
      simp only [rotSem, Option.some.injEq] at hb'
      have hbb : b' = b := by
        rw [← hb']
        cases b with
        | true => simpa using hxb
        | false => simpa using hxb
      subst hbb
      cases b' with
      | true =>
        obtain ⟨a1, a2⟩ := iht h1 hb1 (fun q hq => hN q (by simp [hq])) hV
          (fun q hq => hC q (by simp [Block.defs, hq])) hT1 hM
          (fun x hx => hσ x (by simp [Block.plain, hx])) hA hCV houts hr1
        exact ⟨a1, RepL.sub hTt hh.2.1.symm a2⟩
      | false =>
        obtain ⟨a1, a2⟩ := ihe h2 hb2 (fun q hq => hN q (by simp [hq])) (hV.weaken (by omega))
          (fun q hq => hC q (by simp [Block.defs, hq])) hT2 hM'
          (fun x hx => hσ x (by simp [Block.plain, hx])) hA hCV houts hr1
        exact ⟨a1, RepL.sub hTe hh.2.2.symm a2⟩
    have hrs : ∀ r ∈ rs, ∀ l, den1 P D σ r = some l → (∃ outs, Dag.den (RS P) D σ n = some outs ∧
        ∃ i : Nat, rs[i]? = some r ∧ outs[i]? = some l) := by
      intro r hrm l hl
      obtain ⟨i, hi⟩ := List.getElem?_of_mem hrm
      rw [den1_resultAt hD (results_node (ns := []) hres hi)] at hl
      obtain ⟨outs, houts, hl⟩ := Option.bind_eq_some_iff.1 hl
      exact ⟨outs, houts, i, hi, hl⟩
    have hlv : ∃ M M', live cs t = some M ∧ live cs e = some M' := by
      split at hL
      · obtain ⟨M, hM, hL⟩ := Option.bind_eq_some_iff.1 hL
        obtain ⟨M', hM', -⟩ := Option.bind_eq_some_iff.1 hL
        exact ⟨M, M', hM, hM'⟩
      · split at hL
        · next hrots =>
          obtain ⟨M, hM⟩ := live_norots (cs := cs) t hrots.1
          obtain ⟨M', hM'⟩ := live_norots (cs := cs) e hrots.2
          exact ⟨M, M', hM, hM'⟩
        · simp at hL
    obtain ⟨M, M', hM, hM'⟩ := hlv
    obtain ⟨hx1, hx2⟩ := ih h5 hb3 hNr hVr (fun q hq => hC q (by simp [Block.defs, hq])) hT hL'
      (fun x hx => hσ x (by simp [Block.plain, hx])) (hA.append fun r hrm l hl => by
        obtain ⟨outs, houts, i, hi, hl⟩ := hrs r hrm l hl
        exact (hite outs houts M M' hM hM').2.upd (inc_asc h4).nodup ρ hi hl)
      (hCV.append _ fun r hrm => hC (r, none) (by simp [Block.defs, hrm])) hden hr2
    refine ⟨?_, hx2⟩
    have ht1 : x₀ ∉ t1 := by
      split at hL
      case isTrue hrL =>
        have hn := results_den hD hres Hlive hrL
        cases hdn : Dag.den (RS P) D σ n with
        | none => exact absurd hdn hn
        | some outs => exact (hite outs hdn M M' hM hM').1
      case isFalse =>
        split at hL
        · next hrots =>
          have : t1 = [] := by
            split at hr1
            · exact exec_norots t hrots.1 hr1
            · exact exec_norots e hrots.2 hr1
          rw [this]
          simp
        · simp at hL
    simp [ht1, hx1]

end Heir.RotKeys
