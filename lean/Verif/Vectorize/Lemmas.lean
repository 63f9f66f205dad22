import Verif.Vectorize.Steps
import Verif.Graph.Props
import Mathlib.Data.Finset.Lattice.Fold
import Mathlib.Data.Finset.Image
import Mathlib.Data.List.Perm.Basic

/-! # Buckets, the graph and ranks -/

namespace Heir.Vectorize

open Graph (upd)

variable {K α : Type}

/-! ## Buckets -/

theorem addToBuckets_flatten (par : Int) (o : Nat) :
    ∀ bs : List (List Nat), (addToBuckets par o bs).flatten = bs.flatten ++ [o]
  | [] => rfl
  | [b] => by
    unfold addToBuckets
    split <;> simp
  | b :: b' :: bs => by
    rw [addToBuckets, List.flatten_cons, addToBuckets_flatten par o (b' :: bs), List.flatten_cons,
      List.append_assoc]
    all_goals simp

/-- All operations in buckets. -/
abbrev Buckets.all (m : Buckets) : List Nat := m.flatMap fun kb => kb.2.flatten

theorem addOp_map_perm {compat : Nat → Nat → Bool} (hc : PartialEquiv compat) (par : Int) (o : Nat) :
    ∀ m : Buckets, m.Pairwise (fun a b => compat a.1 b.1 = false) →
      m.any (fun kb => compat kb.1 o) = true →
      (Buckets.all (m.map fun kb => if compat kb.1 o then (kb.1, addToBuckets par o kb.2) else kb)).Perm
        (o :: Buckets.all m)
  | [], _, h => by simp at h
  | kb :: m, hp, h => by
    rw [List.pairwise_cons] at hp
    by_cases hk : compat kb.1 o = true
    · have hrest : (m.map fun kb => if compat kb.1 o then (kb.1, addToBuckets par o kb.2) else kb) =
          m := by
        conv_rhs => rw [← List.map_id m]
        apply List.map_congr_left
        intro kb' hkb'
        have : ¬ compat kb'.1 o = true := by
          intro h2
          have := hc.trans _ _ _ hk (hc.symm _ _ h2)
          rw [hp.1 kb' hkb'] at this
          exact Bool.false_ne_true this
        rw [if_neg this]
        rfl
      rw [List.map_cons, hrest, if_pos hk]
      simp only [Buckets.all, List.flatMap_cons, addToBuckets_flatten]
      rw [List.append_assoc]
      exact List.perm_middle
    · rw [List.map_cons, if_neg hk]
      have h' : m.any (fun kb => compat kb.1 o) = true := by simpa [hk] using h
      have ih := addOp_map_perm hc par o m hp.2 h'
      simp only [Buckets.all, List.flatMap_cons] at ih ⊢
      exact (ih.append_left _).trans List.perm_middle

theorem addOp_ok {compat : Nat → Nat → Bool} (hc : PartialEquiv compat) (par : Int) (o : Nat)
    (m : Buckets) (hp : m.Pairwise fun a b => compat a.1 b.1 = false) :
    (Buckets.all (addOp compat par m o)).Perm (o :: Buckets.all m) ∧
      (addOp compat par m o).Pairwise fun a b => compat a.1 b.1 = false := by
  unfold addOp
  split
  · rename_i h
    refine ⟨addOp_map_perm hc par o m hp h, ?_⟩
    rw [List.pairwise_map]
    refine hp.imp ?_
    intro a b hab
    have : ∀ kb : Nat × List (List Nat),
        (if compat kb.1 o = true then (kb.1, addToBuckets par o kb.2) else kb).1 = kb.1 := by
      intro kb; split <;> rfl
    rw [this, this]
    exact hab
  · rename_i h
    constructor
    · simp only [Buckets.all, List.flatMap_append, List.flatMap_cons, List.flatMap_nil,
        List.flatten_cons, List.flatten_nil, List.append_nil]
      exact List.perm_append_comm
    · rw [List.pairwise_append]
      refine ⟨hp, List.pairwise_singleton _ _, ?_⟩
      intro a ha b hb
      rw [List.mem_singleton.1 hb]
      rw [Bool.not_eq_true, List.any_eq_false] at h
      simpa using h a ha

theorem buildCompatibleOps_perm {compat : Nat → Nat → Bool} (hc : PartialEquiv compat) (par : Int)
    (level : List Nat) : (Buckets.all (buildCompatibleOps compat par level)).Perm level := by
  have key : ∀ (l : List Nat) (m : Buckets), (m.Pairwise fun a b => compat a.1 b.1 = false) →
      (Buckets.all (l.foldl (addOp compat par) m)).Perm (Buckets.all m ++ l) := by
    intro l
    induction l with
    | nil => intro m _; simp
    | cons o l ih =>
      intro m hp
      obtain ⟨h1, h2⟩ := addOp_ok hc par o m hp
      refine (ih _ h2).trans ?_
      exact (h1.append_right l).trans (List.perm_middle.symm)
  simpa [buildCompatibleOps] using key level [] List.Pairwise.nil

/-! ## Levels -/

section

variable {sem : K → List (Val α) → List (Val α) → Val α} {env : Nat → Option (Val α)}
  {W : Nat → Prop} {st : State K} {σ : Nat → Val α} {R : Nat → Nat}

theorem rewriteLevel_ok {compat : Node K → Node K → Bool} (hc : PartialEquiv compat) (par : Int)
    (h : Inv sem env W st σ R) (level : List Nat) (ρ : Nat) (hn : level.Nodup)
    (hl : ∀ o ∈ level, Defined st.nodes o ∧ W o ∧ R o = ρ) :
    ∃ st' σ' R', rewriteLevel compat par st level = some st' ∧ Inv sem env W st' σ' R' ∧
      Step st st' σ σ' R R' level := by
  unfold rewriteLevel
  have hc' : PartialEquiv (fun a b : Nat =>
      match st.nodes.find? (fun n => n.id == a), st.nodes.find? (fun n => n.id == b) with
      | some x, some y => compat x y
      | _, _ => false) := by
    constructor
    · intro a b hab
      cases ha : st.nodes.find? (fun n => n.id == a) <;>
        cases hb : st.nodes.find? (fun n => n.id == b) <;> simp only [ha, hb] at hab ⊢ <;>
        first | exact hab | exact hc.symm _ _ hab
    · intro a b d hab hbd
      cases ha : st.nodes.find? (fun n => n.id == a) <;>
        cases hb : st.nodes.find? (fun n => n.id == b) <;>
        cases hd : st.nodes.find? (fun n => n.id == d) <;> simp only [ha, hb, hd] at hab hbd ⊢ <;>
        first | exact hc.trans _ _ _ hab hbd | simp at hab | simp at hbd
  have hperm := buildCompatibleOps_perm hc' par level
  obtain ⟨s1, σ1, R1, r1, h1, t1⟩ := rewriteKeys_ok ρ _ h (hperm.nodup_iff.2 hn)
    (fun o ho => hl o (hperm.mem_iff.1 ho))
  exact ⟨s1, σ1, R1, r1, h1, t1.next, t1.val, t1.rank, fun i hi hd =>
    t1.keep i (fun hm => hi (hperm.mem_iff.1 hm)) hd⟩

theorem rewriteLevels_ok {compat : Node K → Node K → Bool} (hc : PartialEquiv compat) (par : Int) :
    ∀ (levels : List (List Nat)) {st : State K} {σ : Nat → Val α} {R : Nat → Nat},
    Inv sem env W st σ R → levels.flatten.Nodup →
    (∀ level ∈ levels, ∃ ρ, ∀ o ∈ level, Defined st.nodes o ∧ W o ∧ R o = ρ) →
    ∃ st' σ' R', levels.foldlM (rewriteLevel compat par) st = some st' ∧ Inv sem env W st' σ' R' ∧
      Step st st' σ σ' R R' levels.flatten
  | [], st, σ, R, h, _, _ =>
      ⟨st, σ, R, rfl, h, le_refl _, fun _ _ => rfl, fun _ _ => rfl, fun _ _ hd => hd⟩
  | level :: levels, st, σ, R, h, hn, hl => by
    rw [List.flatten_cons, List.nodup_append] at hn
    obtain ⟨hn1, hn2, hdis⟩ := hn
    obtain ⟨ρ, hρ⟩ := hl level List.mem_cons_self
    obtain ⟨s1, σ1, R1, r1, h1, t1⟩ := rewriteLevel_ok hc par h level ρ hn1 hρ
    obtain ⟨s2, σ2, R2, r2, h2, t2⟩ := rewriteLevels_ok hc par levels h1 hn2 (fun level' hl' => by
      obtain ⟨ρ', hρ'⟩ := hl level' (List.mem_cons_of_mem _ hl')
      refine ⟨ρ', fun o ho => ?_⟩
      obtain ⟨a, w, r⟩ := hρ' o ho
      exact ⟨t1.keep o (fun hk => hdis o hk o (List.mem_flatten.2 ⟨level', hl', ho⟩) rfl) a, w,
        by rw [t1.rank _ (h.wlt _ w), r]⟩)
    refine ⟨s2, σ2, R2, ?_, h2, le_trans t1.next t2.next,
      fun i hi => (t2.val i (lt_of_lt_of_le hi t1.next)).trans (t1.val i hi),
      fun i hi => (t2.rank i (lt_of_lt_of_le hi t1.next)).trans (t1.rank i hi), ?_⟩
    · rw [List.foldlM_cons, r1]; exact r2
    · intro i hi hd
      rw [List.flatten_cons, List.mem_append, not_or] at hi
      exact t2.keep i hi.2 (t1.keep i hi.1 hd)

end

/-! ## Runs -/

section

variable (sem : K → List (Val α) → List (Val α) → Val α)

theorem run_append : ∀ (A B : List (Node K)) (env : Nat → Option (Val α)),
    run sem env (A ++ B) = (run sem env A).bind fun e => run sem e B
  | [], _, _ => rfl
  | n :: A, B, env => by
    simp only [List.cons_append, run]
    cases n.eval sem env with
    | none => rfl
    | some v => exact run_append A B _

theorem run_other : ∀ {l : List (Node K)} {env e : Nat → Option (Val α)}, run sem env l = some e →
    ∀ i, ¬ Defined l i → e i = env i
  | [], _, _, h, _, _ => by rw [run, Option.some.injEq] at h; rw [h]
  | n :: l, env, e, h, i, hi => by
    rw [run, Option.bind_eq_some_iff] at h
    obtain ⟨v, -, h⟩ := h
    have h1 := run_other h i (fun ⟨m, hm, em⟩ => hi ⟨m, List.mem_cons_of_mem _ hm, em⟩)
    rw [h1, upd_ne]
    exact fun e => hi ⟨n, List.mem_cons_self, e.symm⟩

theorem run_defined {l : List (Node K)} {env e : Nat → Option (Val α)} (h : run sem env l = some e) :
    ∀ i, Defined l i → (e i).isSome := by
  induction l generalizing env with
  | nil => rintro i ⟨n, hn, -⟩; simp at hn
  | cons n l ih =>
    rw [run, Option.bind_eq_some_iff] at h
    obtain ⟨v, -, h⟩ := h
    rintro i ⟨m, hm, rfl⟩
    by_cases hd : Defined l m.id
    · exact ih h _ hd
    · rw [run_other sem h _ hd]
      rcases List.mem_cons.1 hm with rfl | hm
      · rw [upd_eq]; rfl
      · exact absurd ⟨m, hm, rfl⟩ hd

theorem sequence_mem {l : List Nat} {f : Nat → Option (Val α)} {a : List (Val α)}
    (h : sequence (l.map f) = some a) : ∀ r ∈ l, (f r).isSome := by
  rw [sequence_some] at h
  intro r hr
  have : f r ∈ l.map f := List.mem_map.2 ⟨r, hr, rfl⟩
  rw [h] at this
  obtain ⟨b, -, e⟩ := List.mem_map.1 this
  rw [← e]; rfl

/-- What is used is known. -/
theorem eval_refs {n : Node K} {f : Nat → Option (Val α)} {v : Val α} (h : n.eval sem f = some v) :
    ∀ r ∈ n.refs, (f r).isSome := by
  cases n with
  | op i k args captured =>
    simp only [Node.eval, Option.bind_eq_some_iff, Option.map_eq_some_iff] at h
    obtain ⟨a, ha, c, hc, -⟩ := h
    intro r hr
    rcases List.mem_append.1 hr with hr | hr
    · exact sequence_mem ha r hr
    · exact sequence_mem hc r hr
  | packed i lanes =>
    simp only [Node.eval, Option.map_eq_some_iff] at h
    obtain ⟨a, ha, -⟩ := h
    rw [sequence_some] at ha
    intro r hr
    obtain ⟨l, hl, hr⟩ := List.mem_flatMap.1 hr
    have : ((sequence (l.2.map f)).map fun a => sem l.1 a []) ∈
        lanes.map fun l => (sequence (l.2.map f)).map fun a => sem l.1 a [] :=
      List.mem_map.2 ⟨l, hl, rfl⟩
    rw [ha] at this
    obtain ⟨b, -, e⟩ := List.mem_map.1 this
    obtain ⟨c, hc, -⟩ := Option.map_eq_some_iff.1 e.symm
    exact sequence_mem hc r hr
  | extract i src lane =>
    simp only [Node.eval, Option.bind_eq_some_iff] at h
    obtain ⟨a, ha, -⟩ := h
    intro r hr
    rw [Node.refs, List.mem_singleton] at hr
    rw [hr, ha]; rfl

/-- An operation with all it uses known and a value for some larger environment has that value. -/
theorem eval_of_total {n : Node K} {f : Nat → Option (Val α)} {σ : Nat → Val α} {v : Val α}
    (h : n.eval sem (total σ) = some v) (hf : ∀ r ∈ n.refs, f r = some (σ r)) :
    n.eval sem f = some v := by
  rw [eval_congr sem n (g := total σ) hf]
  exact h

/-- Every use comes after its definition in the block. -/
def Ordered (block : List (Node K)) : Prop :=
  ∀ A n B, block = A ++ n :: B → ∀ r ∈ n.refs, Defined block r → Defined A r

variable {sem} {block : List (Node K)} {env e0 : Nat → Option (Val α)}

theorem split_run {A B : List (Node K)} {n : Node K} (h : run sem env (A ++ n :: B) = some e0) :
    ∃ e1 v, run sem env A = some e1 ∧ n.eval sem e1 = some v ∧
      run sem (upd e1 n.id (some v)) B = some e0 := by
  rw [run_append, Option.bind_eq_some_iff] at h
  obtain ⟨e1, h1, h⟩ := h
  rw [run, Option.bind_eq_some_iff] at h
  obtain ⟨v, h2, h3⟩ := h
  exact ⟨e1, v, h1, h2, h3⟩

theorem ordered_of_run (h : run sem env block = some e0) (hout : ∀ i, Defined block i → env i = none) :
    Ordered block := by
  intro A n B e r hr hd
  rw [e] at h
  obtain ⟨e1, v, h1, h2, -⟩ := split_run h
  by_contra hA
  have := eval_refs sem h2 r hr
  rw [run_other sem h1 r hA, hout r hd] at this
  simp at this

/-- The values of a run. -/
def values (e0 : Nat → Option (Val α)) : Nat → Val α := fun i => (e0 i).getD (.tensor [])

theorem sat_of_run (hn : (block.map Node.id).Nodup) (h : run sem env block = some e0)
    (hout : ∀ i, Defined block i → env i = none) :
    ∀ n ∈ block, n.eval sem (total (values e0)) = some (values e0 n.id) := by
  intro n hnb
  obtain ⟨A, B, rfl⟩ := List.append_of_mem hnb
  obtain ⟨e1, v, h1, h2, h3⟩ := split_run h
  have hnB : ¬ Defined B n.id := by
    rintro ⟨m, hm, e⟩
    rw [List.map_append, List.nodup_append, List.map_cons, List.nodup_cons] at hn
    exact hn.2.1.1 (e ▸ List.mem_map.2 ⟨m, hm, rfl⟩)
  have hv : e0 n.id = some v := by rw [run_other sem h3 _ hnB, upd_eq]
  have : values e0 n.id = v := by rw [values, hv]; rfl
  rw [this]
  refine eval_mono sem ?_ n h2
  intro i w hi
  have hne : i ≠ n.id := by
    rintro rfl
    have hA : ¬ Defined A n.id := by
      rintro ⟨m, hm, e⟩
      rw [List.map_append, List.nodup_append] at hn
      exact hn.2.2 n.id (List.mem_map.2 ⟨m, hm, e⟩) n.id (by simp) rfl
    rw [run_other sem h1 _ hA, hout _ ⟨n, by simp, rfl⟩] at hi
    simp at hi
  have hB : ¬ Defined B i := by
    rintro ⟨m, hm, rfl⟩
    by_cases hA : Defined A m.id
    · obtain ⟨m', hm', e⟩ := hA
      rw [List.map_append, List.nodup_append] at hn
      exact hn.2.2 m.id (List.mem_map.2 ⟨m', hm', e⟩) m.id
        (List.mem_map.2 ⟨m, List.mem_cons_of_mem _ hm, rfl⟩) rfl
    · rw [run_other sem h1 _ hA, hout _ ⟨m, by simp [hm], rfl⟩] at hi
      simp at hi
  have : e0 i = some w := by rw [run_other sem h3 _ hB, upd_ne _ _ hne, hi]
  rw [total, values, this]
  rfl

theorem refs_of_run (h : run sem env block = some e0) :
    ∀ n ∈ block, ∀ r ∈ n.refs, Defined block r ∨ (env r).isSome := by
  intro n hnb r hr
  obtain ⟨A, B, rfl⟩ := List.append_of_mem hnb
  obtain ⟨e1, v, h1, h2, -⟩ := split_run h
  by_cases hA : Defined A r
  · obtain ⟨m, hm, e⟩ := hA
    exact Or.inl ⟨m, List.mem_append_left _ hm, e⟩
  · have := eval_refs sem h2 r hr
    rw [run_other sem h1 r hA] at this
    exact Or.inr this

end

/-! ## Positions -/

/-- The position of a definition. -/
def pos (block : List (Node K)) (i : Nat) : Nat := (block.map Node.id).idxOf i

theorem pos_lt_length {block : List (Node K)} {i : Nat} (h : Defined block i) :
    pos block i < block.length := by
  obtain ⟨n, hn, rfl⟩ := h
  have : n.id ∈ block.map Node.id := List.mem_map.2 ⟨n, hn, rfl⟩
  simpa [pos] using List.idxOf_lt_length_of_mem this

theorem pos_lt {block : List (Node K)} (hn : (block.map Node.id).Nodup) (ho : Ordered block)
    {u v : Nat} (h : Uses block u v) : pos block u < pos block v := by
  obtain ⟨hd, n, hnb, rfl, hr⟩ := h
  obtain ⟨A, B, rfl⟩ := List.append_of_mem hnb
  obtain ⟨m, hm, rfl⟩ := ho A n B rfl u hr hd
  have hmA : m.id ∈ A.map Node.id := List.mem_map.2 ⟨m, hm, rfl⟩
  have hnA : n.id ∉ A.map Node.id := by
    intro h
    rw [List.map_append, List.nodup_append] at hn
    exact hn.2.2 _ h _ (by simp) rfl
  unfold pos
  rw [List.map_append, List.idxOf_append_of_mem hmA, List.idxOf_append_of_notMem hnA]
  have := List.idxOf_lt_length_of_mem hmA
  omega

theorem pos_lt_trans {block : List (Node K)} (hn : (block.map Node.id).Nodup) (ho : Ordered block)
    {u v : Nat} (h : Relation.TransGen (Uses block) u v) : pos block u < pos block v := by
  induction h with
  | single h => exact pos_lt hn ho h
  | tail _ h ih => exact lt_trans ih (pos_lt hn ho h)

end Heir.Vectorize
