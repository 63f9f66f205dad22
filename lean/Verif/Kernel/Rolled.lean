import Verif.Kernel.Accum

/-! # The rolled baby-step giant-step kernel -/

namespace Heir.Kernel

open Heir.Dag Finset

variable {R : Type} {N : Nat} [CommRing R] [DecidableEq R] {ok : Int → Bool} {env : Env (Val R N)}

theorem eval_ifElse {c t e : KExpr R N} {x : Int} (hc : Ev ok env c (.idx x)) :
    (Expr.ifElse c t e).eval (kSem ok) env =
      if x ≠ 0 then t.eval (kSem ok) env else e.eval (kSem ok) env := by
  unfold Ev at hc
  rw [Expr.eval, hc]
  by_cases h : x = 0 <;> simp [kSem, h]

theorem ev_then {c t e : KExpr R N} {x : Int} {y : Val R N} (hc : Ev ok env c (.idx x))
    (hx : x ≠ 0) (ht : Ev ok env t y) : Ev ok env (.ifElse c t e) y := by
  unfold Ev
  rw [eval_ifElse hc, if_pos hx]; exact ht

theorem ev_else {c t e : KExpr R N} {y : Val R N} (hc : Ev ok env c (.idx 0))
    (he : Ev ok env e y) : Ev ok env (.ifElse c t e) y := by
  unfold Ev
  rw [eval_ifElse hc, if_neg (by simp)]; exact he

theorem ev_result0 {e : KExpr R N} {v : Val R N} (h : Ev ok env e v) :
    Ev ok env (.resultAt e 0) v :=
  ev_resultAt h rfl

/-- The packed baby steps after `k` iterations. -/
def packedState (b : Nat) (period : Int) (v : Slots R N) (k : Nat) : List (Slots R N) :=
  (List.range b).map fun i => if i < k then rot (i * period) v else fun _ => 0

omit [DecidableEq R] in
theorem packedState_get {b : Nat} (period : Int) (v : Slots R N) {i : Nat} (hi : i < b) :
    (packedState b period v b)[i]? = some (rot (i * period) v) := by
  simp [packedState, hi]

omit [DecidableEq R] in
theorem packedState_zero (b : Nat) (period : Int) (v : Slots R N) :
    packedState b period v 0 = List.replicate b fun _ => 0 := by
  simp [packedState]

omit [DecidableEq R] in
theorem packedState_succ {b : Nat} (period : Int) (v : Slots R N) {k : Nat} (hk : k < b) :
    Loop.put (packedState b period v k) k (rot (k * period) v) = some (packedState b period v (k + 1)) := by
  unfold Loop.put
  rw [if_pos (by simpa [packedState] using hk)]
  congr 1
  apply List.ext_getElem
  · simp [packedState]
  · intro i h1 h2
    rw [List.getElem_set]
    simp only [packedState, List.getElem_map, List.getElem_range]
    split
    · rename_i h; subst h; simp
    · rename_i h
      by_cases h3 : i < k
      · simp [h3, show i < k + 1 by omega]
      · simp [h3, show ¬ i < k + 1 by omega]

theorem packed_ok {b : Nat} (hb : b < 2 ^ 31) (period : Int) {ve : KExpr R N} {v : Slots R N}
    (hv : ∀ env, EvV ok env ve v) (hB : ∀ i : Nat, i < b → ok (period * i) = true) :
    ∃ s, Ev ok env (.resultAt (.loop1 0 1 (.op0 (.empty b))
      (.yield1 (.op3 .insert (rotD ve (mulE (.var 0) (cst period))) (.var 1) (.var 0))) 0 b 1) 0)
      (.mat s (packedState b period v b)) := by
  obtain ⟨z, hz, t, rfl⟩ := eval_loop1 (ok := ok) (env := env) (iv := 0) (x := 1)
    (init := .op0 (.empty b))
    (body := .yield1 (.op3 .insert (rotD ve (mulE (.var 0) (cst period))) (.var 1) (.var 0))) hb
    (fun k z => ∃ t, z = .mat t (packedState b period v k))
    ⟨.mat false (packedState b period v 0), by rw [packedState_zero]; rfl, _, rfl⟩ rfl (by
      rintro i hi _ ⟨t, rfl⟩
      obtain ⟨s, hs⟩ := ev_rotD (ok := ok) (k := (i : Int) * period)
        (hv (setVar (setVar env 0 (.idx (i : Int))) 1 (.mat t (packedState b period v i))))
        (ev_mulI (ev_var (x := 0) rfl) (ev_cst _)) (by rw [mul_comm]; exact hB i hi)
      refine ⟨.mat (s || t) (packedState b period v (i + 1)), ev_yield1 (ev_op3 hs
        (ev_var (v := .mat t (packedState b period v i)) rfl) (ev_var (v := .idx (i : Int)) rfl) ?_), _, rfl⟩
      simp only [kPure]
      rw [if_neg (by omega), Int.toNat_natCast, packedState_succ period v hi]
      rfl)
  exact ⟨t, hz⟩

/-- The table agrees with `skip`. -/
def TableOk (nz : Option (List R)) (steps : Nat) (skip : Nat → Bool) : Prop :=
  match nz with
  | none => ∀ c, c < steps → skip c = false
  | some t => ∀ c, c < steps → ∃ x, t[c]? = some x ∧ skip c = decide (x = 0)

/-- One iteration of the inner loop, in any environment that binds the variables. -/
theorem rolledBody_ok {b steps : Nat} {period : Int} {nz : Option (List R)} {skip : Nat → Bool}
    (hnz : TableOk nz steps skip) {P : Nat → Slots R N} {m : List (Slots R N)}
    (hm : ∀ c, c < steps → m[c]? = some (P c)) {v : Slots R N} {me : KExpr R N}
    {j i : Nat} (hi : i < b) {E : Env (Val R N)} (hme : Ev ok E me (.mat false m)) {s6 s4 : Bool}
    {acc : Slots R N} (h2 : E 2 = some (.idx j)) (h4 : E 4 = some (.mat s4 (packedState b period v b)))
    (h5 : E 5 = some (.idx i)) (h6 : E 6 = some (.vec s6 acc)) :
    EvV ok E (rolledBody b steps period nz me)
      (acc + term b steps period skip P (defaultRot b period) v j i) := by
  unfold rolledBody
  have hidx : Ev ok E (addE (.var 5) (mulE (.var 2) (cst b))) (.idx ((j * b + i : Nat) : Int)) := by
    have := ev_addI (ok := ok) (ev_var h5) (ev_mulI (ev_var h2) (ev_cst (b : Int)))
    push_cast
    rw [add_comm]; exact this
  have hsum : ∀ h : j * b + i < steps, EvV ok E
      (.yield1 (addE (.var 6)
    (mulE (rotD (extractD me (addE (.var 5) (mulE (.var 2) (cst b))))
      (mulE (mulE (mulE (.var 2) (cst b)) (cst period)) (cst (-1)))) (extractD (.var 4) (.var 5)))))
      (acc + rot (defaultRot b period j i) (P (j * b + i)) * rot (period * i) v) := by
    intro h
    refine (ev_add ⟨_, ev_var h6⟩ (ev_mul ?_ ?_)).imp fun _ h => ev_yield1 h
    · rw [show defaultRot b period j i = (j : Int) * b * period * (-1) by unfold defaultRot; ring]
      exact ev_rotP (ev_extractD hme hidx (by omega) (by rw [Int.toNat_natCast]; exact hm _ h))
        (ev_mulI (ev_mulI (ev_mulI (ev_var h2) (ev_cst _)) (ev_cst _)) (ev_cst _)) (by simp)
    · refine ⟨s4, ev_extractD (ev_var h4) (ev_var h5) (by omega) ?_⟩
      rw [Int.toNat_natCast, packedState_get period v hi, mul_comm]
  have hkeep : Ev ok E (.yield1 (.var 6)) (.vec s6 acc) := ev_yield1 (ev_var h6)
  have hbound := ev_op2 (o := .cmp .LT) hidx
    (ev_cst (ok := ok) (env := E) (R := R) (N := N) (steps : Int)) rfl
  by_cases h : j * b + i < steps
  · have hh : holds .LT ((j * b + i : Nat) : Int) (steps : Int) = true := by
      simp only [holds, decide_eq_true_eq]; exact_mod_cast h
    rw [if_pos hh] at hbound
    cases nz with
    | none =>
      have hs : skip (j * b + i) = false := hnz _ h
      have ht : term b steps period skip P (defaultRot b period) v j i =
          rot (defaultRot b period j i) (P (j * b + i)) * rot (period * i) v := by
        unfold term; rw [if_neg (by omega), hs]; rfl
      rw [ht]
      exact (hsum h).imp fun _ h => ev_then hbound one_ne_zero h
    | some t =>
      obtain ⟨x, hx, hs⟩ := hnz _ h
      have hex : Ev ok E (extractD (.op0 (.leaf (.tab t))) (addE (.var 5) (mulE (.var 2) (cst b))))
          (.elt x) := by
        refine ev_op2 (x := .tab t) rfl hidx ?_
        simp only [kPure]
        rw [if_neg (by omega), Int.toNat_natCast, hx]; rfl
      have hne := ev_op2 (o := .cmp .NE) hex
        (show Ev ok E (.op0 (.leaf (.elt 0))) (.elt 0) from rfl) rfl
      by_cases h0 : x = 0
      · rw [if_neg (by simpa using h0)] at hne
        have hs : skip (j * b + i) = true := by rw [hs]; simpa using h0
        have ht : term b steps period skip P (defaultRot b period) v j i = 0 := by
          unfold term; rw [if_neg (by omega), hs]; rfl
        rw [ht, add_zero]
        exact ⟨s6, ev_then hbound one_ne_zero (ev_yield1 (ev_result0 (ev_else hne hkeep)))⟩
      · rw [if_pos h0] at hne
        have hs : skip (j * b + i) = false := by rw [hs]; simpa using h0
        have ht : term b steps period skip P (defaultRot b period) v j i =
            rot (defaultRot b period j i) (P (j * b + i)) * rot (period * i) v := by
          unfold term; rw [if_neg (by omega), hs]; rfl
        rw [ht]
        exact (hsum h).imp fun _ h => ev_then hbound one_ne_zero
          (ev_yield1 (ev_result0 (ev_then hne one_ne_zero h)))
  · have hh : holds .LT ((j * b + i : Nat) : Int) (steps : Int) = false := by
      simp only [holds, decide_eq_false_iff_not]; exact_mod_cast h
    rw [if_neg (by rw [hh]; simp)] at hbound
    have ht : term b steps period skip P (defaultRot b period) v j i = 0 := by
      unfold term; rw [if_pos (by omega)]
    rw [ht, add_zero]
    cases nz with
    | none => exact ⟨s6, ev_else hbound hkeep⟩
    | some t => exact ⟨s6, ev_else hbound hkeep⟩

theorem bsgsRolled_ok {b steps : Nat} (hb : b < 2 ^ 31) (hg : (steps + b - 1) / b < 2 ^ 31)
    {period : Int} {nz : Option (List R)} {skip : Nat → Bool} (hnz : TableOk nz steps skip)
    {P : Nat → Slots R N} {m : List (Slots R N)} (hm : ∀ c, c < steps → m[c]? = some (P c))
    {v : Slots R N} {me ve : KExpr R N} (hme : ∀ env, Ev ok env me (.mat false m))
    (hve : ∀ env, EvV ok env ve v) (hB : ∀ i : Nat, i < b → ok (period * i) = true)
    (hG : ∀ j : Nat, j < (steps + b - 1) / b → ok (period * j * b) = true) :
    EvV ok env (bsgsRolledWith b steps period nz me ve)
      (∑ j ∈ range ((steps + b - 1) / b), rot (period * j * b)
        (∑ i ∈ range b, term b steps period skip P (defaultRot b period) v j i)) := by
  unfold bsgsRolledWith
  obtain ⟨s4, hp⟩ := packed_ok (ok := ok) (env := env) hb period hve hB
  obtain ⟨s3, h3⟩ := ev_splat (ok := ok) (env := env) (N := N) (0 : R)
  refine evV_loop2 hg
    (fun g z w => (∃ s, z = .vec s (∑ j ∈ range g, rot (period * j * b)
        (∑ i ∈ range b, term b steps period skip P (defaultRot b period) v j i))) ∧
        w = .mat s4 (packedState b period v b)) ⟨_, _, h3, hp, ⟨s3, rfl⟩, rfl⟩ rfl ?_ ?_
  · rintro j hj _ _ ⟨⟨s, rfl⟩, rfl⟩
    generalize hE : (setVar (setVar (setVar env 2 (.idx (j : Int))) 3
      (.vec s (∑ j' ∈ range j, rot (period * (j' : Int) * b)
        (∑ i ∈ range b, term b steps period skip P (defaultRot b period) v j' i)))) 4
      (.mat s4 (packedState b period v b)) : Env (Val R N)) = E
    have e2 : E 2 = some (.idx j) := by rw [← hE]; rfl
    have e3 : E 3 = some (.vec s (∑ j' ∈ range j, rot (period * (j' : Int) * b)
        (∑ i ∈ range b, term b steps period skip P (defaultRot b period) v j' i))) := by
      rw [← hE]; rfl
    have e4 : E 4 = some (.mat s4 (packedState b period v b)) := by rw [← hE]; rfl
    obtain ⟨s6, h6⟩ := ev_splat (ok := ok) (env := E) (N := N) (0 : R)
    refine Exists.elim (eval_loop1 (ok := ok) (env := E) (iv := 5) (x := 6)
      (body := .yield1 (.resultAt (rolledBody b steps period nz me) 0)) hb
      (fun k z => ∃ s, z = .vec s (∑ i ∈ range k,
        term b steps period skip P (defaultRot b period) v j i)) ⟨_, h6, s6, rfl⟩ rfl ?_) ?_
    · rintro i hi _ ⟨t, rfl⟩
      obtain ⟨t', ht'⟩ := rolledBody_ok (ok := ok) (steps := steps) (period := period) (nz := nz)
        (skip := skip) hnz hm (v := v) (me := me) (j := j) (i := i) hi
        (E := setVar (setVar E 5 (.idx (i : Int))) 6 (.vec t (∑ i ∈ range i,
          term b steps period skip P (defaultRot b period) v j i))) (hme _) (s6 := t) (s4 := s4)
        e2 e4 rfl rfl
      refine ⟨_, ev_yield1 (ev_result0 ht'), t', ?_⟩
      rw [Finset.sum_range_succ]
    · rintro _ ⟨hz, t, rfl⟩
      obtain ⟨t', ht'⟩ := ev_add (ok := ok) (env := E) ⟨_, ev_var e3⟩
        (ev_rotD (ok := ok) (k := (j : Int) * b * period) ⟨t, hz⟩
          (ev_mulI (ev_mulI (ev_var e2) (ev_cst _)) (ev_cst _))
          (by rw [show (j : Int) * b * period = period * j * b by ring]; exact hG j hj))
      refine ⟨_, _, eval_yield2 ht' (ev_var e4), ⟨t', ?_⟩, rfl⟩
      rw [Finset.sum_range_succ, show (j : Int) * b * period = period * j * b by ring]
  · rintro z w ⟨h, -⟩
    exact h

omit [DecidableEq R] in
theorem notZeroTable_get (steps : Nat) (zeros : List (Int × Bool)) (c : Nat) (hc : c < steps) :
    ∃ x, (notZeroTable R steps zeros)[c]? = some x ∧
      x = if ((c : Int), true) ∈ zeros then 0 else 1 := by
  unfold notZeroTable
  have key : ∀ (zs : List (Int × Bool)) (t : List R) (q : Prop) [Decidable q], t.length = steps →
      t[c]? = some (if q then 0 else 1) →
      (zs.foldl (fun t z => if z.2 = true ∧ 0 ≤ z.1 ∧ z.1 < (steps : Int) then t.set z.1.toNat 0 else t)
        t)[c]? = some (if q ∨ ((c : Int), true) ∈ zs then 0 else 1) := by
    intro zs
    induction zs with
    | nil => intro t q _ _ h; simpa using h
    | cons z zs ih =>
      intro t q _ hl h
      rw [List.foldl_cons, ih _ (q ∨ ((c : Int), true) = z)]
      · simp only [List.mem_cons, or_assoc]
      · split <;> simp [hl]
      · split
        · rename_i hz
          rw [List.getElem?_set]
          obtain ⟨z1, z2⟩ := z
          simp only at hz ⊢
          split
          · rename_i e
            rw [if_pos (by omega), if_pos (Or.inr (by rw [hz.1, ← e]; congr 1; omega))]
          · rename_i e
            rw [h]
            congr 1
            apply if_congr _ rfl rfl
            constructor
            · exact Or.inl
            · rintro (h | h)
              · exact h
              · simp only [Prod.mk.injEq] at h; omega
        · rename_i hz
          rw [h]
          congr 1
          apply if_congr _ rfl rfl
          constructor
          · exact Or.inl
          · rintro (h | h)
            · exact h
            · subst h; simp at hz; omega
  refine ⟨_, key zeros (List.replicate steps 1) False (by simp) (by simp [hc]), by simp⟩

theorem tableOk (steps : Nat) (zeros : List (Int × Bool)) :
    TableOk (if zeros = [] then none else some (notZeroTable R steps zeros)) steps
      (fun c => decide ((if ((c : Int), true) ∈ zeros then (0 : R) else 1) = 0) && !zeros.isEmpty) := by
  by_cases h : zeros = []
  · subst h; intro c _; simp
  · rw [if_neg h]
    intro c hc
    obtain ⟨x, hx, e⟩ := notZeroTable_get (R := R) steps zeros c hc
    refine ⟨x, hx, ?_⟩
    have : zeros.isEmpty = false := by cases zeros <;> simp_all
    simp [this, e]

end Heir.Kernel
