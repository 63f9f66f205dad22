import Verif.Codegen.Lemmas
import Mathlib.Data.List.Nodup

/-!
# What the loops compute
-/

namespace Heir.Codegen

variable {α : Type} {f : List Int → List α → List α}

mutual

/-- The order in which the loops that are built call the body. -/
def walk (rev : Bool) : Node → (Nat → Option Int) → Option (List (List Int))
  | .loop x init le ub step body, env =>
    match evalInt env init, evalInt env ub, evalInt env step with
    | some lb, some u, some s =>
      match fit (if le then u + 1 else u) with
      | some u' =>
        if 0 < s ∧ u' - lb ≤ 2 ^ 31 then
          concat ((if rev then (steps lb u' s).reverse else steps lb u' s).map fun i =>
            walk rev body fun y => if y = x then some i else env y)
        else none
      | none => none
    | _, _, _ => none
  | .ifThen c t, env =>
    match eval env c with
    | some (.bool true) => walk rev t env
    | some (.bool false) => some []
    | _ => none
  | .ifElse c t e, env =>
    match eval env c with
    | some (.bool true) => walk rev t env
    | some (.bool false) => walk rev e env
    | _ => none
  | .block ns, env => walks rev ns env
  | .user args, env =>
    match evals env args with
    | some vs => (ints vs).map fun is => [is]
    | none => none

def walks (rev : Bool) : List Node → (Nat → Option Int) → Option (List (List Int))
  | [], _ => some []
  | x :: ns, env =>
    match walk rev x env, walks rev ns env with
    | some a, some b => some (a ++ b)
    | _, _ => none

end

mutual

theorem walk_false : ∀ (node : Node) (env : Nat → Option Int), walk false node env = trace node env
  | .loop x init le ub step body, env => by
    simp only [walk, trace, walk_false body]
    rfl
  | .ifThen c t, env => by simp only [walk, trace, walk_false t]; rfl
  | .ifElse c t e, env => by simp only [walk, trace, walk_false t, walk_false e]; rfl
  | .block ns, env => by simp only [walk, trace, walks_false ns]
  | .user args, env => by simp only [walk, trace]; rfl

theorem walks_false : ∀ (ns : List Node) (env : Nat → Option Int), walks false ns env = traces ns env
  | [], _ => rfl
  | x :: ns, env => by simp only [walks, traces, walk_false x, walks_false ns]; rfl

end

theorem concat_append {β : Type} (a b : List (Option (List β))) :
    concat (a ++ b) = (concat a).bind fun x => (concat b).map (x ++ ·) := by
  induction a with
  | nil => simp [concat]
  | cons x a ih =>
    cases x with
    | none => simp [concat]
    | some xs =>
      simp only [List.cons_append, concat, ih]
      cases concat a <;> cases concat b <;> simp

theorem concat_reverse {β γ : Type} {g h : β → Option (List γ)} {is : List β} {ts : List γ}
    (hg : ∀ i ∈ is, ∀ t, g i = some t → h i = some t.reverse) (hc : concat (is.map g) = some ts) :
    concat (is.reverse.map h) = some ts.reverse := by
  induction is generalizing ts with
  | nil => simp [concat] at hc ⊢; simp [← hc]
  | cons i is ih =>
    simp only [List.map_cons] at hc
    cases hi : g i with
    | none => simp [hi, concat] at hc
    | some t =>
      simp only [hi, concat] at hc
      obtain ⟨u, hu, rfl⟩ := Option.map_eq_some_iff.mp hc
      rw [List.reverse_cons, List.map_append, concat_append,
        ih (fun j hj => hg j (by simp [hj])) hu]
      simp [concat, hg i (by simp) t hi]

theorem walk_true : ∀ (node : Node) (env : Nat → Option Int) (ts : List (List Int)), node.Perfect →
    trace node env = some ts → walk true node env = some ts.reverse
  | .loop x init le ub step body, env, ts, hp, ht => by
    simp only [Node.Perfect] at hp
    simp only [trace] at ht
    simp only [walk]
    split at ht
    next lb u s h1 h2 h3 =>
      simp only [h1, h2, h3]
      split at ht
      next u' h4 =>
        simp only [h4]
        split_ifs at ht with hs
        simp only [hs, and_self, if_true]
        exact concat_reverse (fun i _ t => walk_true body _ t hp) ht
      next => simp at ht
    next => simp at ht
  | .ifThen c t, env, ts, hp, ht => by
    simp only [Node.Perfect] at hp
    simp only [trace] at ht
    simp only [walk]
    split at ht
    next h => simp only [h]; exact walk_true t env ts hp ht
    next h => simp only [Option.some.injEq] at ht; subst ht; simp [h]
    next => simp at ht
  | .ifElse c t e, env, ts, hp, ht => by
    simp only [Node.Perfect] at hp
    simp only [trace] at ht
    simp only [walk]
    split at ht
    next h => simp only [h]; exact walk_true t env ts hp.1 ht
    next h => simp only [h]; exact walk_true e env ts hp.2 ht
    next => simp at ht
  | .block ns, env, ts, hp, ht => by simp [Node.Perfect] at hp
  | .user args, env, ts, hp, ht => by
    simp only [trace] at ht
    simp only [walk]
    split at ht
    next vs h =>
      obtain ⟨is, h1, rfl⟩ := Option.map_eq_some_iff.mp ht
      simp [h, h1]
    next => simp at ht

theorem concat_perm {β γ : Type} {g h : β → Option (List γ)} {is : List β} {ts : List γ}
    (hg : ∀ i ∈ is, ∀ t, g i = some t → ∃ u, h i = some u ∧ u.Perm t) (hc : concat (is.map g) = some ts) :
    ∃ us, concat (is.reverse.map h) = some us ∧ us.Perm ts := by
  induction is generalizing ts with
  | nil => simp [concat] at hc ⊢; simp [← hc]
  | cons i is ih =>
    simp only [List.map_cons] at hc
    cases hi : g i with
    | none => simp [hi, concat] at hc
    | some t =>
      simp only [hi, concat] at hc
      obtain ⟨u, hu, rfl⟩ := Option.map_eq_some_iff.mp hc
      obtain ⟨us, h1, h2⟩ := ih (fun j hj => hg j (by simp [hj])) hu
      obtain ⟨v, h3, h4⟩ := hg i (by simp) t hi
      refine ⟨us ++ v, ?_, (h2.append h4).trans List.perm_append_comm⟩
      rw [List.reverse_cons, List.map_append, concat_append, h1]
      simp [concat, h3]

mutual

/-- In reverse the same points are visited. -/
theorem walk_perm : ∀ (node : Node) (env : Nat → Option Int) (ts : List (List Int)),
    trace node env = some ts → ∃ us, walk true node env = some us ∧ us.Perm ts
  | .loop x init le ub step body, env, ts, ht => by
    simp only [trace] at ht
    simp only [walk]
    split at ht
    next lb u s h1 h2 h3 =>
      simp only [h1, h2, h3]
      split at ht
      next u' h4 =>
        simp only [h4]
        split_ifs at ht with hs
        simp only [hs, and_self, if_true]
        exact concat_perm (fun i _ t => walk_perm body _ t) ht
      next => simp at ht
    next => simp at ht
  | .ifThen c t, env, ts, ht => by
    simp only [trace] at ht
    simp only [walk]
    split at ht
    next h => simp only [h]; exact walk_perm t env ts ht
    next h => simp only [Option.some.injEq] at ht; subst ht; simp [h]
    next => simp at ht
  | .ifElse c t e, env, ts, ht => by
    simp only [trace] at ht
    simp only [walk]
    split at ht
    next h => simp only [h]; exact walk_perm t env ts ht
    next h => simp only [h]; exact walk_perm e env ts ht
    next => simp at ht
  | .block ns, env, ts, ht => by
    simp only [trace] at ht
    simp only [walk]
    exact walks_perm ns env ts ht
  | .user args, env, ts, ht => by
    simp only [trace] at ht
    simp only [walk]
    split at ht
    next vs h =>
      obtain ⟨is, h1, rfl⟩ := Option.map_eq_some_iff.mp ht
      simp [h, h1]
    next => simp at ht

theorem walks_perm : ∀ (ns : List Node) (env : Nat → Option Int) (ts : List (List Int)),
    traces ns env = some ts → ∃ us, walks true ns env = some us ∧ us.Perm ts
  | [], _, ts, ht => by simp only [traces, Option.some.injEq] at ht; subst ht; exact ⟨[], rfl, .refl _⟩
  | x :: ns, env, ts, ht => by
    simp only [traces] at ht
    split at ht
    next a b h1 h2 =>
      obtain ⟨u, u1, u2⟩ := walk_perm x env a h1
      obtain ⟨v, v1, v2⟩ := walks_perm ns env b h2
      simp only [Option.some.injEq] at ht
      subst ht
      exact ⟨u ++ v, by simp only [walks, u1, v1], u2.append v2⟩
    next => simp at ht

end

/-! ## Variables of loops -/

theorem mem_steps {l u s i : Int} (hs : 0 < s) : i ∈ steps l u s → l ≤ i ∧ i < u := by
  unfold steps
  simp only [List.mem_map, List.mem_range]
  rintro ⟨k, hk, rfl⟩
  have h0 : (0 : Int) ≤ k * s := Int.mul_nonneg (by omega) hs.le
  refine ⟨by omega, ?_⟩
  have hk' : (k : Int) + 1 ≤ (u - l + s - 1) / s := by omega
  have := Int.mul_le_of_le_ediv hs hk'
  have : ((k : Int) + 1) * s = k * s + s := by ring
  omega

/-- The other end of the loop. -/
def flip (l u s i : Int) : Int := l + (u - 1 - l) / s * s - (i - l)

theorem steps_flip {l u s : Int} (hs : 0 < s) :
    (steps l u s).reverse = (steps l u s).map (flip l u s) := by
  unfold steps
  set n := ((u - l + s - 1) / s).toNat with hn
  have key : ∀ k, k < n → (((u - 1 - l) / s : Int)) = n - 1 := by
    intro k hk
    have h1 : (u - l + s - 1) / s = (u - 1 - l) / s + 1 := by
      rw [show u - l + s - 1 = (u - 1 - l) + s by ring, Int.add_ediv_of_dvd_right (dvd_refl s),
        Int.ediv_self hs.ne']
    omega
  apply List.ext_getElem
  · simp
  · intro j h1 h2
    simp only [List.length_reverse, List.length_map, List.length_range] at h1
    simp only [List.getElem_reverse, List.getElem_map, List.getElem_range, List.length_map,
      List.length_range, flip, key j h1]
    rw [show ((n - 1 - j : Nat) : Int) = n - 1 - j by omega]
    ring

theorem flip_mem {l u s i : Int} (hs : 0 < s) (hi : i ∈ steps l u s) : flip l u s i ∈ steps l u s := by
  have : flip l u s i ∈ (steps l u s).reverse := by
    rw [steps_flip hs]
    exact List.mem_map_of_mem hi
  simpa using this

theorem reverse_ok {σ : Env α} {lb ub step iv n : Nat} {l u s i : Int} (hl : σ lb = some (.int l))
    (hu : σ ub = some (.int u)) (hs : σ step = some (.int s)) (hi : σ iv = some (.int i))
    (b1 : lb < n) (b2 : ub < n) (b3 : step < n) (b4 : iv < n)
    (fl : Fits l) (fu : Fits u) (hs0 : 0 < s) (hr : u - l ≤ 2 ^ 31) (hm : i ∈ steps l u s) :
    ∃ τ, runs f (reverseOps lb ub step iv n) σ = some τ ∧ (∀ j < n, τ j = σ j) ∧
      τ (n + 7) = some (.int (flip l u s i)) := by
  obtain ⟨h1, h2⟩ := mem_steps hs0 hm
  obtain ⟨h3, h4⟩ := mem_steps hs0 (flip_mem hs0 hm)
  have hq : 0 ≤ (u - 1 - l) / s := Int.ediv_nonneg (by omega) hs0.le
  have hqs : (u - 1 - l) / s * s ≤ u - 1 - l := Int.ediv_mul_le _ hs0.ne'
  have hqn : 0 ≤ (u - 1 - l) / s * s := Int.mul_nonneg hq hs0.le
  unfold Fits at fl fu
  have w0 : wrap 1 = 1 := wrap_fits (by unfold Fits; omega)
  have w1 : wrap (u - 1) = u - 1 := wrap_fits (by unfold Fits; omega)
  have w2 : wrap (u - 1 - l) = u - 1 - l := wrap_fits (by unfold Fits; omega)
  have w4 : wrap ((u - 1 - l) / s * s) = (u - 1 - l) / s * s := wrap_fits (by unfold Fits; omega)
  have w5 : wrap (l + (u - 1 - l) / s * s) = l + (u - 1 - l) / s * s :=
    wrap_fits (by unfold Fits; omega)
  have w6 : wrap (i - l) = i - l := wrap_fits (by unfold Fits; omega)
  have w7 : wrap (l + (u - 1 - l) / s * s - (i - l)) = flip l u s i :=
    wrap_fits (by unfold flip at h3 h4; unfold Fits; omega)
  have wd : (if s = 0 ∨ u - 1 - l = -2 ^ 31 ∧ s = -1 then none else some ((u - 1 - l).fdiv s)) =
      some ((u - 1 - l) / s) := by
    rw [if_neg (by omega), Int.fdiv_eq_ediv_of_nonneg _ hs0.le]
  let t0 := set σ n (.int 1)
  let t1 := set t0 (n + 1) (.int (u - 1))
  let t2 := set t1 (n + 2) (.int (u - 1 - l))
  let t3 := set t2 (n + 3) (.int ((u - 1 - l) / s))
  let t4 := set t3 (n + 4) (.int ((u - 1 - l) / s * s))
  let t5 := set t4 (n + 5) (.int (l + (u - 1 - l) / s * s))
  let t6 := set t5 (n + 6) (.int (i - l))
  let t7 := set t6 (n + 7) (.int (flip l u s i))
  have e0 : run f (.const n 1) σ = some t0 := by simp [run, w0, t0]
  have e1 : run f (.bin (n + 1) .subi ub n) t0 = some t1 := by
    have : t0 ub = some (.int u) := by simp only [t0]; rw [set_ne _ _ (by omega)]; exact hu
    simp [run, this, t0, set_same, abin2, abinSem, w1, t1]
  have e2 : run f (.bin (n + 2) .subi (n + 1) lb) t1 = some t2 := by
    have : t1 lb = some (.int l) := by simp only [t1, t0]; rw [set_ne _ _ (by omega), set_ne _ _ (by omega)]; exact hl
    simp [run, this, abin2, abinSem, w2, t2, t1, set_same]
  have e3 : run f (.bin (n + 3) .floordivsi (n + 2) step) t2 = some t3 := by
    have h1 : t2 step = some (.int s) := by simp only [t2, t1, t0]; rw [set_ne _ _ (by omega), set_ne _ _ (by omega), set_ne _ _ (by omega)]; exact hs
    have h2 : t2 (n + 2) = some (.int (u - 1 - l)) := by simp [t2, set_same]
    simp only [run, h1, h2, Option.bind_some, abin2, abinSem, wd, Option.map_some, t3]
  have e4 : run f (.bin (n + 4) .muli (n + 3) step) t3 = some t4 := by
    have h1 : t3 step = some (.int s) := by simp only [t3, t2, t1, t0]; rw [set_ne _ _ (by omega), set_ne _ _ (by omega), set_ne _ _ (by omega), set_ne _ _ (by omega)]; exact hs
    have h2 : t3 (n + 3) = some (.int ((u - 1 - l) / s)) := by simp [t3, set_same]
    simp only [run, h1, h2, Option.bind_some, abin2, abinSem, w4, Option.map_some, t4]
  have e5 : run f (.bin (n + 5) .addi lb (n + 4)) t4 = some t5 := by
    have h1 : t4 lb = some (.int l) := by simp only [t4, t3, t2, t1, t0]; rw [set_ne _ _ (by omega), set_ne _ _ (by omega), set_ne _ _ (by omega), set_ne _ _ (by omega), set_ne _ _ (by omega)]; exact hl
    have h2 : t4 (n + 4) = some (.int ((u - 1 - l) / s * s)) := by simp [t4, set_same]
    simp only [run, h1, h2, Option.bind_some, abin2, abinSem, w5, Option.map_some, t5]
  have e6 : run f (.bin (n + 6) .subi iv lb) t5 = some t6 := by
    have h1 : t5 lb = some (.int l) := by simp only [t5, t4, t3, t2, t1, t0]; rw [set_ne _ _ (by omega), set_ne _ _ (by omega), set_ne _ _ (by omega), set_ne _ _ (by omega), set_ne _ _ (by omega), set_ne _ _ (by omega)]; exact hl
    have h2 : t5 iv = some (.int i) := by simp only [t5, t4, t3, t2, t1, t0]; rw [set_ne _ _ (by omega), set_ne _ _ (by omega), set_ne _ _ (by omega), set_ne _ _ (by omega), set_ne _ _ (by omega), set_ne _ _ (by omega)]; exact hi
    simp only [run, h1, h2, Option.bind_some, abin2, abinSem, w6, Option.map_some, t6]
  have e7 : run f (.bin (n + 7) .subi (n + 5) (n + 6)) t6 = some t7 := by
    have h1 : t6 (n + 5) = some (.int (l + (u - 1 - l) / s * s)) := by simp [t6, t5, set]
    have h2 : t6 (n + 6) = some (.int (i - l)) := by simp [t6, set_same]
    simp only [run, h1, h2, Option.bind_some, abin2, abinSem, w7, Option.map_some, t7]
  refine ⟨t7, ?_, ?_, ?_⟩
  · simp only [reverseOps, runs, e0, e1, e2, e3, e4, e5, e6, e7, Option.bind_some]
  · intro j hj
    simp only [t7, t6, t5, t4, t3, t2, t1, t0, set]
    simp [show j ≠ n by omega, show j ≠ n + 1 by omega, show j ≠ n + 2 by omega,
      show j ≠ n + 3 by omega, show j ≠ n + 4 by omega, show j ≠ n + 5 by omega,
      show j ≠ n + 6 by omega, show j ≠ n + 7 by omega]
  · simp [t7, set_same]

/-! ## Bounds -/

theorem evalInt_some {env : Nat → Option Int} {e : Expr} {n : Int} (h : evalInt env e = some n) :
    eval env e = some (.int n) := by
  unfold evalInt at h
  split at h
  next m hm => simp only [Option.some.injEq] at h; rw [hm, h]
  next => simp at h

theorem genBounds_ok {iv : Nat → Option Nat} {sc : List Nat} {init ub step : Expr} {le : Bool} {n : Nat}
    (hb : Bound iv sc n) (h1 : tyOf sc init = some false) (h2 : tyOf sc ub = some false)
    (h3 : tyOf sc step = some false) :
    ∃ ops lb u s n', genBounds iv init le ub step n = some (ops, lb, u, s, n') ∧ n ≤ n' ∧ lb < n' ∧
      u < n' ∧ s < n' ∧
      ∀ (σ : Env α) env l u0 u1 s0, Scope iv sc n env σ → evalInt env init = some l →
        evalInt env ub = some u0 → fit (if le then u0 + 1 else u0) = some u1 →
        evalInt env step = some s0 →
        ∃ τ, runs f ops σ = some τ ∧ (∀ i < n, τ i = σ i) ∧ τ lb = some (.int l) ∧
          τ u = some (.int u1) ∧ τ s = some (.int s0) ∧ Fits l ∧ Fits u1 := by
  obtain ⟨⟨o1, a1, n1⟩, g1, -, g2, g3, g4⟩ := genE_ok (f := f) init n false hb h1
  obtain ⟨⟨o2, a2, n2⟩, k1, -, k2, k3, k4⟩ := genE_ok (f := f) ub n1 false (hb.mono g2) h2
  simp only at g2 g3 g4 k2 k3 k4
  cases le with
  | true =>
    obtain ⟨⟨o4, a4, n4⟩, m1, -, m2, m3, m4⟩ := genE_ok (f := f) step (n2 + 2) false
      (hb.mono (by omega)) h3
    simp only at m2 m3 m4
    refine ⟨o1 ++ (o2 ++ ([Op.const n2 1, .bin (n2 + 1) .addi a2.1 n2] ++ o4)), a1.1, n2 + 1, a4.1, n4,
      by simp [genBounds, g1, k1, m1], by omega,
      by omega, by omega, m3, ?_⟩
    intro σ env l u0 u1 s0 hs e1 e2 e3 e4
    simp only [if_true] at e3
    obtain ⟨hf, rfl⟩ := fit_iff.mp e3
    obtain ⟨τ, t1, t2, t3, _, t5⟩ := g4 σ _ ⟨env, hs, evalInt_some e1⟩
    have hs1 := hs.congr g2 t2
    obtain ⟨ρ, r1, r2, r3, _, r5⟩ := k4 τ _ ⟨env, hs1, evalInt_some e2⟩
    have hs2 := hs1.congr k2 r2
    let ρ1 := set ρ n2 (.int 1)
    let ρ2 := set ρ1 (n2 + 1) (.int (u0 + 1))
    have w0 : wrap 1 = 1 := wrap_fits (by unfold Fits; omega)
    have hr : runs f [Op.const n2 1, .bin (n2 + 1) .addi a2.1 n2] ρ = some ρ2 := by
      have e : ρ1 a2.1 = some (.int u0) := by
        simp only [ρ1]; rw [set_ne _ _ (by omega)]; exact r3
      have e' : ρ1 n2 = some (.int 1) := set_same _ _ _
      have : run f (.const n2 1) ρ = some ρ1 := by simp [run, w0, ρ1]
      have h2 : run f (.bin (n2 + 1) .addi a2.1 n2) ρ1 = some ρ2 := by
        simp only [run, e, e', Option.bind_some, abin2, abinSem, wrap_fits hf, Option.map_some, ρ2]
      simp [runs, this, h2]
    have hρ : ∀ i < n2, ρ2 i = ρ i := by
      intro i hi
      simp only [ρ2, ρ1]
      rw [set_ne _ _ (by omega), set_ne _ _ (by omega)]
    have hs3 := hs2.congr (m := n2 + 2) (by omega) (fun i hi => hρ i (by omega))
    obtain ⟨μ, u1, u2, u3, _, u5⟩ := m4 ρ2 _ ⟨env, hs3, evalInt_some e4⟩
    refine ⟨μ, by simp only [runs_append, t1, r1, hr, u1, Option.bind_some], ?_, ?_, ?_, u3, t5, hf⟩
    · intro i hi
      rw [u2 i (by omega), hρ i (by omega), r2 i (by omega), t2 i hi]
    · rw [u2 _ (by omega), hρ _ (by omega), r2 _ (by omega), t3]; rfl
    · rw [u2 _ (by omega)]; exact set_same _ _ _
  | false =>
    obtain ⟨⟨o4, a4, n4⟩, m1, -, m2, m3, m4⟩ := genE_ok (f := f) step n2 false
      (hb.mono (by omega)) h3
    simp only at m2 m3 m4
    refine ⟨o1 ++ (o2 ++ ([] ++ o4)), a1.1, a2.1, a4.1, n4, by simp [genBounds, g1, k1, m1], by omega,
      by omega, by omega, m3, ?_⟩
    intro σ env l u0 u1 s0 hs e1 e2 e3 e4
    simp only [Bool.false_eq_true, if_false] at e3
    obtain ⟨hf, rfl⟩ := fit_iff.mp e3
    obtain ⟨τ, t1, t2, t3, _, t5⟩ := g4 σ _ ⟨env, hs, evalInt_some e1⟩
    have hs1 := hs.congr g2 t2
    obtain ⟨ρ, r1, r2, r3, _, r5⟩ := k4 τ _ ⟨env, hs1, evalInt_some e2⟩
    have hs2 := hs1.congr k2 r2
    obtain ⟨μ, u1, u2, u3, _, u5⟩ := m4 ρ _ ⟨env, hs2, evalInt_some e4⟩
    refine ⟨μ, by simp only [runs_append, t1, r1, u1, Option.bind_some, runs], ?_, ?_, ?_, u3, t5, hf⟩
    · intro i hi
      rw [u2 i (by omega), r2 i (by omega), t2 i hi]
    · rw [u2 _ (by omega), r2 _ (by omega), t3]; rfl
    · rw [u2 _ (by omega), r3]; rfl

/-! ## Carried values -/

/-- The body, called once for each of the arguments. -/
def calls (f : List Int → List α → List α) (xs : List α) (ts : List (List Int)) : List α :=
  ts.foldl (fun a is => f is a) xs

def dat (xs : List α) : List (MV α) := xs.map .data

theorem calls_len (hf : ∀ is xs, (f is xs).length = xs.length) (xs : List α) (ts : List (List Int)) :
    (calls f xs ts).length = xs.length := by
  induction ts generalizing xs with
  | nil => rfl
  | cons t ts ih => exact (ih (f t xs)).trans (hf t xs)

theorem datas_dat (xs : List α) : datas (dat xs) = some xs := by
  induction xs with
  | nil => rfl
  | cons x xs ih => simp only [dat, List.map_cons, datas] at ih ⊢; rw [ih]; rfl

theorem carry_ok {F : Int → List (MV α) → Option (List (MV α))} {g : Int → Option (List (List Int))}
    {is : List Int} {ts : List (List Int)} {xs : List α} {k : Nat}
    (hf : ∀ is xs, (f is xs).length = xs.length) (hk : xs.length = k)
    (h : ∀ i ∈ is, ∀ xs t, xs.length = k → g i = some t → F i (dat xs) = some (dat (calls f xs t)))
    (hc : concat (is.map g) = some ts) : carry F is (dat xs) = some (dat (calls f xs ts)) := by
  induction is generalizing xs ts with
  | nil => simp only [List.map_nil, concat, Option.some.injEq] at hc; subst hc; rfl
  | cons i is ih =>
    simp only [List.map_cons] at hc
    cases hi : g i with
    | none => simp [hi, concat] at hc
    | some t =>
      simp only [hi, concat] at hc
      obtain ⟨u, hu, rfl⟩ := Option.map_eq_some_iff.mp hc
      simp only [carry, h i (by simp) xs t hk hi, Option.bind_some]
      rw [ih (by rw [calls_len hf, hk]) (fun j hj => h j (by simp [hj])) hu]
      simp [calls, List.foldl_append]

/-! ## Nodes -/

/-- What is known of the operations for a node. -/
structure Built (f : List Int → List α → List α) (rev : Bool) (sc : List Nat) (st : St)
    (W : (Nat → Option Int) → Option (List (List Int))) (p : List Op × List Nat × St) : Prop where
  next : st.next ≤ p.2.2.next
  iv : p.2.2.iv = st.iv
  len : p.2.1.length = st.iters.length
  lt : ∀ r ∈ p.2.1, r < p.2.2.next
  loops : ∃ l, p.2.2.loops = st.loops ++ l
  sem : ∀ (σ : Env α) env xs ts, Scope st.iv sc st.next env σ → gets σ st.iters = some (dat xs) →
    W env = some ts → ∃ τ, runs f p.1 σ = some τ ∧ (∀ i < st.next, τ i = σ i) ∧
      gets τ p.2.1 = some (dat (calls f xs ts))

theorem ints_nums {σ : Env α} {as : List Arg} {vs : List V} {is : List Int} (h : Holds σ as vs)
    (hi : ints vs = some is) : (gets σ (as.map Prod.fst)).bind nums = some is := by
  induction as generalizing vs is with
  | nil =>
    cases vs with
    | nil => simpa [gets, nums, ints] using hi
    | cons => simp [Holds] at h
  | cons a as ih =>
    match vs, h, hi with
    | [], h, _ => simp [Holds] at h
    | .bool _ :: vs, _, hi => simp [ints] at hi
    | .int n :: vs, h, hi =>
      simp only [Holds, V.mv] at h
      simp only [ints] at hi
      obtain ⟨js, hj, rfl⟩ := Option.map_eq_some_iff.mp hi
      obtain ⟨ws, h1, h2⟩ := Option.bind_eq_some_iff.mp (ih h.2.2 hj)
      simp [gets, h.1.1, h1, nums, h2]

theorem dat_len (xs : List α) : (dat xs).length = xs.length := by simp [dat]

mutual

theorem gen_ok (rev : Bool) (hf : ∀ is xs, (f is xs).length = xs.length) : ∀ (node : Node) (st : St)
    (sc : List Nat), node.Served sc → Bound st.iv sc st.next → (∀ x, x ∉ sc → st.iv x = none) →
    st.iters ≠ [] → (∀ r ∈ st.iters, r < st.next) →
    ∃ p, gen rev node st = some p ∧ Built f rev sc st (walk rev node) p ∧
      (node.isLoop = true → ∃ l, p.2.2.loops = st.loops ++ p.2.1 :: l)
  | .loop x init le ub step body, st, sc, hw, hb, hn, hi, hl => by
    simp only [Node.Served] at hw
    obtain ⟨hx, w1, w2, w3, w4⟩ := hw
    obtain ⟨ops, lb, u, s, n, g1, g2, g3, g4, g5, g6⟩ := genBounds_ok (f := f) (le := le) hb w1 w2 w3
    have hxn : st.iv x = none := hn x hx
    obtain ⟨ro, v, n2, hro⟩ : ∃ ro v n2, (if rev = true then
        (reverseOps lb u s (n + st.iters.length) (n + st.iters.length + 1 + st.iters.length),
          n + st.iters.length + 1 + st.iters.length + 7, n + st.iters.length + 1 + st.iters.length + 8)
        else ([], n + st.iters.length, n + st.iters.length + 1 + st.iters.length)) = (ro, v, n2) :=
      ⟨_, _, _, rfl⟩
    have hvn : n ≤ v ∧ v < n2 ∧ n + st.iters.length + 1 + st.iters.length ≤ n2 := by
      cases rev <;> simp at hro <;> omega
    have hins : ∀ y, insert st.iv x v y = if y = x then some v else st.iv y := by
      intro y; simp [insert, hxn]
    obtain ⟨⟨ob, ys, st'⟩, b1, ⟨b2, b3, b4, b5, b6, b7⟩, -⟩ := gen_ok rev hf body
      ⟨n2, insert st.iv x v, fresh (n + st.iters.length + 1) st.iters.length,
        st.loops ++ [fresh n st.iters.length]⟩ (x :: sc) w4
      (by
        intro y hy
        simp only [hins]
        by_cases h : y = x
        · exact ⟨v, by simp [h], hvn.2.1⟩
        · obtain ⟨r, h1, h2⟩ := hb y (by simpa [h] using hy)
          exact ⟨r, by simp [h, h1], by omega⟩)
      (by
        intro y hy
        simp only [List.mem_cons, not_or] at hy
        simp only [hins, hy.1, if_false]
        exact hn y hy.2)
      (by
        intro h
        have := congrArg List.length h
        simp only [fresh_len, List.length_nil] at this
        exact hi (List.length_eq_zero_iff.mp this))
      (by intro r hr; have := mem_fresh.mp hr; simp only; omega)
    simp only at b1 b2 b3 b4 b5 b6 b7
    have hie : st.iters.isEmpty = false := by cases h : st.iters <;> simp_all
    refine ⟨_, by simp only [gen, g1, hie, Bool.false_eq_true, if_false, hro, b1, Option.map_some]; rfl,
      ⟨?_, ?_, ?_, ?_, ?_, ?_⟩, ?_⟩
    · simp only; omega
    · simp only [b3]
      funext y
      simp only [restore, hins]
      split_ifs with h
      · rw [h]
      · rfl
    · simp [fresh_len]
    · intro r hr
      have := mem_fresh.mp hr
      simp only; omega
    · obtain ⟨l, hl⟩ := b6
      exact ⟨[fresh n st.iters.length] ++ l, by simp [hl]⟩
    · intro σ env xs ts hs hx0 hwk
      simp only [walk] at hwk
      split at hwk
      next l u0 s0 e1 e2 e3 =>
        split at hwk
        next u1 e4 =>
          have hs1 : 0 < s0 ∧ u1 - l ≤ 2 ^ 31 := by
            by_contra h
            rw [if_neg h] at hwk
            simp at hwk
          rw [if_pos hs1] at hwk
          obtain ⟨hs0, hr⟩ := hs1
          obtain ⟨τ, t1, t2, t3, t4, t5, fl, fu⟩ := g6 σ env l u0 u1 s0 hs e1 e2 e4 e3
          have hxs : xs.length = st.iters.length := by have := gets_len hx0; rw [dat_len] at this; exact this
          have hτx : gets τ st.iters = some (dat xs) := by
            rw [gets_congr (fun r hr => t2 r (hl r hr)), hx0]
          have hwk' : concat ((steps l u1 s0).map fun i => walk rev body fun y =>
              if y = x then some (if rev then flip l u1 s0 i else i) else env y) = some ts := by
            rw [← hwk]
            cases rev with
            | true =>
              simp only [if_true]
              rw [steps_flip hs0, List.map_map]
              rfl
            | false => rfl
          have hcarry := carry_ok (f := f) (k := st.iters.length)
            (F := fun i vs => (sets (set τ (n + st.iters.length) (.int i))
              (fresh (n + st.iters.length + 1) st.iters.length) vs).bind fun σ' =>
              (runs f (ro ++ ob) σ').bind fun σ'' => gets σ'' ys) hf hxs
            (by
              intro i him zs t hzs ht
              obtain ⟨σ1, p1, p2, p3⟩ := sets_ok (set τ (n + st.iters.length) (.int i))
                (rs := fresh (n + st.iters.length + 1) st.iters.length) (vs := dat zs)
                (by rw [fresh_len, dat_len, hzs]) (fresh_nodup _ _)
              have p4 : ∀ j, j < n → σ1 j = τ j := by
                intro j hj
                rw [p3 j (by rw [mem_fresh]; omega), set_ne _ _ (by omega)]
              have p5 : σ1 (n + st.iters.length) = some (.int i) := by
                rw [p3 _ (by rw [mem_fresh]; omega), set_same]
              obtain ⟨σ2, q1, q2, q3⟩ : ∃ σ2, runs f ro σ1 = some σ2 ∧
                  (∀ j < n + st.iters.length + 1 + st.iters.length, σ2 j = σ1 j) ∧
                  σ2 v = some (.int (if rev then flip l u1 s0 i else i)) := by
                cases rev with
                | false =>
                  simp only [Bool.false_eq_true, if_false, Prod.mk.injEq] at hro
                  obtain ⟨rfl, rfl, rfl⟩ := hro
                  exact ⟨σ1, rfl, fun _ _ => rfl, p5⟩
                | true =>
                  simp only [if_true, Prod.mk.injEq] at hro
                  obtain ⟨rfl, rfl, rfl⟩ := hro
                  exact reverse_ok (by rw [p4 _ g3]; exact t3) (by rw [p4 _ g4]; exact t4)
                    (by rw [p4 _ g5]; exact t5) p5 (by omega) (by omega) (by omega) (by omega)
                    fl fu hs0 hr him
              have hrange : Fits (if rev then flip l u1 s0 i else i) := by
                have : (if rev then flip l u1 s0 i else i) ∈ steps l u1 s0 := by
                  cases rev
                  · exact him
                  · exact flip_mem hs0 him
                have := mem_steps hs0 this
                unfold Fits at fl fu ⊢
                omega
              obtain ⟨σ3, r1, r2, r3⟩ := b7 σ2 (fun y => if y = x then
                  some (if rev then flip l u1 s0 i else i) else env y) zs t
                (by
                  intro y hy
                  simp only [hins]
                  by_cases h : y = x
                  · exact ⟨v, _, by simp [h], hvn.2.1, by simp [h], hrange, q3⟩
                  · obtain ⟨r, a, h1, h2, h3, h4, h5⟩ := hs y (by simpa [h] using hy)
                    refine ⟨r, a, by simp [h, h1], by omega, by simp [h, h3], h4, ?_⟩
                    rw [q2 r (by omega), p4 r (by omega), t2 r h2, h5])
                (by
                  rw [gets_congr (fun r hr => q2 r (by have := mem_fresh.mp hr; omega)), p2])
                ht
              simp only [p1, Option.bind_some, runs_append, q1, r1, r3])
            hwk'
          obtain ⟨ρ, s1, s2, s3⟩ := sets_ok τ (rs := fresh n st.iters.length)
            (vs := dat (calls f xs ts)) (by rw [fresh_len, dat_len, calls_len hf, hxs])
            (fresh_nodup _ _)
          refine ⟨ρ, ?_, ?_, s2⟩
          · rw [runs_append, t1]
            simp only [Option.bind_some, runs, run, t3, t4, t5, hτx, hs0, if_true]
            rw [hcarry]
            simp [s1]
          · intro i hi
            rw [s3 i (by rw [mem_fresh]; omega), t2 i hi]
        next => simp at hwk
      next => simp at hwk
    · intro _
      obtain ⟨l, hl⟩ := b6
      exact ⟨l, by simp [hl]⟩
  | .ifThen c t, st, sc, hw, hb, hn, hi, hl => by
    simp only [Node.Served] at hw
    obtain ⟨⟨ops, ⟨r, b⟩, n⟩, g1, g2, g3, g4, g5⟩ := genE_ok (f := f) c st.next true hb hw.1
    simp only at g2 g3 g4 g5
    subst g2
    obtain ⟨⟨ot, ys, st'⟩, b1, ⟨b2, b3, b4, b5, b6, b7⟩, -⟩ := gen_ok rev hf t
      { st with next := n + st.iters.length } sc hw.2 (hb.mono (by simp only; omega)) hn hi
      (fun r hr => by have := hl r hr; simp only; omega)
    simp only at b2 b3 b4 b5 b6 b7
    have hye : ys.isEmpty = false := by
      cases ys with
      | nil => simp at b4; exact absurd b4.symm (by simpa using hi)
      | cons => rfl
    refine ⟨_, by simp only [gen, g1, b1, Option.map_some, hye, Bool.false_eq_true, if_false]; rfl,
      ⟨?_, b3, by simp [fresh_len], ?_, b6, ?_⟩, by simp [Node.isLoop]⟩
    · simp only; omega
    · intro r hr
      have := mem_fresh.mp hr
      simp only; omega
    · intro σ env xs ts hs hx0 hwk
      have hxs : xs.length = st.iters.length := by have := gets_len hx0; rw [dat_len] at this; exact this
      simp only [walk] at hwk
      split at hwk
      next e1 =>
        obtain ⟨τ, t1, t2, t3, _⟩ := g5 σ _ ⟨env, hs, e1⟩
        have hτx : gets τ st.iters = some (dat xs) := by
          rw [gets_congr (fun r hr => t2 r (hl r hr)), hx0]
        obtain ⟨σ3, r1, r2, r3⟩ := b7 τ env xs ts (hs.congr (by omega) t2) hτx hwk
        obtain ⟨ρ, s1, s2, s3⟩ := sets_ok τ (rs := fresh n st.iters.length)
          (vs := dat (calls f xs ts)) (by rw [fresh_len, dat_len, calls_len hf, hxs])
          (fresh_nodup _ _)
        refine ⟨ρ, ?_, ?_, s2⟩
        · simp only [V.mv] at t3
          simp only [runs_append, t1, Option.bind_some, runs, run, t3, r1, r3, s1]
        · intro i hi
          rw [s3 i (by rw [mem_fresh]; omega), t2 i hi]
      next e1 =>
        simp only [Option.some.injEq] at hwk
        subst hwk
        obtain ⟨τ, t1, t2, t3, _⟩ := g5 σ _ ⟨env, hs, e1⟩
        have hτx : gets τ st.iters = some (dat xs) := by
          rw [gets_congr (fun r hr => t2 r (hl r hr)), hx0]
        obtain ⟨ρ, s1, s2, s3⟩ := sets_ok τ (rs := fresh n st.iters.length)
          (vs := dat xs) (by rw [fresh_len, dat_len, hxs])
          (fresh_nodup _ _)
        refine ⟨ρ, ?_, ?_, s2⟩
        · simp only [V.mv] at t3
          simp only [runs_append, t1, Option.bind_some, runs, run, t3, hτx, s1]
        · intro i hi
          rw [s3 i (by rw [mem_fresh]; omega), t2 i hi]
      next => simp at hwk
  | .ifElse c t e, st, sc, hw, hb, hn, hi, hl => by
    simp only [Node.Served] at hw
    obtain ⟨⟨ops, ⟨r, b⟩, n⟩, g1, g2, g3, g4, g5⟩ := genE_ok (f := f) c st.next true hb hw.1
    simp only at g2 g3 g4 g5
    subst g2
    obtain ⟨⟨ot, ys, st1⟩, b1, ⟨b2, b3, b4, b5, b6, b7⟩, -⟩ := gen_ok rev hf t
      { st with next := n + st.iters.length } sc hw.2.1 (hb.mono (by simp only; omega)) hn hi
      (fun r hr => by have := hl r hr; simp only; omega)
    simp only at b2 b3 b4 b5 b6 b7
    obtain ⟨⟨oe, ys', st2⟩, c1, ⟨c2, c3, c4, c5, c6, c7⟩, -⟩ := gen_ok rev hf e
      { st1 with iters := st.iters } sc hw.2.2 (by simp only [b3]; exact hb.mono (by omega))
      (by simp only [b3]; exact hn) hi
      (fun r hr => by have := hl r hr; simp only; omega)
    simp only at c2 c3 c4 c5 c6 c7
    refine ⟨_, by simp only [gen, g1, b1, c1, b4, c4, if_true]; rfl,
      ⟨?_, by simp only; rw [c3, b3], by simp [fresh_len], ?_, ?_, ?_⟩, by simp [Node.isLoop]⟩
    · simp only; omega
    · intro r hr
      have := mem_fresh.mp hr
      simp only; omega
    · obtain ⟨l, hl⟩ := b6
      obtain ⟨l', hl'⟩ := c6
      exact ⟨l ++ l', by simp [hl', hl]⟩
    · intro σ env xs ts hs hx0 hwk
      have hxs : xs.length = st.iters.length := by have := gets_len hx0; rw [dat_len] at this; exact this
      simp only [walk] at hwk
      split at hwk
      next e1 =>
        obtain ⟨τ, t1, t2, t3, _⟩ := g5 σ _ ⟨env, hs, e1⟩
        have hτx : gets τ st.iters = some (dat xs) := by
          rw [gets_congr (fun r hr => t2 r (hl r hr)), hx0]
        obtain ⟨σ3, r1, r2, r3⟩ := b7 τ env xs ts (hs.congr (by omega) t2) hτx hwk
        obtain ⟨ρ, s1, s2, s3⟩ := sets_ok τ (rs := fresh n st.iters.length)
          (vs := dat (calls f xs ts)) (by rw [fresh_len, dat_len, calls_len hf, hxs])
          (fresh_nodup _ _)
        refine ⟨ρ, ?_, ?_, s2⟩
        · simp only [V.mv] at t3
          simp only [runs_append, t1, Option.bind_some, runs, run, t3, r1, r3, s1]
        · intro i hi
          rw [s3 i (by rw [mem_fresh]; omega), t2 i hi]
      next e1 =>
        obtain ⟨τ, t1, t2, t3, _⟩ := g5 σ _ ⟨env, hs, e1⟩
        have hτx : gets τ st.iters = some (dat xs) := by
          rw [gets_congr (fun r hr => t2 r (hl r hr)), hx0]
        obtain ⟨σ3, r1, r2, r3⟩ := c7 τ env xs ts (by rw [b3]; exact hs.congr (by omega) t2) hτx hwk
        obtain ⟨ρ, s1, s2, s3⟩ := sets_ok τ (rs := fresh n st.iters.length)
          (vs := dat (calls f xs ts)) (by rw [fresh_len, dat_len, calls_len hf, hxs])
          (fresh_nodup _ _)
        refine ⟨ρ, ?_, ?_, s2⟩
        · simp only [V.mv] at t3
          simp only [runs_append, t1, Option.bind_some, runs, run, t3, r1, r3, s1]
        · intro i hi
          rw [s3 i (by rw [mem_fresh]; omega), t2 i hi]
      next => simp at hwk
  | .block ns, st, sc, hw, hb, hn, hi, hl => by
    simp only [Node.Served] at hw
    obtain ⟨p, h1, h2⟩ := genBlock_ok rev hf ns st sc hw hb hn hi hl
    refine ⟨p, by simp only [gen, h1], ?_, by simp [Node.isLoop]⟩
    obtain ⟨b2, b3, b4, b5, b6, b7⟩ := h2
    exact ⟨b2, b3, b4, b5, b6, fun σ env xs ts hs hx hwk => b7 σ env xs ts hs hx (by
      simpa only [walk] using hwk)⟩
  | .user args, st, sc, hw, hb, hn, hi, hl => by
    simp only [Node.Served] at hw
    obtain ⟨ts0, ht, -⟩ := hw
    obtain ⟨⟨ops, as, n⟩, g1, g2, g3, g4, g5⟩ := genEs_ok (f := f) args st.next ts0 hb ht
    simp only at g2 g3 g4 g5
    refine ⟨_, by simp only [gen, g1]; rfl, ⟨?_, rfl, by simp [fresh_len], ?_, ⟨[], by simp⟩, ?_⟩,
      by simp [Node.isLoop]⟩
    · simp only; omega
    · intro r hr
      have := mem_fresh.mp hr
      simp only; omega
    · intro σ env xs ts hs hx0 hwk
      have hxs : xs.length = st.iters.length := by have := gets_len hx0; rw [dat_len] at this; exact this
      simp only [walk] at hwk
      split at hwk
      next vs e1 =>
        obtain ⟨is, e2, rfl⟩ := Option.map_eq_some_iff.mp hwk
        obtain ⟨τ, t1, t2, t3⟩ := g5 σ env vs hs e1
        have hτx : gets τ st.iters = some (dat xs) := by
          rw [gets_congr (fun r hr => t2 r (hl r hr)), hx0]
        obtain ⟨ρ, s1, s2, s3⟩ := sets_ok τ (rs := fresh n st.iters.length)
          (vs := dat (f is xs)) (by rw [fresh_len, dat_len, hf, hxs])
          (fresh_nodup _ _)
        refine ⟨ρ, ?_, ?_, s2⟩
        · have := ints_nums t3 e2
          simp only [runs_append, t1, Option.bind_some, runs, run, this, hτx, datas_dat]
          simp only [dat] at s1
          simp [s1]
        · intro i hi
          rw [s3 i (by rw [mem_fresh]; omega), t2 i hi]
      next => simp at hwk

theorem genBlock_ok (rev : Bool) (hf : ∀ is xs, (f is xs).length = xs.length) : ∀ (ns : List Node)
    (st : St) (sc : List Nat), AllServed sc ns → Bound st.iv sc st.next → (∀ x, x ∉ sc → st.iv x = none) →
    st.iters ≠ [] → (∀ r ∈ st.iters, r < st.next) →
    ∃ p, genBlock rev ns st = some p ∧ Built f rev sc st (walks rev ns) p
  | [], st, sc, hw, hb, hn, hi, hl => by
    refine ⟨_, rfl, le_refl _, rfl, rfl, hl, ⟨[], by simp⟩, ?_⟩
    intro σ env xs ts hs hx0 hwk
    simp only [walks, Option.some.injEq] at hwk
    subst hwk
    exact ⟨σ, rfl, fun _ _ => rfl, hx0⟩
  | x :: ns, st, sc, hw, hb, hn, hi, hl => by
    simp only [AllServed] at hw
    obtain ⟨⟨ot, ys, st1⟩, b1, ⟨b2, b3, b4, b5, b6, b7⟩, -⟩ := gen_ok rev hf x st sc hw.1 hb hn hi hl
    simp only at b2 b3 b4 b5 b6 b7
    obtain ⟨⟨oe, ys', st2⟩, c1, ⟨c2, c3, c4, c5, c6, c7⟩⟩ := genBlock_ok rev hf ns
      { st1 with iters := ys } sc hw.2 (by simp only [b3]; exact hb.mono b2)
      (by simp only [b3]; exact hn)
      (by
        intro h
        simp only at h
        rw [h] at b4
        exact hi (List.length_eq_zero_iff.mp b4.symm))
      b5
    simp only at c2 c3 c4 c5 c6 c7
    refine ⟨_, by simp only [genBlock, b1, c1, Option.map_some]; rfl, ?_, by simp only; rw [c3, b3],
      by simp only; rw [c4, b4], c5, ?_, ?_⟩
    · simp only; omega
    · obtain ⟨l, hl⟩ := b6
      obtain ⟨l', hl'⟩ := c6
      exact ⟨l ++ l', by simp [hl', hl]⟩
    · intro σ env xs ts hs hx0 hwk
      simp only [walks] at hwk
      split at hwk
      next t1 t2 e1 e2 =>
        simp only [Option.some.injEq] at hwk
        subst hwk
        obtain ⟨τ, s1, s2, s3⟩ := b7 σ env xs t1 hs hx0 e1
        obtain ⟨ρ, r1, r2, r3⟩ := c7 τ env _ t2 (by rw [b3]; exact hs.congr b2 s2) s3 e2
        refine ⟨ρ, by simp only [runs_append, s1, r1, Option.bind_some], ?_, ?_⟩
        · intro i hi
          rw [r2 i (by omega), s2 i hi]
        · rw [r3]
          simp [calls, List.foldl_append]
      next => simp at hwk

end

end Heir.Codegen
