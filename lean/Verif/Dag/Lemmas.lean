import Verif.Dag.Spec
import Mathlib.Tactic.Linarith
import Mathlib.Tactic.Ring
import Mathlib.Algebra.Order.Ring.Int

/-! # Lemmas for the caching evaluator -/

namespace Heir.Dag

variable {V O : Type}

/-! ## Iteration values -/

theorem trips_go (s : Int) (hs : 0 < s) (u : Int) : ∀ (c k : Nat) (l : Int), u - l ≤ k →
    u ≤ l + c * s → (c = 0 ∨ l + ((c : Int) - 1) * s < u) →
    tripsUpTo k l u s = if c ≠ 0 ∧ 2 ^ 31 ≤ l + c * s then none
      else some ((List.range c).map fun (j : Nat) => l + (j : Int) * s) := by
  intro c
  induction c with
  | zero =>
    intro k l _ h _
    rw [tripsUpTo.eq_def]
    simp at h
    simp [h]
  | succ c ih =>
    intro k l hk h h'
    rcases h' with h' | h'
    · omega
    have hlu : l < u := by
      have : (0 : Int) ≤ c * s := by positivity
      push_cast at h'
      have e : (((c : Int) + 1) - 1) * s = c * s := by ring
      rw [e] at h'
      linarith
    obtain ⟨k, rfl⟩ : ∃ j, k = j + 1 := ⟨k - 1, by omega⟩
    rw [tripsUpTo]
    have e1 : ((c + 1 : Nat) : Int) * s = s + c * s := by push_cast; ring
    rw [e1] at h
    have hi := ih k (l + s) (by omega) (by linarith) (by
      rcases Nat.eq_zero_or_pos c with hc | hc
      · exact Or.inl hc
      · right
        have e : (((c + 1 : Nat) : Int) - 1) * s = s + (c - 1) * s := by push_cast; ring
        rw [e] at h'
        linarith)
    have hcs : (0 : Int) ≤ c * s := by positivity
    have e2 : l + s + (c : Int) * s = l + (s + c * s) := by ring
    rw [if_neg (by omega)]
    rw [hi, e1, e2]
    by_cases ho : (2 : Int) ^ 31 ≤ l + (s + c * s)
    · rw [if_pos (show c + 1 ≠ 0 ∧ _ from ⟨by omega, ho⟩)]
      by_cases ho1 : (2 : Int) ^ 31 ≤ l + s
      · rw [if_pos ho1]
      · rw [if_neg ho1, if_pos (show c ≠ 0 ∧ _ from ⟨by rintro rfl; simp at ho; omega, ho⟩)]; rfl
    · rw [if_neg (show ¬ (c + 1 ≠ 0 ∧ _) from fun h => ho h.2),
        if_neg (show ¬ (2 : Int) ^ 31 ≤ l + s from fun h => ho (by linarith)),
        if_neg (show ¬ (c ≠ 0 ∧ _) from fun h => ho h.2)]
      simp only [List.range_succ_eq_map, List.map_cons, List.map_map]
      refine congrArg some (List.cons_eq_cons.2 ⟨by simp, List.map_congr_left fun j _ => ?_⟩)
      simp only [Function.comp]
      push_cast
      ring

theorem trips_neg (s : Int) (hs : s ≤ 0) (u : Int) : ∀ (k : Nat) (l : Int), l < u →
    tripsUpTo k l u s = none := by
  intro k
  induction k with
  | zero => intro l h; rw [tripsUpTo]; simp [h]
  | succ k ih =>
    intro l h
    rw [tripsUpTo, if_neg (by omega)]
    rw [ih (l + s) (by omega)]
    split <;> rfl

theorem trips_eq (l u s : Int) : trips l u s = tripList l u s := by
  unfold tripList
  by_cases h : u ≤ l
  · rw [trips, tripsUpTo.eq_def]; simp [h]
  by_cases hs : s ≤ 0
  · rw [trips, trips_neg s hs u _ l (by omega)]; simp [h, hs]
  have hs' : 0 < s := by omega
  simp only [h, hs, if_false]
  set q := (u - l + s - 1) / s with hq
  have h1 : q * s ≤ u - l + s - 1 := Int.ediv_mul_le _ (by omega)
  have h2 : u - l + s - 1 < (q + 1) * s := Int.lt_ediv_add_one_mul_self _ hs'
  have hq0 : 0 < q := by
    by_contra hc
    nlinarith
  have hqn : ((q.toNat : Nat) : Int) = q := Int.toNat_of_nonneg hq0.le
  rw [trips, trips_go s hs' u q.toNat _ l (by omega) (by rw [hqn]; linarith) (Or.inr (by rw [hqn]; nlinarith)), hqn]
  have : q.toNat ≠ 0 := by omega
  simp [this]

/-! ## Congruence of the structural semantics -/

theorem scope_sub_clear {K : Kind O} {c : Nat} (h : c ∈ scopeChildren K) : c ∈ clearChildren K := by
  cases K <;> simp_all [scopeChildren, clearChildren]

theorem body_mem_clear (l : LoopNode) : l.body ∈ clearChildren (.loop l : Kind O) := by
  simp [clearChildren]

theorem allSome_congr {α β : Type} {f g : α → Option β} {cs : List α}
    (h : ∀ c ∈ cs, f c = g c) : allSome f cs = allSome g cs := by
  induction cs with
  | nil => rfl
  | cons c cs ih =>
    simp only [allSome]
    rw [h c (by simp), ih fun d hd => h d (by simp [hd])]

theorem setVar_same (env : Env V) (x : Nat) (v : V) : setVar env x v x = some v := by simp [setVar]

theorem setVar_other (env : Env V) {x y : Nat} (v : V) (h : y ≠ x) : setVar env x v y = env y := by
  simp [setVar, h]

theorem setVars_other (env : Env V) {xs : List Nat} {y : Nat} (vs : List V) (h : y ∉ xs) :
    setVars env xs vs y = env y := by
  induction xs generalizing env vs with
  | nil => simp [setVars]
  | cons x xs ih =>
    cases vs with
    | nil => simp [setVars]
    | cons v vs =>
      simp only [List.mem_cons, not_or] at h
      rw [setVars, ih _ _ h.2, setVar_other _ _ h.1]

theorem setVars_congr {env env' : Env V} {xs : List Nat} {vs : List V} {y : Nat}
    (hl : xs.length = vs.length) (h : y ∈ xs ∨ env y = env' y) :
    setVars env xs vs y = setVars env' xs vs y := by
  induction xs generalizing env env' vs with
  | nil => simpa [setVars] using h
  | cons x xs ih =>
    cases vs with
    | nil => simp at hl
    | cons v vs =>
      simp only [setVars]
      apply ih (by simpa using hl)
      by_cases hx : y = x
      · right; simp [setVar, hx]
      · rcases h with h | h
        · left; simpa [hx] using h
        · right; simp [setVar, hx, h]

/-- The environment of an iteration. -/
def loopEnv (S : Sem V O) (l : LoopNode) (env : Env V) (i : Int) (vals : List V) : Env V :=
  setVars (setVar env l.iv (S.ofInt i)) l.iterArgs vals

theorem loopEnv_other (S : Sem V O) (l : LoopNode) (env : Env V) (i : Int) (vals : List V) {x : Nat}
    (h : ¬ l.binds x) : loopEnv S l env i vals x = env x := by
  simp only [LoopNode.binds, not_or] at h
  rw [loopEnv, setVars_other _ _ h.2, setVar_other _ _ h.1]

theorem loopEnv_congr (S : Sem V O) (l : LoopNode) {env env' : Env V} (i : Int) {vals : List V}
    (hl : l.iterArgs.length = vals.length) {x : Nat} (h : l.binds x ∨ env x = env' x) :
    loopEnv S l env i vals x = loopEnv S l env' i vals x := by
  apply setVars_congr hl
  by_cases hi : x = l.iv
  · right; simp [setVar, hi]
  · rcases h with (h | h) | h
    · exact absurd h hi
    · exact Or.inl h
    · right; simp [setVar, hi, h]

theorem denLoop_congr {f g : Int → List V → Option (List V)} (h : ∀ i vals, f i vals = g i vals)
    (is : List Int) (vals : List V) : denLoop f is vals = denLoop g is vals := by
  have : f = g := by funext i v; exact h i v
  rw [this]

/-- Enough depth is enough, and only free variables matter. -/
theorem denK_congr (S : Sem V O) {D : Heap O} (hD : Ordered D) (n : Nat) :
    ∀ (k k' : Nat) (env env' : Env V), n < k → n < k' →
    (∀ x, FreeVar D n x → env x = env' x) → denK S D k env n = denK S D k' env' n := by
  induction n using Nat.strong_induction_on with
  | _ n ih =>
    intro k k' env env' hk hk' he
    obtain ⟨k, rfl⟩ : ∃ j, k = j + 1 := ⟨k - 1, by omega⟩
    obtain ⟨k', rfl⟩ : ∃ j, k' = j + 1 := ⟨k' - 1, by omega⟩
    have hc : ∀ c ∈ scopeChildren (D n), denK S D k env c = denK S D k' env' c := fun c hc => by
      have := hD n c (scope_sub_clear hc)
      exact ih c this _ _ _ _ (by omega) (by omega) fun x hx => he x (.child hc hx)
    rw [denK, denK]
    split
    case h_1 o cs h =>
      rw [allSome_congr (g := fun c => (denK S D k' env' c).bind List.head?)]
      intro c hcs
      rw [hc c (by simpa [h, scopeChildren] using hcs)]
    case h_2 h => rw [he n (.var h)]
    case h_3 c t e h =>
      rw [hc c (by simp [h, scopeChildren])]
      congr 1; funext v; congr 1; funext b
      cases b
      · exact hc e (by simp [h, scopeChildren])
      · exact hc t (by simp [h, scopeChildren])
    case h_4 l h =>
      rw [allSome_congr (g := fun c => (denK S D k' env' c).bind only)]
      · congr 1; funext vals; congr 1; funext is
        apply denLoop_congr
        intro i vals
        split
        case isTrue hl =>
          have hb := hD n l.body (by rw [h]; exact body_mem_clear l)
          rw [ih l.body hb k k' _ (setVars (setVar env' l.iv (S.ofInt i)) l.iterArgs vals)
            (by omega) (by omega)]
          intro x hx
          apply loopEnv_congr S l i hl.1
          by_cases hbx : l.binds x
          · exact Or.inl hbx
          · exact Or.inr (he x (.body h hx hbx))
        case isFalse hl => rfl
      · intro c hcs
        rw [hc c (by simpa [h, scopeChildren] using hcs)]
    case h_5 cs h =>
      apply allSome_congr
      intro c hcs
      rw [hc c (by simpa [h, scopeChildren] using hcs)]
    case h_6 c i h => rw [hc c (by simp [h, scopeChildren])]

theorem den_congr (S : Sem V O) {D : Heap O} (hD : Ordered D) {n : Nat} {env env' : Env V}
    (he : ∀ x, FreeVar D n x → env x = env' x) : den S D env n = den S D env' n :=
  denK_congr S hD n _ _ _ _ (by omega) (by omega) he

theorem denK_eq_den (S : Sem V O) {D : Heap O} (hD : Ordered D) {n k : Nat} (env : Env V)
    (h : n < k) : denK S D k env n = den S D env n :=
  denK_congr S hD n _ _ _ _ h (by omega) fun _ _ => rfl

/-! ## Scoping -/

variable {D : Heap O} {roots : List Nat}

theorem Reach.le (hD : Ordered D) {n m : Nat} (h : Reach D n m) : m ≤ n := by
  induction h with
  | refl => exact le_rfl
  | child _ hc ih => exact (hD _ _ (scope_sub_clear hc)).le.trans ih
  | body _ hl ih => exact (hD _ _ (by rw [hl]; exact body_mem_clear _)).le.trans ih

theorem Reach.trans {n m p : Nat} (h : Reach D n m) (h' : Reach D m p) : Reach D n p := by
  induction h' with
  | refl => exact h
  | child _ hc ih => exact .child ih hc
  | body _ hl ih => exact .body ih hl

theorem Below.trans {m p : Nat} (h : Below D roots m) (h' : Reach D m p) : Below D roots p := by
  obtain ⟨n, hn, hr⟩ := h
  exact ⟨n, hn, hr.trans h'⟩

/-- A node that depends on a loop variable is in the body of the loop. -/
theorem reach_of_free (hC : Closed D roots) {n m : Nat} {l : LoopNode} {x : Nat} (hn : Below D roots n)
    (hm : Below D roots m) (hl : D m = .loop l) (hb : l.binds x) (hf : FreeVar D n x) :
    Reach D l.body n := by
  obtain ⟨r, hr, hn⟩ := hn
  induction hn with
  | refl => exact absurd hb (hC.free r hr x hf m l hm hl)
  | child _ hc ih => exact .child (ih (.child hc hf)) hc
  | @body m' l' hm' hl' ih =>
    by_cases hbx : l'.binds x
    · have := hC.unique m l m' l' x hm ⟨r, hr, hm'⟩ hl hl' hb hbx
      subst this
      rw [hl] at hl'
      cases hl'
      exact .refl
    · exact .body (ih (.body hl' hf hbx)) hl'

/-- `x` is bound by a loop below `n`. -/
def BoundIn (D : Heap O) (n x : Nat) : Prop := ∃ m l, Reach D n m ∧ D m = .loop l ∧ l.binds x

theorem not_boundIn (hD : Ordered D) (hC : Closed D roots) {n x : Nat} (hn : Below D roots n)
    (hf : FreeVar D n x) : ¬ BoundIn D n x := by
  rintro ⟨m, l, hr, hl, hb⟩
  have h1 := (reach_of_free hC hn (hn.trans hr) hl hb hf).le hD
  have h2 := hD m l.body (by rw [hl]; exact body_mem_clear l)
  have h3 := hr.le hD
  omega

/-! ## Clearing the cache -/

theorem foldl_clear_le {f : Cache V → Nat → Cache V}
    (hf : ∀ c n m r, f c n m = some r → c m = some r) (cs : List Nat) (c : Cache V) (m : Nat)
    (r : List V) (h : cs.foldl f c m = some r) : c m = some r := by
  induction cs generalizing c with
  | nil => exact h
  | cons a cs ih => exact hf _ _ _ _ (ih _ h)

/-- Clearing only removes entries. -/
theorem clearSubtree_le (k : Nat) (c : Cache V) (n m : Nat) (r : List V)
    (h : clearSubtree D k c n m = some r) : c m = some r := by
  induction k generalizing c n m r with
  | zero => exact h
  | succ k ih =>
    rw [clearSubtree] at h
    have := foldl_clear_le (fun c n m r => ih c n m r) _ _ _ _ h
    rw [erase] at this
    split at this
    · exact absurd this (by simp)
    · exact this

theorem clearSubtree_none (k : Nat) (c : Cache V) (n m : Nat) (h : c m = none) :
    clearSubtree D k c n m = none := by
  cases hx : clearSubtree D k c n m with
  | none => rfl
  | some r => rw [clearSubtree_le k c n m r hx] at h; exact absurd h (by simp)

theorem foldl_clear_mem {f : Cache V → Nat → Cache V}
    (hf : ∀ c n m r, f c n m = some r → c m = some r) {cs : List Nat} {a : Nat} (ha : a ∈ cs)
    {m : Nat} (hm : ∀ c, f c a m = none) (c : Cache V) : cs.foldl f c m = none := by
  induction cs generalizing c with
  | nil => simp at ha
  | cons b cs ih =>
    rw [List.foldl_cons]
    by_cases hb : a ∈ cs
    · exact ih hb _
    · have : a = b := by simpa [hb] using ha
      subst this
      cases hx : cs.foldl f (f c a) m with
      | none => rfl
      | some r => rw [← hm c, foldl_clear_le hf _ _ _ _ hx]

/-- Reachability by first step. -/
theorem Reach.cases_head {n m : Nat} (h : Reach D n m) :
    m = n ∨ ∃ c ∈ clearChildren (D n), Reach D c m := by
  induction h with
  | refl => exact Or.inl rfl
  | @child m c _ hc ih =>
    right
    rcases ih with rfl | ⟨d, hd, hr⟩
    · exact ⟨c, scope_sub_clear hc, .refl⟩
    · exact ⟨d, hd, .child hr hc⟩
  | @body m l _ hl ih =>
    right
    rcases ih with rfl | ⟨d, hd, hr⟩
    · exact ⟨l.body, by rw [hl]; exact body_mem_clear l, .refl⟩
    · exact ⟨d, hd, .body hr hl⟩

/-- Every node below the cleared node is removed. -/
theorem clearSubtree_reach (hD : Ordered D) (k : Nat) : ∀ (c : Cache V) (n m : Nat), n < k →
    Reach D n m → clearSubtree D k c n m = none := by
  induction k with
  | zero => intro c n m h; omega
  | succ k ih =>
    intro c n m hk hr
    rw [clearSubtree]
    rcases hr.cases_head with rfl | ⟨d, hd, hr⟩
    · cases hx : (clearChildren (D m)).foldl (clearSubtree D k) (erase c m) m with
      | none => rfl
      | some r =>
        have := foldl_clear_le (fun c n m r => clearSubtree_le k c n m r) _ _ _ _ hx
        simp [erase] at this
    · have := hD n d hd
      exact foldl_clear_mem (fun c n m r => clearSubtree_le k c n m r) hd
        (fun c => ih c d m (by omega) hr) _

end Heir.Dag
