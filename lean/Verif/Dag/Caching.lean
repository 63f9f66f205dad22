import Verif.Dag.Lemmas

/-! # The cache is coherent -/

namespace Heir.Dag

variable {V O : Type} {S : Sem V O} {D : Heap O} {roots : List Nat}

/-- Every cached result is the value of the node for the current variable values. -/
def Inv (S : Sem V O) (D : Heap O) (roots : List Nat) (s : St V) : Prop :=
  ∀ m r, Below D roots m → s.cache m = some r → den S D s.env m = some r

/-- Variables not bound below `n` keep their values. -/
def Same (D : Heap O) (n : Nat) (env env' : Env V) : Prop := ∀ x, ¬ BoundIn D n x → env' x = env x

/-- Outcome of evaluating `n` (or a part of it) from `s`: agrees with `d`. -/
def Good (S : Sem V O) (D : Heap O) (roots : List Nat) {α : Type} (n : Nat) (env : Env V)
    (o : Option (α × St V)) (d : Option α) : Prop :=
  match o with
  | none => d = none
  | some (r, s') => d = some r ∧ Inv S D roots s' ∧ Same D n env s'.env

theorem Same.refl (n : Nat) (env : Env V) : Same D n env env := fun _ _ => rfl

theorem Same.trans {n : Nat} {e1 e2 e3 : Env V} (h : Same D n e1 e2) (h' : Same D n e2 e3) :
    Same D n e1 e3 := fun x hx => (h' x hx).trans (h x hx)

theorem BoundIn.mono {n c x : Nat} (h : Reach D n c) (hb : BoundIn D c x) : BoundIn D n x := by
  obtain ⟨m, l, hr, hl, hx⟩ := hb
  exact ⟨m, l, h.trans hr, hl, hx⟩

theorem Same.mono {n c : Nat} {e1 e2 : Env V} (h : Reach D n c) (hs : Same D c e1 e2) :
    Same D n e1 e2 := fun x hx => hs x fun hb => hx (hb.mono h)

theorem den_same (hD : Ordered D) (hC : Closed D roots) {n : Nat} (hn : Below D roots n)
    {e1 e2 : Env V} (h : Same D n e1 e2) : den S D e2 n = den S D e1 n :=
  den_congr S hD fun x hx => h x (not_boundIn hD hC hn hx)

/-- A child evaluated in the scope of `n`. -/
theorem den_child (hD : Ordered D) (hC : Closed D roots) {n c : Nat} (hn : Below D roots n)
    (hc : c ∈ scopeChildren (D n)) {e1 e2 : Env V} (h : Same D n e1 e2) :
    den S D e2 c = den S D e1 c :=
  den_congr S hD fun x hx => h x (not_boundIn hD hC hn (.child hc hx))

/-- `process` is right on `c`. -/
def RecOK (S : Sem V O) (D : Heap O) (roots : List Nat)
    (rec : St V → Nat → Option (List V × St V)) (c : Nat) : Prop :=
  ∀ s, Inv S D roots s → Good S D roots c s.env (rec s c) (den S D s.env c)

theorem rec_child (hD : Ordered D) (hC : Closed D roots) {n c : Nat} (hn : Below D roots n)
    (hc : c ∈ scopeChildren (D n)) {rec : St V → Nat → Option (List V × St V)}
    (hr : RecOK S D roots rec c) {env : Env V} {s : St V} (hi : Inv S D roots s)
    (hs : Same D n env s.env) : Good S D roots n env (rec s c) (den S D env c) := by
  have h := hr s hi
  rw [den_child hD hC hn hc hs] at h
  unfold Good at h ⊢
  split at h
  · exact h
  · exact ⟨h.1, h.2.1, hs.trans (h.2.2.mono (.child .refl hc))⟩

theorem Good.bind {α β : Type} {n : Nat} {env : Env V} {o : Option (α × St V)} {d : Option α}
    (h : Good S D roots n env o d) {f : α × St V → Option (β × St V)} {g : α → Option β}
    (hf : ∀ a s, Inv S D roots s → Same D n env s.env → Good S D roots n env (f (a, s)) (g a)) :
    Good S D roots n env (o.bind f) (d.bind g) := by
  cases o with
  | none => rw [show d = none from h]; exact rfl
  | some p =>
    obtain ⟨a, s⟩ := p
    obtain ⟨h1, h2, h3⟩ := (show _ ∧ _ ∧ _ from h)
    rw [h1]
    exact hf a s h2 h3

theorem Good.pure {α : Type} {n : Nat} {env : Env V} (a : α) {s : St V} (h : Inv S D roots s)
    (hs : Same D n env s.env) : Good S D roots n env (some (a, s)) (some a) := ⟨rfl, h, hs⟩

theorem Good.lift {α β : Type} {n : Nat} {env : Env V} (v : Option α) {s : St V}
    (h : Inv S D roots s) (hs : Same D n env s.env) (f : α → β) :
    Good S D roots n env (v.bind fun a => some (f a, s)) (v.map f) := by
  cases v with
  | none => exact rfl
  | some a => exact Good.pure _ h hs

theorem procFirst_ok (hD : Ordered D) (hC : Closed D roots) {n c : Nat} (hn : Below D roots n)
    (hc : c ∈ scopeChildren (D n)) {rec : St V → Nat → Option (List V × St V)}
    (hr : RecOK S D roots rec c) {env : Env V} {s : St V} (hi : Inv S D roots s)
    (hs : Same D n env s.env) :
    Good S D roots n env (procFirst rec s c) ((den S D env c).bind List.head?) := by
  refine (rec_child hD hC hn hc hr hi hs).bind (f := fun p => p.1.head?.bind fun v => some (v, p.2)) ?_
  intro r s hi hs
  have := Good.lift (S := S) (D := D) (roots := roots) (n := n) (env := env) r.head? hi hs id
  simpa using this

theorem procSingle_ok (hD : Ordered D) (hC : Closed D roots) {n c : Nat} (hn : Below D roots n)
    (hc : c ∈ scopeChildren (D n)) {rec : St V → Nat → Option (List V × St V)}
    (hr : RecOK S D roots rec c) {env : Env V} {s : St V} (hi : Inv S D roots s)
    (hs : Same D n env s.env) :
    Good S D roots n env (procSingle rec s c) ((den S D env c).bind only) := by
  refine (rec_child hD hC hn hc hr hi hs).bind ?_
  intro r s hi hs
  match r with
  | [] => exact rfl
  | [v] => exact Good.pure _ hi hs
  | _ :: _ :: _ => exact rfl

theorem procList_ok {n : Nat} {env : Env V} {f : St V → Nat → Option (V × St V)}
    {g : Nat → Option V} {cs : List Nat}
    (h : ∀ c ∈ cs, ∀ s, Inv S D roots s → Same D n env s.env → Good S D roots n env (f s c) (g c))
    {s : St V} (hi : Inv S D roots s) (hs : Same D n env s.env) :
    Good S D roots n env (procList f s cs) (allSome g cs) := by
  induction cs generalizing s with
  | nil => exact Good.pure _ hi hs
  | cons c cs ih =>
    refine (h c (by simp) s hi hs).bind (f := fun p => (procList f p.2 cs).bind fun q =>
      some (p.1 :: q.1, q.2)) ?_
    intro v s hi hs
    refine (ih (fun c hc => h c (by simp [hc])) hi hs).bind (f := fun q => some (v :: q.1, q.2)) ?_
    intro vs s hi hs
    exact Good.pure _ hi hs

theorem iteration_ok (hD : Ordered D) (hC : Closed D roots) {n k : Nat} (hn : Below D roots n)
    {l : LoopNode} (hl : D n = .loop l) (hk : l.body < k)
    {rec : St V → Nat → Option (List V × St V)} (hr : RecOK S D roots rec l.body) {env : Env V}
    (i : Int) (vals : List V) {s : St V} (hi : Inv S D roots s) (hs : Same D n env s.env) :
    Good S D roots n env (iteration S D (clearSubtree D k) rec l i vals s)
      (if l.iterArgs.length = vals.length ∧ isYield (D l.body) = true then
        (den S D (loopEnv S l env i vals) l.body).bind
          fun r => if r.length = vals.length then some r else none
       else none) := by
  unfold iteration
  by_cases h1 : l.iterArgs.length = vals.length
  swap
  · rw [if_pos h1, if_neg (fun h => h1 h.1)]; exact rfl
  by_cases h2 : isYield (D l.body) = true
  swap
  · rw [if_neg (not_not.2 h1), if_pos (by simpa using h2), if_neg (fun h => h2 h.2)]; exact rfl
  rw [if_neg (not_not.2 h1), if_neg (by simp [h2]), if_pos ⟨h1, h2⟩]
  have hrb : Reach D n l.body := .body .refl hl
  have hb : Below D roots l.body := hn.trans hrb
  have hbound : ∀ x, l.binds x → BoundIn D n x := fun x hx => ⟨n, l, .refl, hl, hx⟩
  set s1 : St V := ⟨clearSubtree D k s.cache l.body, loopEnv S l s.env i vals⟩ with hs1
  have hi1 : Inv S D roots s1 := by
    intro m r hm hc
    rw [← hi m r hm (clearSubtree_le k _ _ _ _ hc)]
    apply den_congr S hD
    intro x hx
    apply loopEnv_other
    intro hbx
    have := clearSubtree_reach hD k s.cache l.body m hk (reach_of_free hC hm hn hl hbx hx)
    rw [show s1.cache = clearSubtree D k s.cache l.body from rfl, this] at hc
    exact absurd hc (by simp)
  have hsame1 : Same D n env s1.env := fun x hx => by
    rw [show s1.env x = s.env x from loopEnv_other S l _ i vals fun hb => hx (hbound x hb)]
    exact hs x hx
  have hg := hr s1 hi1
  have hden : den S D s1.env l.body = den S D (loopEnv S l env i vals) l.body := by
    apply den_congr S hD
    intro x hx
    apply loopEnv_congr S l i h1
    by_cases hbx : l.binds x
    · exact Or.inl hbx
    · exact Or.inr (hs x (not_boundIn hD hC hn (.body hl hx hbx)))
  have hg' : Good S D roots n env (rec s1 l.body) (den S D (loopEnv S l env i vals) l.body) := by
    rw [hden] at hg
    unfold Good at hg ⊢
    split at hg
    · exact hg
    · exact ⟨hg.1, hg.2.1, hsame1.trans (hg.2.2.mono hrb)⟩
  refine hg'.bind (f := fun p => if p.1.length ≠ vals.length then none else some (p.1, p.2)) ?_
  intro r s hi hs
  by_cases h3 : r.length = vals.length
  · simp only [h3, ne_eq, not_true_eq_false, if_false, if_true]; exact Good.pure _ hi hs
  · simp only [h3, ne_eq, not_false_eq_true, if_false, if_true]; exact rfl

theorem iterations_ok {n : Nat} {env : Env V} {f : Int → List V → St V → Option (List V × St V)}
    {g : Int → List V → Option (List V)}
    (h : ∀ i vals s, Inv S D roots s → Same D n env s.env → Good S D roots n env (f i vals s) (g i vals))
    (is : List Int) (vals : List V) {s : St V} (hi : Inv S D roots s) (hs : Same D n env s.env) :
    Good S D roots n env (iterations f is vals s) (denLoop g is vals) := by
  induction is generalizing vals s with
  | nil => exact Good.pure _ hi hs
  | cons i is ih =>
    refine (h i vals s hi hs).bind (f := fun p => iterations f is p.1 p.2) ?_
    intro vals s hi hs
    exact ih vals hi hs

/-- The visit of a node agrees with the structural semantics. -/
theorem visit_ok (hD : Ordered D) (hC : Closed D roots) {n k : Nat} (hn : Below D roots n)
    (hk : n ≤ k) {rec : St V → Nat → Option (List V × St V)}
    (hr : ∀ c, c < n → Below D roots c → RecOK S D roots rec c) {s : St V}
    (hi : Inv S D roots s) :
    Good S D roots n s.env (visit S D (clearSubtree D k) rec s n) (den S D s.env n) := by
  have hlt : ∀ c ∈ scopeChildren (D n), c < n := fun c hc => hD n c (scope_sub_clear hc)
  have hrc : ∀ c ∈ scopeChildren (D n), RecOK S D roots rec c := fun c hc =>
    hr c (hlt c hc) (hn.trans (.child .refl hc))
  have hden : ∀ c ∈ scopeChildren (D n), denK S D n s.env c = den S D s.env c := fun c hc =>
    denK_eq_den S hD _ (hlt c hc)
  have hs := Same.refl (D := D) n s.env
  rw [den, denK, visit]
  cases h : D n with
  | pure o cs =>
    dsimp only
    have hsc : ∀ c ∈ cs, c ∈ scopeChildren (D n) := fun c hc => by simpa [h, scopeChildren] using hc
    rw [allSome_congr (g := fun c => (den S D s.env c).bind List.head?)
      (fun c hc => by rw [hden c (hsc c hc)])]
    refine (procList_ok (fun c hc s' hi' hs' => procFirst_ok hD hC hn (hsc c hc)
      (hrc c (hsc c hc)) hi' hs') hi hs).bind
      (f := fun p => (S.pure o p.1).bind fun v => some ([v], p.2)) ?_
    intro vs s' hi' hs'
    exact Good.lift _ hi' hs' _
  | var =>
    dsimp only
    exact Good.lift _ hi hs _
  | ifElse c t e =>
    dsimp only
    have hc : c ∈ scopeChildren (D n) := by simp [h, scopeChildren]
    rw [hden c hc]
    refine (procFirst_ok hD hC hn hc (hrc c hc) hi hs).bind
      (f := fun p => (S.truth p.1).bind fun b => rec p.2 (if b then t else e)) ?_
    intro v s' hi' hs'
    cases S.truth v with
    | none => exact rfl
    | some b =>
      have hb : (if b then t else e) ∈ scopeChildren (D n) := by
        cases b <;> simp [h, scopeChildren]
      simp only [Option.bind_some]
      rw [hden _ hb]
      exact rec_child hD hC hn hb (hrc _ hb) hi' hs'
  | loop l =>
    dsimp only
    have hsc : ∀ c ∈ l.inits, c ∈ scopeChildren (D n) := fun c hc => by
      simpa [h, scopeChildren] using hc
    rw [allSome_congr (g := fun c => (den S D s.env c).bind only)
      (fun c hc => by rw [hden c (hsc c hc)])]
    refine (procList_ok (fun c hc s' hi' hs' => procSingle_ok hD hC hn (hsc c hc)
      (hrc c (hsc c hc)) hi' hs') hi hs).bind
      (f := fun p => (trips l.lower l.upper l.step).bind fun is =>
        iterations (iteration S D (clearSubtree D k) rec l) is p.1 p.2) ?_
    intro vals s' hi' hs'
    rw [trips_eq]
    cases tripList l.lower l.upper l.step with
    | none => exact rfl
    | some is =>
      have hb : l.body < n := hD n l.body (by rw [h]; exact body_mem_clear l)
      refine iterations_ok (fun i vals s'' hi'' hs'' => ?_) is vals hi' hs'
      have := iteration_ok hD hC hn h (k := k) (by omega)
        (hr l.body hb (hn.trans (.body .refl h))) i vals hi'' hs''
      rw [← denK_eq_den S hD (k := n) _ hb] at this
      exact this
  | yield cs =>
    dsimp only
    have hsc : ∀ c ∈ cs, c ∈ scopeChildren (D n) := fun c hc => by simpa [h, scopeChildren] using hc
    rw [allSome_congr (g := fun c => (den S D s.env c).bind only)
      (fun c hc => by rw [hden c (hsc c hc)])]
    exact procList_ok (fun c hc s' hi' hs' => procSingle_ok hD hC hn (hsc c hc)
      (hrc c (hsc c hc)) hi' hs') hi hs
  | resultAt c i =>
    dsimp only
    have hc : c ∈ scopeChildren (D n) := by simp [h, scopeChildren]
    rw [hden c hc]
    refine (rec_child hD hC hn hc (hrc c hc) hi hs).bind
      (f := fun p => (p.1[i]?).bind fun v => some ([v], p.2)) ?_
    intro r s' hi' hs'
    exact Good.lift _ hi' hs' _

/-- `process` agrees with the structural semantics and keeps the cache coherent. -/
theorem process_ok (hD : Ordered D) (hC : Closed D roots) (k : Nat) :
    ∀ n, n < k → Below D roots n → RecOK S D roots (process S D k) n := by
  induction k with
  | zero => intro n h; omega
  | succ k ih =>
    intro n hk hn s hi
    rw [process]
    cases hc : s.cache n with
    | some r => exact ⟨hi n r hn hc, hi, Same.refl _ _⟩
    | none =>
      have hv := visit_ok (S := S) hD hC (k := k) hn (by omega)
        (fun c hc hb => ih c (by omega) hb) hi
      dsimp only
      cases ho : visit S D (clearSubtree D k) (process S D k) s n with
      | none => rw [ho] at hv; exact hv
      | some p =>
        obtain ⟨r, s'⟩ := p
        rw [ho] at hv
        obtain ⟨h1, h2, h3⟩ := (show _ ∧ _ ∧ _ from hv)
        refine ⟨h1, ?_, h3⟩
        intro m r' hm hcm
        by_cases hmn : m = n
        · subst hmn
          simp only [if_true, Option.some.injEq] at hcm
          subst hcm
          rw [← h1]
          exact den_same hD hC hm h3
        · exact h2 m r' hm (by simpa [hmn] using hcm)

theorem processAll_ok (hD : Ordered D) (hC : Closed D roots) (k : Nat) (env : Env V) :
    ∀ (ns : List Nat) (s : St V), (∀ n ∈ ns, n < k ∧ n ∈ roots) → Inv S D roots s →
    (∀ n ∈ roots, ∀ x, FreeVar D n x → s.env x = env x) →
    processAll S D k s ns = allSome (den S D env) ns := by
  intro ns
  induction ns with
  | nil => intro s _ _ _; rfl
  | cons n ns ih =>
    intro s hns hi he
    obtain ⟨hk, hr⟩ := hns n (by simp)
    have hb : Below D roots n := ⟨n, hr, .refl⟩
    have h := process_ok (S := S) hD hC k n hk hb s hi
    rw [den_congr S hD (env' := env) (fun x hx => he n hr x hx)] at h
    rw [processAll, allSome]
    cases ho : process S D k s n with
    | none => rw [ho] at h; rw [show den S D env n = none from h]; rfl
    | some p =>
      obtain ⟨r, s'⟩ := p
      rw [ho] at h
      obtain ⟨h1, h2, h3⟩ := (show _ ∧ _ ∧ _ from h)
      have := ih s' (fun m hm => hns m (by simp [hm])) h2 (fun m hm x hx => by
        rw [h3 x ?_, he m hm x hx]
        rintro ⟨p, l, hp, hl, hbx⟩
        exact hC.free m hm x hx p l (hb.trans hp) hl hbx)
      rw [h1]
      simp only [Option.bind_some]
      rw [← this]
      rfl

end Heir.Dag
