import Verif.Emit.Spec
import Verif.Dag.Lemmas

/-! # What the state of the visitor says about the names it hands out -/

namespace Heir.Emit

open Heir.Dag

variable {V O : Type}

/-! ## The value of a node, by kind -/

/-- `den` with `den` on the children. -/
def denV (S : Sem V O) (D : Heap O) (env : Env V) (n : Nat) : Option (List V) :=
  match D n with
  | .pure o cs =>
    (allSome (fun c => (den S D env c).bind List.head?) cs).bind fun vs =>
      (S.pure o vs).map fun v => [v]
  | .var => (env n).map fun v => [v]
  | .ifElse c t e =>
    ((den S D env c).bind List.head?).bind fun v =>
      (S.truth v).bind fun b => den S D env (if b then t else e)
  | .loop l =>
    (allSome (fun c => (den S D env c).bind only) l.inits).bind fun vals =>
      (tripList l.lower l.upper l.step).bind fun is =>
        denLoop (fun i vals =>
          if l.iterArgs.length = vals.length ∧ isYield (D l.body) = true then
            (den S D (loopEnv S l env i vals) l.body).bind
              fun r => if r.length = vals.length then some r else none
          else none) is vals
  | .yield cs => allSome (fun c => (den S D env c).bind only) cs
  | .resultAt c i => (den S D env c).bind fun r => (r[i]?).map fun v => [v]

theorem den_eq (S : Sem V O) {D : Heap O} (hD : Ordered D) (env : Env V) (n : Nat) :
    den S D env n = denV S D env n := by
  have hc : ∀ c ∈ clearChildren (D n), ∀ env : Env V, denK S D n env c = den S D env c :=
    fun c hc env => denK_eq_den S hD env (hD n c hc)
  rw [den, denK, denV]
  cases h : D n with
  | pure o cs =>
    simp only
    rw [allSome_congr (g := fun c => (den S D env c).bind List.head?)]
    intro c hcs
    rw [hc c (by simpa [h, clearChildren] using hcs)]
  | var => rfl
  | ifElse c t e =>
    rw [h] at hc
    simp only
    rw [hc c (by simp [clearChildren])]
    congr 1; funext v; congr 1; funext b
    cases b
    · exact hc e (by simp [clearChildren]) env
    · exact hc t (by simp [clearChildren]) env
  | loop l =>
    rw [h] at hc
    simp only
    rw [allSome_congr (g := fun c => (den S D env c).bind only)]
    · congr 1; funext vals; congr 1; funext is
      apply denLoop_congr
      intro i vals
      split
      · rw [hc l.body (body_mem_clear l)]; rfl
      · rfl
    · intro c hcs
      rw [hc c (by simp [clearChildren, hcs])]
  | yield cs =>
    simp only
    apply allSome_congr
    intro c hcs
    rw [hc c (by simpa [h, clearChildren] using hcs)]
  | resultAt c i => simp only; rw [hc c (by simp [h, clearChildren])]

theorem allSome_length {α β : Type} {f : α → Option β} {cs : List α} {vs : List β}
    (h : allSome f cs = some vs) : vs.length = cs.length := by
  induction cs generalizing vs with
  | nil => simp only [allSome, Option.some.injEq] at h; subst h; rfl
  | cons c cs ih =>
    simp only [allSome, Option.bind_eq_some_iff, Option.some.injEq] at h
    obtain ⟨v, _, ws, hw, rfl⟩ := h
    simp [ih hw]

theorem allSome_get {α β : Type} {f : α → Option β} {cs : List α} {vs : List β}
    (h : allSome f cs = some vs) {i : Nat} {c : α} (hi : cs[i]? = some c) :
    ∃ v, vs[i]? = some v ∧ f c = some v := by
  induction cs generalizing vs i with
  | nil => simp at hi
  | cons d cs ih =>
    simp only [allSome, Option.bind_eq_some_iff, Option.some.injEq] at h
    obtain ⟨v, hv, ws, hw, rfl⟩ := h
    cases i with
    | zero => simp only [List.getElem?_cons_zero, Option.some.injEq] at hi; subst hi; exact ⟨v, by simp, hv⟩
    | succ i => simpa using ih hw (by simpa using hi)

theorem denLoop_length {f : Int → List V → Option (List V)}
    (hf : ∀ i vals r, f i vals = some r → r.length = vals.length) {is : List Int} {vals r : List V}
    (h : denLoop f is vals = some r) : r.length = vals.length := by
  induction is generalizing vals with
  | nil => simp only [denLoop, Option.some.injEq] at h; subst h; rfl
  | cons i is ih =>
    simp only [denLoop, Option.bind_eq_some_iff] at h
    obtain ⟨w, hw, h⟩ := h
    rw [ih h, hf _ _ _ hw]

/-! ## Names -/

theorem mem_fresh {a n x : Nat} : x ∈ fresh a n ↔ a ≤ x ∧ x < a + n := by
  simp only [fresh, List.mem_map, List.mem_range]
  constructor
  · rintro ⟨j, hj, rfl⟩; omega
  · rintro ⟨h1, h2⟩; exact ⟨x - a, by omega, by omega⟩

theorem fresh_succ (a n : Nat) : fresh a (n + 1) = a :: fresh (a + 1) n := by
  simp only [fresh, List.range_succ_eq_map, List.map_cons, List.map_map]
  refine List.cons_eq_cons.2 ⟨by simp, List.map_congr_left fun j _ => ?_⟩
  simp only [Function.comp]; omega

@[simp] theorem fresh_length (a n : Nat) : (fresh a n).length = n := by simp [fresh]

theorem setVars_some {env : Env V} {xs : List Nat} {vs : List V} {x : Nat} {v : V}
    (h : setVars env xs vs x = some v) : (x ∈ xs ∧ v ∈ vs) ∨ env x = some v := by
  induction xs generalizing env vs with
  | nil => exact Or.inr (by simpa [setVars] using h)
  | cons y xs ih =>
    cases vs with
    | nil => exact Or.inr (by simpa [setVars] using h)
    | cons w vs =>
      rw [setVars] at h
      rcases ih h with h | h
      · exact Or.inl ⟨by simp [h.1], by simp [h.2]⟩
      · by_cases hy : x = y
        · subst hy; rw [setVar_same] at h
          simp only [Option.some.injEq] at h; subst h
          exact Or.inl (by simp)
        · rw [setVar_other _ _ hy] at h; exact Or.inr h

theorem setVars_isSome {env : Env V} {xs : List Nat} {vs : List V} {x : Nat}
    (h : (env x).isSome) : (setVars env xs vs x).isSome := by
  induction xs generalizing env vs with
  | nil => simpa [setVars] using h
  | cons y xs ih =>
    cases vs with
    | nil => simpa [setVars] using h
    | cons w vs =>
      rw [setVars]
      apply ih
      by_cases hy : x = y
      · subst hy; rw [setVar_same]; rfl
      · rw [setVar_other _ _ hy]; exact h

theorem setVars_mem_isSome {env : Env V} {xs : List Nat} {vs : List V} {x : Nat}
    (hl : xs.length = vs.length) (h : x ∈ xs) : (setVars env xs vs x).isSome := by
  induction xs generalizing env vs with
  | nil => simp at h
  | cons y xs ih =>
    cases vs with
    | nil => simp at hl
    | cons w vs =>
      rw [setVars]
      by_cases hx : x ∈ xs
      · exact ih (by simpa using hl) hx
      · simp only [List.mem_cons, hx, or_false] at h
        subst h
        exact setVars_isSome (by rw [setVar_same]; rfl)

theorem setVars_fresh_get {env : Env V} {a : Nat} {vs : List V} {i x : Nat}
    (h : (fresh a vs.length)[i]? = some x) : setVars env (fresh a vs.length) vs x = vs[i]? := by
  induction vs generalizing env a i with
  | nil => simp [fresh] at h
  | cons v vs ih =>
    rw [List.length_cons, fresh_succ] at h ⊢
    rw [setVars]
    cases i with
    | zero =>
      simp only [List.getElem?_cons_zero, Option.some.injEq] at h
      subst h
      rw [setVars_other _ _ (by rw [mem_fresh]; omega), setVar_same]; rfl
    | succ i => exact ih (by simpa using h)

theorem setVars_fresh_other {env : Env V} {a n : Nat} {vs : List V} {x : Nat} (h : x < a) :
    setVars env (fresh a n) vs x = env x :=
  setVars_other _ _ (by rw [mem_fresh]; omega)

/-! ## Invariants -/

/-- Defined names are old. -/
def Under (k : Nat) (ρ : Env V) : Prop := ∀ x v, ρ x = some v → x < k

/-- The names `ns` hold the values of `n`, where they are visible. -/
def Holds (S : Sem V O) (D : Heap O) (ρ env : Env V) (n : Nat) (ns : List Nat) : Prop :=
  ∀ (i : Nat) x v, ns[i]? = some x → ρ x = some v → ∀ r, den S D env n = some r → r[i]? = some v

def Agree (S : Sem V O) (D : Heap O) (ρ env : Env V) (s : ESt) : Prop :=
  ∀ m ns, s.cache m = some ns → Holds S D ρ env m ns

def Link (ρ env : Env V) (vars : Env Nat) : Prop :=
  ∀ x a v v', vars x = some a → ρ a = some v → env x = some v' → v' = v

/-- `P`: the loops being visited. -/
structure Stat (S : Sem V O) (D : Heap O) (roots : List Nat) (P : Nat → Prop) (s : ESt) : Prop where
  below : ∀ m ns, s.cache m = some ns → Below D roots m
  names : ∀ m ns, s.cache m = some ns → ∀ x ∈ ns, x < s.next
  vars : ∀ x a, s.vars x = some a → a < s.next
  free : ∀ m ns x, s.cache m = some ns → FreeVar D m x → (s.vars x).isSome
  len : ∀ m ns, s.cache m = some ns → ∀ (env : Env V) r, den S D env m = some r → r.length = ns.length
  ylen : ∀ m ns cs, s.cache m = some ns → D m = .yield cs → ns.length = cs.length
  opn : ∀ m l x, Below D roots m → D m = .loop l → l.binds x → (s.vars x).isSome →
    (s.cache m).isSome ∨ P m

structure Step (S : Sem V O) (D : Heap O) (roots : List Nat) (P : Nat → Prop) (s s' : ESt) : Prop where
  stat : Stat S D roots P s'
  next : s.next ≤ s'.next
  cache : ∀ m ns, s.cache m = some ns → s'.cache m = some ns
  vars : ∀ x, (s.vars x).isSome → (s'.vars x).isSome
  keep : ∀ ρ env : Env V, Under s.next ρ → Agree S D ρ env s → Link ρ env s.vars →
    Agree S D ρ env s' ∧ Link ρ env s'.vars

variable {S : Sem V O} {D : Heap O} {roots : List Nat} {P : Nat → Prop}

theorem Under.mono {k k' : Nat} {ρ : Env V} (h : Under k ρ) (hk : k ≤ k') : Under k' ρ :=
  fun x v hx => (h x v hx).trans_le hk

theorem Step.refl {s : ESt} (h : Stat S D roots P s) : Step S D roots P s s :=
  ⟨h, le_rfl, fun _ _ h => h, fun _ h => h, fun _ _ _ h1 h2 => ⟨h1, h2⟩⟩

theorem Step.trans {P' : Nat → Prop} {s s' s'' : ESt} (h : Step S D roots P' s s')
    (h' : Step S D roots P s' s'') : Step S D roots P s s'' :=
  ⟨h'.stat, h.next.trans h'.next, fun m ns hm => h'.cache m ns (h.cache m ns hm),
    fun x hx => h'.vars x (h.vars x hx), fun ρ env hu ha hl => by
      obtain ⟨ha, hl⟩ := h.keep ρ env hu ha hl
      exact h'.keep ρ env (hu.mono h.next) ha hl⟩

/-- The state after a node. -/
def done (s : ESt) (n : Nat) (ns : List Nat) (k : Nat) : ESt :=
  { s with next := s.next + k, cache := fun m => if m = n then some ns else s.cache m }

theorem done_cache {s : ESt} {n m : Nat} {ns ns' : List Nat} {k : Nat}
    (h : (done s n ns k).cache m = some ns') : (m = n ∧ ns' = ns) ∨ s.cache m = some ns' := by
  simp only [done] at h
  split at h
  case isTrue h' => exact Or.inl ⟨h', by simpa using h.symm⟩
  case isFalse => exact Or.inr h

theorem agree_done {ρ env : Env V} {s : ESt} {n : Nat} {ns : List Nat} {k : Nat}
    (h : Agree S D ρ env s) (hn : Holds S D ρ env n ns) : Agree S D ρ env (done s n ns k) := by
  intro m ns' hm
  rcases done_cache hm with ⟨rfl, rfl⟩ | hm
  · exact hn
  · exact h m ns' hm

/-- Nothing is known of names that are not visible. -/
theorem holds_fresh {ρ env : Env V} {n a k j : Nat} (hu : Under a ρ) (h : a ≤ j) :
    Holds S D ρ env n (fresh j k) := by
  intro i x v hx hv r _
  have := mem_fresh.1 (List.mem_of_getElem? hx)
  have := hu x v hv
  omega

theorem Step.finish {P' : Nat → Prop} {s s1 : ESt} {n : Nat} {ns : List Nat} {k : Nat}
    (h : Step S D roots P' s s1) (hP : ∀ m, P' m → P m ∨ m = n) (hb : Below D roots n)
    (hn : s.cache n = none) (hns : ∀ x ∈ ns, x < s1.next + k)
    (hfree : ∀ x, FreeVar D n x → (s1.vars x).isSome)
    (hlen : ∀ (env : Env V) r, den S D env n = some r → r.length = ns.length)
    (hyl : ∀ cs, D n = .yield cs → ns.length = cs.length)
    (hk : ∀ ρ env : Env V, Under s.next ρ → Agree S D ρ env s1 → Link ρ env s1.vars →
      Holds S D ρ env n ns) :
    Step S D roots P s (done s1 n ns k) where
  stat := by
    have st := h.stat
    constructor
    · intro m ns' hm
      rcases done_cache hm with ⟨rfl, rfl⟩ | hm
      · exact hb
      · exact st.below m ns' hm
    · intro m ns' hm x hx
      rcases done_cache hm with ⟨rfl, rfl⟩ | hm
      · exact hns x hx
      · exact (st.names m ns' hm x hx).trans_le (by simp [done])
    · intro x a hx
      exact (st.vars x a hx).trans_le (by simp [done])
    · intro m ns' x hm hf
      rcases done_cache hm with ⟨rfl, rfl⟩ | hm
      · exact hfree x hf
      · exact st.free m ns' x hm hf
    · intro m ns' hm
      rcases done_cache hm with ⟨rfl, rfl⟩ | hm
      · exact hlen
      · exact st.len m ns' hm
    · intro m ns' cs hm
      rcases done_cache hm with ⟨rfl, rfl⟩ | hm
      · exact hyl cs
      · exact st.ylen m ns' cs hm
    · intro m l x hm hl hx hv
      by_cases hmn : m = n
      · left; simp [done, hmn]
      · rcases st.opn m l x hm hl hx hv with h | h
        · left; simpa [done, hmn] using h
        · rcases hP m h with h | h
          · exact Or.inr h
          · exact absurd h hmn
  next := h.next.trans (by simp [done])
  cache := by
    intro m ns' hm
    have : m ≠ n := by rintro rfl; rw [hn] at hm; cases hm
    simp [done, this, h.cache m ns' hm]
  vars := h.vars
  keep := by
    intro ρ env hu ha hl
    obtain ⟨ha, hl⟩ := h.keep ρ env hu ha hl
    exact ⟨agree_done ha (hk ρ env hu ha hl), hl⟩

theorem enterLoop_vars {l : LoopNode} {k : Nat} {s : ESt} {x a : Nat}
    (h : (enterLoop l k s).vars x = some a) :
    (l.binds x ∧ s.next ≤ a ∧ a < s.next + 1 + k) ∨ s.vars x = some a := by
  rcases setVars_some h with ⟨hx, ha⟩ | h
  · rw [mem_fresh] at ha
    exact Or.inl ⟨Or.inr hx, by omega, by omega⟩
  · by_cases hi : x = l.iv
    · subst hi; rw [setVar_same] at h
      simp only [Option.some.injEq] at h; subst h
      exact Or.inl ⟨Or.inl rfl, le_rfl, by omega⟩
    · rw [setVar_other _ _ hi] at h; exact Or.inr h

theorem enterLoop_isSome {l : LoopNode} {k : Nat} {s : ESt} {x : Nat} (h : (s.vars x).isSome) :
    ((enterLoop l k s).vars x).isSome := by
  refine setVars_isSome ?_
  by_cases hi : x = l.iv
  · subst hi; rw [setVar_same]; rfl
  · rw [setVar_other _ _ hi]; exact h

theorem Step.enter (hC : Closed D roots) {s : ESt} {n : Nat} {l : LoopNode} (k : Nat)
    (h : Stat S D roots P s) (hb : Below D roots n) (hl : D n = .loop l) :
    Step S D roots (fun m => P m ∨ m = n) s (enterLoop l k s) where
  stat := by
    constructor
    · exact h.below
    · intro m ns hm x hx
      exact (h.names m ns hm x hx).trans_le (by simp only [enterLoop]; omega)
    · intro x a hx
      rcases enterLoop_vars hx with hx | hx
      · exact hx.2.2
      · exact (h.vars x a hx).trans_le (by simp only [enterLoop]; omega)
    · intro m ns x hm hf
      exact enterLoop_isSome (h.free m ns x hm hf)
    · exact h.len
    · exact h.ylen
    · intro m l' x hm hl' hx hv
      obtain ⟨a, ha⟩ := Option.isSome_iff_exists.1 hv
      rcases enterLoop_vars ha with ha | ha
      · exact Or.inr (Or.inr (hC.unique m l' n l x hm hb hl' hl hx ha.1))
      · rcases h.opn m l' x hm hl' hx (by rw [ha]; rfl) with h | h
        · exact Or.inl h
        · exact Or.inr (Or.inl h)
  next := by simp only [enterLoop]; omega
  cache := fun _ _ h => h
  vars := fun _ => enterLoop_isSome
  keep := by
    intro ρ env hu ha hlk
    refine ⟨ha, ?_⟩
    intro x a v v' hx hv he
    rcases enterLoop_vars hx with hx | hx
    · have := hu a v hv; omega
    · exact hlk x a v v' hx hv he

/-! ## Lists of children -/

theorem first_get {ns : List Nat} {v : Nat} (h : first ns = some v) : ns[0]? = some v := by
  cases ns <;> simp_all [first]

theorem single_get {ns : List Nat} {v : Nat} (h : single ns = some v) : ns = [v] := by
  match ns, h with
  | [w], h => simpa [single] using h

theorem only_get {r : List V} {v : V} (h : only r = some v) : r = [v] := by
  match r, h with
  | [w], h => simpa [only] using h

/-- The values of the children are in the cache. -/
def Picked (pick : List Nat → Option Nat) (s : ESt) (cs names : List Nat) : Prop :=
  List.Forall₂ (fun c x => ∃ ns, s.cache c = some ns ∧ pick ns = some x) cs names

theorem visitList_step {pick : List Nat → Option Nat} {rec : ESt → Nat → Res O} {cs : List Nat}
    (hrec : ∀ c ∈ cs, ∀ s r, Stat S D roots P s → rec s c = some r →
      Step S D roots P s r.2.2 ∧ r.2.2.cache c = some r.1) :
    ∀ {s : ESt} {q}, Stat S D roots P s → visitList pick rec s cs = some q →
      Step S D roots P s q.2.2 ∧ Picked pick q.2.2 cs q.1 := by
  induction cs with
  | nil =>
    intro s q hs h
    simp only [visitList, Option.some.injEq] at h
    subst h
    exact ⟨Step.refl hs, .nil⟩
  | cons c cs ih =>
    intro s q hs h
    simp only [visitList, Option.bind_eq_some_iff, Option.map_eq_some_iff] at h
    obtain ⟨r, hr, v, hv, q, hq, rfl⟩ := h
    obtain ⟨h1, hc⟩ := hrec c (by simp) s r hs hr
    obtain ⟨h2, hp⟩ := ih (fun d hd => hrec d (by simp [hd])) h1.stat hq
    exact ⟨h1.trans h2, .cons ⟨r.1, h2.cache _ _ hc, hv⟩ hp⟩

theorem Picked.length {pick : List Nat → Option Nat} {s : ESt} {cs names : List Nat}
    (h : Picked pick s cs names) : cs.length = names.length := by
  induction h with
  | nil => rfl
  | cons _ _ ih => simp [ih]

theorem Picked.mem {pick : List Nat → Option Nat} {s : ESt} {cs names : List Nat}
    (h : Picked pick s cs names) {c : Nat} (hc : c ∈ cs) : ∃ ns, s.cache c = some ns := by
  induction h with
  | nil => simp at hc
  | cons h _ ih =>
    rcases List.mem_cons.1 hc with rfl | hc
    · exact ⟨_, h.choose_spec.1⟩
    · exact ih hc

theorem Picked.names {pick : List Nat → Option Nat} (hp : ∀ ns x, pick ns = some x → ns[0]? = some x)
    {s : ESt} (hs : Stat S D roots P s) {cs names : List Nat}
    (h : Picked pick s cs names) {x : Nat} (hx : x ∈ names) : x < s.next := by
  induction h with
  | nil => simp at hx
  | cons h _ ih =>
    rcases List.mem_cons.1 hx with rfl | hx
    · obtain ⟨ns, h1, h2⟩ := h
      exact hs.names _ _ h1 _ (List.mem_of_getElem? (hp _ _ h2))
    · exact ih hx

theorem Picked.get {pick : List Nat → Option Nat} {s : ESt} {cs names : List Nat}
    (h : Picked pick s cs names) {i x : Nat} (hx : names[i]? = some x) :
    ∃ c ns, cs[i]? = some c ∧ s.cache c = some ns ∧ pick ns = some x := by
  induction h generalizing i with
  | nil => simp at hx
  | cons h _ ih =>
    cases i with
    | zero =>
      simp only [List.getElem?_cons_zero, Option.some.injEq] at hx
      subst hx
      exact ⟨_, h.choose, rfl, h.choose_spec⟩
    | succ i => simpa using ih (by simpa using hx)

/-- Values of a yield. -/
theorem holds_yield (hD : Ordered D) {ρ env : Env V} {s : ESt} {n : Nat} {cs names : List Nat}
    (hn : D n = .yield cs) (h : Picked single s cs names) (ha : Agree S D ρ env s) :
    Holds S D ρ env n names := by
  intro i x v hx hv r hr
  obtain ⟨c, ns, hc, hcache, hpick⟩ := h.get hx
  rw [den_eq S hD, denV, hn] at hr
  obtain ⟨w, hw, hf⟩ := allSome_get hr hc
  simp only [Option.bind_eq_some_iff] at hf
  obtain ⟨d, hd, ho⟩ := hf
  have := ha c ns hcache 0 x v (by rw [single_get hpick]; rfl) hv d hd
  rw [only_get ho] at this
  rw [hw]
  simpa using this

theorem holds_resultAt (hD : Ordered D) {ρ env : Env V} {s : ESt} {n c i x : Nat} {ns : List Nat}
    (hn : D n = .resultAt c i) (hc : s.cache c = some ns) (hx : ns[i]? = some x)
    (ha : Agree S D ρ env s) : Holds S D ρ env n [x] := by
  intro j y v hy hv r hr
  rw [den_eq S hD, denV, hn] at hr
  simp only [Option.bind_eq_some_iff, Option.map_eq_some_iff] at hr
  obtain ⟨d, hd, w, hw, rfl⟩ := hr
  cases j with
  | zero =>
    simp only [List.getElem?_cons_zero, Option.some.injEq] at hy ⊢
    subst hy
    have := ha c ns hc i x v hx hv d hd
    rw [hw] at this
    simpa using this
  | succ j => simp at hy

theorem holds_var (hD : Ordered D) {ρ env : Env V} {vars : Env Nat} {n a : Nat}
    (hn : D n = .var) (ha : vars n = some a) (hl : Link ρ env vars) : Holds S D ρ env n [a] := by
  intro j y v hy hv r hr
  rw [den_eq S hD, denV, hn] at hr
  simp only [Option.map_eq_some_iff] at hr
  obtain ⟨w, hw, rfl⟩ := hr
  cases j with
  | zero =>
    simp only [List.getElem?_cons_zero, Option.some.injEq] at hy ⊢
    subst hy
    exact hl n a v w ha hv hw
  | succ j => simp at hy

end Heir.Emit
