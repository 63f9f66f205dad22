import Verif.Emit.Lemmas4

/-! # Private regions: every name is used where it is visible -/

namespace Heir.Emit

open Heir.Dag

variable {V O : Type} {S : Sem V O} {D : Heap O} {roots : List Nat} {P Open : Nat → Prop}

/-- Nothing that is still to be visited uses `m`. -/
def Blocked (D : Heap O) (roots : List Nat) (Open : Nat → Prop) (s : ESt) (m : Nat) : Prop :=
  ∀ q, Below D roots q → Edge D q m → (s.cache q).isSome ∨ Open q

structure VInv (D : Heap O) (roots : List Nat) (Open : Nat → Prop) (vis : List Nat) (s : ESt) :
    Prop where
  seen : ∀ m ns, s.cache m = some ns → ns ⊆ vis ∨ Blocked D roots Open s m
  vars : ∀ x a, D x = .var → s.vars x = some a → a ∈ vis ∨ Blocked D roots Open s x
  cvar : ∀ m ns, D m = .var → s.cache m = some ns → ∃ a, ns = [a] ∧ s.vars m = some a
  clos : ∀ m c, (s.cache m).isSome → Edge D m c → (s.cache c).isSome

/-- What a visit of `n` gives. -/
structure VPost (D : Heap O) (roots : List Nat) (Open : Nat → Prop) (Below' : Nat → Prop) (s : ESt)
    (vis : List Nat) (r : List Nat × Code O × ESt) (vis' : List Nat) : Prop where
  code : visibleAfter r.2.1 vis = some vis'
  sub : vis ⊆ vis'
  res : r.1 ⊆ vis'
  inv : VInv D roots Open vis' r.2.2
  new : ∀ m, (r.2.2.cache m).isSome → (s.cache m).isSome ∨ Below' m
  newv : ∀ x a, r.2.2.vars x = some a → s.vars x = some a ∨
    ∃ p l, Below D roots p ∧ D p = .loop l ∧ l.binds x ∧ (r.2.2.cache p).isSome

theorem reach_edge {n m c : Nat} (h : Reach D n m) (he : Edge D m c) : Reach D n c := by
  rcases he with he | ⟨l, hl, rfl⟩
  · exact .child h he
  · exact .body h hl

theorem edge_reach {n m c : Nat} (he : Edge D n c) (h : Reach D c m) : Reach D n m :=
  (reach_edge .refl he).trans h

theorem VInv.reach {vis : List Nat} {s : ESt} (h : VInv D roots Open vis s) {n m : Nat}
    (hn : (s.cache n).isSome) (hr : Reach D n m) : (s.cache m).isSome := by
  induction hr with
  | refl => exact hn
  | child _ hc ih => exact h.clos _ _ ih (Or.inl hc)
  | body _ hl ih => exact h.clos _ _ ih (Or.inr ⟨_, hl, rfl⟩)

theorem Blocked.mono {Open' : Nat → Prop} {s s' : ESt} {m : Nat} (h : Blocked D roots Open s m)
    (hc : ∀ q, (s.cache q).isSome → (s'.cache q).isSome ∨ Open' q) (ho : ∀ q, Open q → (s'.cache q).isSome ∨ Open' q) :
    Blocked D roots Open' s' m := by
  intro q hq he
  rcases h q hq he with h | h
  · exact hc q h
  · exact ho q h

/-- The variables of a loop are only used in its body. -/
theorem blocked_of_loop (hC : Closed D roots) {vis : List Nat} {s : ESt} {O' : Nat → Prop}
    (h : VInv D roots O' vis s) {p x : Nat} {l : LoopNode} (hp : Below D roots p)
    (hl : D p = .loop l) (hx : l.binds x) (hv : D x = .var)
    (hb : (s.cache l.body).isSome) (hop : (s.cache p).isSome ∨ Open p) : Blocked D roots Open s x := by
  intro q hq he
  have key : FreeVar D q x → (s.cache q).isSome := fun hf =>
    h.reach hb (reach_of_free hC hq hp hl hx hf)
  rcases he with he | ⟨l', hl', rfl⟩
  · exact Or.inl (key (.child he (.var hv)))
  · by_cases hb' : l'.binds l'.body
    · have := hC.unique q l' p l _ hq hp hl' hl hb' hx
      subst this
      exact hop
    · exact Or.inl (key (.body hl' (.var hv) hb'))

theorem cache_mono {P' : Nat → Prop} {s s' : ESt} (h : Step S D roots P' s s') {m : Nat}
    (hm : (s.cache m).isSome) : (s'.cache m).isSome := by
  obtain ⟨ns, hns⟩ := Option.isSome_iff_exists.1 hm
  rw [h.cache m ns hns]; rfl

theorem VInv.finish {O' : Nat → Prop} {vis vis' : List Nat} {s : ESt} {n : Nat} {ns : List Nat}
    {k : Nat} (h : VInv D roots O' vis s) (hO : ∀ m, O' m → Open m ∨ m = n) (hsub : vis ⊆ vis')
    (hns : ns ⊆ vis') (hc : ∀ c, Edge D n c → (s.cache c).isSome)
    (hvar : D n = .var → ∃ a, ns = [a] ∧ s.vars n = some a) :
    VInv D roots Open vis' (done s n ns k) := by
  have hmono : ∀ q, (s.cache q).isSome → ((done s n ns k).cache q).isSome := by
    intro q hq
    simp only [done]
    split
    · rfl
    · exact hq
  have hbl : ∀ m, Blocked D roots O' s m → Blocked D roots Open (done s n ns k) m := by
    intro m hb
    refine hb.mono (fun q hq => Or.inl (hmono q hq)) fun q hq => ?_
    rcases hO q hq with h | rfl
    · exact Or.inr h
    · left; simp [done]
  constructor
  · intro m ns' hm
    rcases done_cache hm with ⟨rfl, rfl⟩ | hm
    · exact Or.inl hns
    · rcases h.seen m ns' hm with h | h
      · exact Or.inl (List.Subset.trans h hsub)
      · exact Or.inr (hbl m h)
  · intro x a hx ha
    rcases h.vars x a hx ha with h | h
    · exact Or.inl (hsub h)
    · exact Or.inr (hbl x h)
  · intro m ns' hm hm'
    rcases done_cache hm' with ⟨rfl, rfl⟩ | hm'
    · exact hvar hm
    · exact h.cvar m ns' hm hm'
  · intro m c hm he
    apply hmono
    by_cases hmn : m = n
    · subst hmn; exact hc c he
    · exact h.clos m c (by simpa [done, hmn] using hm) he

/-- The end of a region of `n`. -/
theorem VInv.leave (hC : Closed D roots) (hpr : Private D roots) {vis visb : List Nat} {s s2 : ESt}
    {n b : Nat} (hn : Below D roots n) (hreg : Region D n b) (h : VInv D roots Open vis s)
    (h2 : VInv D roots Open visb s2) (hmono : ∀ m ns, s.cache m = some ns → s2.cache m = some ns)
    (hb : (s2.cache b).isSome)
    (hnew : ∀ m, (s2.cache m).isSome → (s.cache m).isSome ∨ Reach D b m)
    (hnewv : ∀ x a, s2.vars x = some a → s.vars x = some a ∨
      ∃ p l, Below D roots p ∧ D p = .loop l ∧ l.binds x ∧ (s2.cache l.body).isSome ∧
        ((s2.cache p).isSome ∨ p = n)) :
    VInv D roots (fun m => Open m ∨ m = n) vis s2 := by
  have hmono' : ∀ m, (s.cache m).isSome → (s2.cache m).isSome := by
    intro m hm
    obtain ⟨ns, hns⟩ := Option.isSome_iff_exists.1 hm
    rw [hmono m ns hns]; rfl
  have hbl : ∀ m, Blocked D roots Open s m → Blocked D roots (fun m => Open m ∨ m = n) s2 m :=
    fun m hb => hb.mono (fun q hq => Or.inl (hmono' q hq)) fun q hq => Or.inr (Or.inl hq)
  have hv : ∀ x a, D x = .var → s2.vars x = some a →
      a ∈ vis ∨ Blocked D roots (fun m => Open m ∨ m = n) s2 x := by
    intro x a hx ha
    rcases hnewv x a ha with ha | ⟨p, l, hp, hl, hbx, hbd, hpc⟩
    · rcases h.vars x a hx ha with h | h
      · exact Or.inl h
      · exact Or.inr (hbl x h)
    · refine Or.inr (blocked_of_loop hC h2 hp hl hbx hx hbd ?_)
      rcases hpc with h | h
      · exact Or.inl h
      · exact Or.inr (Or.inr h)
  constructor
  · intro m ns hm
    by_cases hvar : D m = .var
    · obtain ⟨a, rfl, ha⟩ := h2.cvar m ns hvar hm
      rcases hv m a hvar ha with h | h
      · exact Or.inl (by simpa using h)
      · exact Or.inr h
    · rcases hnew m (by rw [hm]; rfl) with hold | hr
      · obtain ⟨ns', hns'⟩ := Option.isSome_iff_exists.1 hold
        have := hmono m ns' hns'
        rw [hm] at this
        cases this
        rcases h.seen m ns hns' with h | h
        · exact Or.inl h
        · exact Or.inr (hbl m h)
      · right
        intro q hq he
        rcases hpr.own n b m q hn hreg hr hvar hq he with h | ⟨h, _⟩
        · exact Or.inl (h2.reach hb h)
        · exact Or.inr (Or.inr h)
  · exact hv
  · exact h2.cvar
  · exact h2.clos

/-- A child of a node that is being visited is not out of sight. -/
def Sighted (D : Heap O) (vis : List Nat) (s : ESt) (n : Nat) : Prop :=
  (∀ ns, s.cache n = some ns → ns ⊆ vis) ∧ ∀ a, D n = .var → s.vars n = some a → a ∈ vis

theorem VInv.sighted {vis : List Nat} {s : ESt} (h : VInv D roots Open vis s) {n c : Nat}
    (hb : Below D roots n) (hn : s.cache n = none) (ho : ¬ Open n) (he : Edge D n c) :
    Sighted D vis s c := by
  have hbl : ¬ Blocked D roots Open s c := by
    intro hbl
    rcases hbl n hb he with h | h
    · rw [hn] at h; cases h
    · exact ho h
  constructor
  · intro ns hns
    exact (h.seen c ns hns).resolve_right hbl
  · intro a hv ha
    exact (h.vars c a hv ha).resolve_right hbl

/-- What visits give. -/
def Valid (S : Sem V O) (D : Heap O) (roots : List Nat) (k : Nat) (rec : ESt → Nat → Res O) : Prop :=
  ∀ (n : Nat) (P Open : Nat → Prop) s r vis, n < k → Below D roots n → Stat S D roots P s →
    (∀ m, P m → n < m) → (∀ m, Open m → n < m) → VInv D roots Open vis s → Sighted D vis s n →
    rec s n = some r → ∃ vis', VPost D roots Open (Reach D n) s vis r vis'

theorem visitList_valid {pick : List Nat → Option Nat} {rec : ESt → Nat → Res O}
    (hpick : ∀ ns x, pick ns = some x → ns[0]? = some x) {cs : List Nat} {n : Nat}
    (hrec : ∀ c ∈ cs, ∀ s r, Stat S D roots P s → rec s c = some r →
      Step S D roots P s r.2.2 ∧ r.2.2.cache c = some r.1)
    (habove : ∀ c ∈ cs, ∀ s r, rec s c = some r → r.2.2.cache n = s.cache n)
    (hval : ∀ c ∈ cs, ∀ s r vis, Stat S D roots P s → VInv D roots Open vis s → s.cache n = none →
      rec s c = some r → ∃ vis', VPost D roots Open (Reach D c) s vis r vis') :
    ∀ {s : ESt} {q} {vis : List Nat}, Stat S D roots P s → VInv D roots Open vis s →
      s.cache n = none → visitList pick rec s cs = some q →
      ∃ vis', VPost D roots Open (fun m => ∃ c ∈ cs, Reach D c m) s vis q vis' := by
  induction cs with
  | nil =>
    intro s q vis hs hi hn h
    simp only [visitList, Option.some.injEq] at h
    subst h
    exact ⟨vis, rfl, fun _ h => h, by simp, hi, fun m hm => Or.inl hm, fun x a hx => Or.inl hx⟩
  | cons c cs ih =>
    intro s q vis hs hi hn h
    simp only [visitList, Option.bind_eq_some_iff, Option.map_eq_some_iff] at h
    obtain ⟨r, hr, v, hv, q, hq, rfl⟩ := h
    obtain ⟨h1, _⟩ := hrec c (by simp) s r hs hr
    obtain ⟨vis1, p1⟩ := hval c (by simp) s r vis hs hi hn hr
    have hrec' : ∀ d ∈ cs, ∀ s r, Stat S D roots P s → rec s d = some r →
      Step S D roots P s r.2.2 ∧ r.2.2.cache d = some r.1 := fun d hd => hrec d (by simp [hd])
    obtain ⟨vis2, p2⟩ := ih hrec' (fun d hd => habove d (by simp [hd]))
      (fun d hd => hval d (by simp [hd])) h1.stat p1.inv
      ((habove c (by simp) s r hr).trans hn) hq
    obtain ⟨h2, _⟩ := visitList_step hrec' h1.stat hq
    refine ⟨vis2, ?_, fun x hx => p2.sub (p1.sub hx), ?_, p2.inv, ?_, ?_⟩
    · simp only [visibleAfter, p1.code, Option.bind_some, p2.code]
    · intro x hx
      rcases List.mem_cons.1 hx with rfl | hx
      · exact p2.sub (p1.res (List.mem_of_getElem? (hpick _ _ hv)))
      · exact p2.res hx
    · intro m hm
      rcases p2.new m hm with h | ⟨d, hd, h⟩
      · rcases p1.new m h with h | h
        · exact Or.inl h
        · exact Or.inr ⟨c, by simp, h⟩
      · exact Or.inr ⟨d, by simp [hd], h⟩
    · intro x a hx
      rcases p2.newv x a hx with h | h
      · rcases p1.newv x a h with h | ⟨p, l, h1', h2', h3, h4⟩
        · exact Or.inl h
        · exact Or.inr ⟨p, l, h1', h2', h3, cache_mono h2 h4⟩
      · exact Or.inr h

end Heir.Emit
