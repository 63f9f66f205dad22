import Verif.Emit.Lemmas2

/-! # Running what a visit makes -/

namespace Heir.Emit

open Heir.Dag

variable {V O : Type} {S : Sem V O} {D : Heap O} {roots : List Nat} {P : Nat → Prop}

/-- Visible names have values. -/
def Vis (ρ : Env V) (vis : List Nat) : Prop := ∀ x ∈ vis, (ρ x).isSome

/-- After running. -/
structure Post (S : Sem V O) (D : Heap O) (env ρ : Env V) (k : Nat) (ρ' : Env V) (s' : ESt)
    (vis' : List Nat) : Prop where
  vis : Vis ρ' vis'
  under : Under s'.next ρ'
  agree : Agree S D ρ' env s'
  link : Link ρ' env s'.vars
  old : ∀ x < k, ρ' x = ρ x

theorem readAll_of {ρ : Env V} {xs : List Nat} {vs : List V} (hl : vs.length = xs.length)
    (h : ∀ (i : Nat) x, xs[i]? = some x → ρ x = vs[i]?) : readAll ρ xs = some vs := by
  induction xs generalizing vs with
  | nil => simp only [List.length_nil, List.length_eq_zero_iff] at hl; subst hl; rfl
  | cons x xs ih =>
    cases vs with
    | nil => simp at hl
    | cons v vs =>
      have h0 := h 0 x rfl
      have h1 := ih (vs := vs) (by simpa using hl) fun i y hy => by
        simpa using h (i + 1) y (by simpa using hy)
      simp only [readAll, h0, h1]
      simp

/-- Names of a node that are visible have its values. -/
theorem read_node {ρ env : Env V} {n : Nat} {ns : List Nat} {r : List V}
    (h : Holds S D ρ env n ns) (hd : den S D env n = some r) (hl : r.length = ns.length)
    (hv : Vis ρ ns) : readAll ρ ns = some r := by
  refine readAll_of hl fun i x hx => ?_
  obtain ⟨v, hv⟩ := Option.isSome_iff_exists.1 (hv x (List.mem_of_getElem? hx))
  rw [h i x v hx hv r hd, hv]

theorem read_list {pick : List Nat → Option Nat} {p : List V → Option V}
    (hpick : ∀ ns x, pick ns = some x → ns[0]? = some x)
    (hp : ∀ r v, p r = some v → r[0]? = some v) {ρ env : Env V} {s : ESt} {cs names : List Nat}
    {vs : List V} (h : Picked pick s cs names) (ha : Agree S D ρ env s)
    (hd : allSome (fun c => (den S D env c).bind p) cs = some vs) (hv : Vis ρ names) :
    readAll ρ names = some vs := by
  refine readAll_of (by rw [allSome_length hd, h.length]) fun i x hx => ?_
  obtain ⟨v, hv⟩ := Option.isSome_iff_exists.1 (hv x (List.mem_of_getElem? hx))
  obtain ⟨c, ns, hc, hcache, hpk⟩ := h.get hx
  obtain ⟨w, hw, hf⟩ := allSome_get hd hc
  simp only [Option.bind_eq_some_iff] at hf
  obtain ⟨d, hd, ho⟩ := hf
  have := ha c ns hcache 0 x v (hpick _ _ hpk) hv d hd
  rw [hp _ _ ho] at this
  rw [hw, hv, ← this]

/-- Results of an operation: new names for the values of the node. -/
theorem post_done {ρ env : Env V} {s : ESt} (hs : Stat S D roots P s) {n k : Nat} {r : List V}
    {vis : List Nat} (hu : Under s.next ρ) (hv : Vis ρ vis) (ha : Agree S D ρ env s)
    (hl : Link ρ env s.vars) (hd : den S D env n = some r) (hk : k = r.length) :
    Post S D env ρ s.next (setVars ρ (fresh s.next k) r) (done s n (fresh s.next k) k)
      (fresh s.next k ++ vis) where
  vis := by
    intro x hx
    rcases List.mem_append.1 hx with hx | hx
    · exact setVars_mem_isSome (by simp [hk]) hx
    · exact setVars_isSome (hv x hx)
  under := by
    intro x v hx
    rcases setVars_some hx with ⟨hx, _⟩ | hx
    · exact (mem_fresh.1 hx).2
    · exact (hu x v hx).trans_le (by simp [done])
  agree := by
    apply agree_done
    · intro m ns hm i x v hx hv' r' hr'
      rw [setVars_fresh_other (hs.names m ns hm x (List.mem_of_getElem? hx))] at hv'
      exact ha m ns hm i x v hx hv' r' hr'
    · intro i x v hx hv' r' hr'
      rw [hd] at hr'
      simp only [Option.some.injEq] at hr'
      subst hr' hk
      rw [setVars_fresh_get hx] at hv'
      exact hv'
  link := by
    intro x a v v' hx hv' he
    rw [setVars_fresh_other (hs.vars x a hx)] at hv'
    exact hl x a v v' hx hv' he
  old := fun x hx => setVars_fresh_other hx

theorem post_cache {ρ env ρ' : Env V} {s : ESt} {n k : Nat} {ns vis : List Nat}
    (h : Post S D env ρ k ρ' s vis) (hn : Holds S D ρ' env n ns) :
    Post S D env ρ k ρ' (done s n ns 0) vis :=
  ⟨h.vis, h.under, agree_done h.agree hn, h.link, h.old⟩

/-- What running a visit gives. -/
def Runs (S : Sem V O) (D : Heap O) (roots : List Nat) (k : Nat) (rec : ESt → Nat → Res O) : Prop :=
  ∀ (n : Nat) (P : Nat → Prop) s r (ρ env : Env V) vis vis' d, n < k → Below D roots n →
    Stat S D roots P s → (∀ m, P m → n < m) → rec s n = some r → Under s.next ρ → Vis ρ vis →
    Agree S D ρ env s → Link ρ env s.vars → visibleAfter r.2.1 vis = some vis' →
    den S D env n = some d →
    ∃ ρ', exec S r.2.1 ρ = some ρ' ∧ Post S D env ρ s.next ρ' r.2.2 vis'

theorem visitList_runs {pick : List Nat → Option Nat} {rec : ESt → Nat → Res O}
    {p : List V → Option V} {cs : List Nat} {env : Env V}
    (hrec : ∀ c ∈ cs, ∀ s r, Stat S D roots P s → rec s c = some r →
      Step S D roots P s r.2.2 ∧ r.2.2.cache c = some r.1)
    (hrun : ∀ c ∈ cs, ∀ s r (ρ : Env V) vis vis' d, Stat S D roots P s → rec s c = some r →
      Under s.next ρ → Vis ρ vis → Agree S D ρ env s → Link ρ env s.vars →
      visibleAfter r.2.1 vis = some vis' → den S D env c = some d →
      ∃ ρ', exec S r.2.1 ρ = some ρ' ∧ Post S D env ρ s.next ρ' r.2.2 vis') :
    ∀ {s : ESt} {q} {ρ : Env V} {vis vis' : List Nat} {vs : List V}, Stat S D roots P s →
      visitList pick rec s cs = some q → Under s.next ρ → Vis ρ vis → Agree S D ρ env s →
      Link ρ env s.vars → visibleAfter q.2.1 vis = some vis' →
      allSome (fun c => (den S D env c).bind p) cs = some vs →
      ∃ ρ', exec S q.2.1 ρ = some ρ' ∧ Post S D env ρ s.next ρ' q.2.2 vis' := by
  induction cs with
  | nil =>
    intro s q ρ vis vis' vs hs h hu hv ha hl hvis hd
    simp only [visitList, Option.some.injEq] at h
    subst h
    simp only [visibleAfter, Option.some.injEq] at hvis
    subst hvis
    exact ⟨ρ, rfl, hv, hu, ha, hl, fun _ _ => rfl⟩
  | cons c cs ih =>
    intro s q ρ vis vis' vs hs h hu hv ha hl hvis hd
    simp only [visitList, Option.bind_eq_some_iff, Option.map_eq_some_iff] at h
    obtain ⟨r, hr, v, _, q, hq, rfl⟩ := h
    simp only [visibleAfter, Option.bind_eq_some_iff] at hvis
    obtain ⟨vis1, hvis1, hvis2⟩ := hvis
    simp only [allSome, Option.bind_eq_some_iff, Option.some.injEq] at hd
    obtain ⟨w, ⟨d, hd, _⟩, ws, hws, rfl⟩ := hd
    obtain ⟨h1, _⟩ := hrec c (by simp) s r hs hr
    obtain ⟨ρ1, he1, p1⟩ := hrun c (by simp) s r ρ vis vis1 d hs hr hu hv ha hl hvis1 hd
    obtain ⟨ρ2, he2, p2⟩ := ih (fun d hd => hrec d (by simp [hd])) (fun d hd => hrun d (by simp [hd]))
      h1.stat hq p1.under p1.vis p1.agree p1.link hvis2 hws
    refine ⟨ρ2, by simp [exec, he1, he2], p2.vis, p2.under, p2.agree, p2.link, fun x hx => ?_⟩
    rw [p2.old x (hx.trans_le h1.next), p1.old x hx]

/-! ## Loops -/

theorem link_set {ρ env : Env V} {vars : Env Nat} {x a : Nat} {v : V} (h : Link ρ env vars)
    (ha : ∀ y b, vars y = some b → b < a) : Link (setVar ρ a v) (setVar env x v) (setVar vars x a) := by
  intro y b w w' hy hb he
  by_cases hx : y = x
  · subst hx
    rw [setVar_same] at hy he
    simp only [Option.some.injEq] at hy he
    subst hy he
    rw [setVar_same] at hb
    simpa using hb
  · rw [setVar_other _ _ hx] at hy he
    have := ha y b hy
    rw [setVar_other _ _ (by omega)] at hb
    exact h y b w w' hy hb he

theorem link_sets {ρ env : Env V} {vars : Env Nat} {xs : List Nat} {vs : List V} {a : Nat}
    (hl : xs.length = vs.length) (h : Link ρ env vars) (ha : ∀ y b, vars y = some b → b < a) :
    Link (setVars ρ (fresh a vs.length) vs) (setVars env xs vs)
      (setVars vars xs (fresh a vs.length)) := by
  induction xs generalizing ρ env vars vs a with
  | nil =>
    simp only [List.length_nil] at hl
    have : vs = [] := List.length_eq_zero_iff.1 hl.symm
    subst this
    simpa [setVars, fresh] using h
  | cons x xs ih =>
    cases vs with
    | nil => simp at hl
    | cons v vs =>
      rw [List.length_cons, fresh_succ]
      simp only [setVars]
      refine ih (by simpa using hl) (link_set h ha) ?_
      intro y b hy
      by_cases hx : y = x
      · subst hx; rw [setVar_same] at hy
        simp only [Option.some.injEq] at hy; omega
      · rw [setVar_other _ _ hx] at hy
        have := ha y b hy; omega

theorem carry_of_denLoop {f g : Int → List V → Option (List V)} {k : Nat}
    (h : ∀ i vals r, vals.length = k → f i vals = some r → r.length = k ∧ g i vals = some r)
    {is : List Int} {vals r : List V} (hk : vals.length = k) (hd : denLoop f is vals = some r) :
    carry g is vals = some r := by
  induction is generalizing vals with
  | nil => simpa [denLoop, carry] using hd
  | cons i is ih =>
    simp only [denLoop, Option.bind_eq_some_iff] at hd
    obtain ⟨w, hw, hd⟩ := hd
    obtain ⟨h1, h2⟩ := h i vals w hk hw
    simp only [carry, h2, Option.bind_some]
    exact ih h1 hd

theorem inductionValues_of {l u s : Int} {is : List Int} (h : tripList l u s = some is) :
    inductionValues l u s = some is := by
  unfold tripList at h
  unfold inductionValues
  split at h
  case isTrue h1 => rw [if_pos h1]; exact h
  case isFalse h1 =>
    split at h
    case isTrue => cases h
    case isFalse h2 =>
      simp only at h
      split at h
      · cases h
      · rw [if_neg h1, if_neg h2]; exact h

/-! ## Visits only cache what is below -/

theorem visitList_above {pick : List Nat → Option Nat} {rec : ESt → Nat → Res O} {cs : List Nat}
    {m : Nat} (hrec : ∀ c ∈ cs, ∀ s r, rec s c = some r → r.2.2.cache m = s.cache m) :
    ∀ {s : ESt} {q}, visitList pick rec s cs = some q → q.2.2.cache m = s.cache m := by
  induction cs with
  | nil =>
    intro s q h
    simp only [visitList, Option.some.injEq] at h
    subst h; rfl
  | cons c cs ih =>
    intro s q h
    simp only [visitList, Option.bind_eq_some_iff, Option.map_eq_some_iff] at h
    obtain ⟨r, hr, v, _, q, hq, rfl⟩ := h
    exact (ih (fun d hd => hrec d (by simp [hd])) hq).trans (hrec c (by simp) s r hr)

theorem process_above (hD : Ordered D) (k : Nat) : ∀ {n : Nat} {s : ESt} {r},
    process D k s n = some r → ∀ m, n < m → r.2.2.cache m = s.cache m := by
  induction k with
  | zero => intro n s r h; cases h
  | succ k ih =>
    intro n s r h m hm
    rw [process] at h
    cases hc : s.cache n with
    | some vs =>
      rw [hc] at h
      simp only [Option.some.injEq] at h
      subst h; rfl
    | none =>
      rw [hc] at h
      simp only [Option.map_eq_some_iff] at h
      obtain ⟨q, hq, rfl⟩ := h
      have hmn : m ≠ n := by omega
      simp only [hmn, if_false]
      have hlt : ∀ c ∈ clearChildren (D n), c < m := fun c hc => (hD n c hc).trans hm
      have hrec : ∀ c ∈ scopeChildren (D n), ∀ s r, process D k s c = some r →
          r.2.2.cache m = s.cache m :=
        fun c hc s r hr => ih hr m (hlt c (scope_sub_clear hc))
      rw [visit] at hq
      cases hn : D n with
      | pure o cs =>
        rw [hn] at hq hrec
        simp only [Option.map_eq_some_iff] at hq
        obtain ⟨p, hp, rfl⟩ := hq
        have := visitList_above hrec hp
        exact this
      | var =>
        rw [hn] at hq
        simp only [Option.map_eq_some_iff] at hq
        obtain ⟨a, _, rfl⟩ := hq
        rfl
      | ifElse c t e =>
        rw [hn] at hq hrec
        simp only [Option.bind_eq_some_iff] at hq
        obtain ⟨p, hp, v, _, hq⟩ := hq
        split at hq
        case isFalse => cases hq
        case isTrue =>
          simp only [visitIf, Option.bind_eq_some_iff, Option.map_eq_some_iff] at hq
          obtain ⟨pt, hpt, pe, hpe, rfl⟩ := hq
          exact ((hrec e (by simp [scopeChildren]) _ _ hpe).trans
            (hrec t (by simp [scopeChildren]) _ _ hpt)).trans
            (hrec c (by simp [scopeChildren]) _ _ hp)
      | loop l =>
        rw [hn] at hq hrec hlt
        simp only [Option.bind_eq_some_iff] at hq
        obtain ⟨p, hp, hq⟩ := hq
        split at hq
        case isFalse => cases hq
        case isTrue =>
          simp only [visitLoop, Option.map_eq_some_iff] at hq
          obtain ⟨pb, hpb, rfl⟩ := hq
          exact (ih hpb m (hlt _ (body_mem_clear l))).trans (visitList_above hrec hp)
      | yield cs =>
        rw [hn] at hq hrec
        exact visitList_above hrec hq
      | resultAt c i =>
        rw [hn] at hq hrec
        simp only [Option.bind_eq_some_iff, Option.map_eq_some_iff] at hq
        obtain ⟨p, hp, x, _, rfl⟩ := hq
        have := hrec c (by simp [scopeChildren]) _ _ hp
        exact this

/-- The names inside the body of a loop. -/
theorem enter_names {ρ env : Env V} {s : ESt} (hs : Stat S D roots P s) (hD : Ordered D) {n : Nat}
    {l : LoopNode} (hb : Below D roots n) (hl : D n = .loop l) (hcn : s.cache n = none)
    (hP : ∀ m, P m → n < m) (hu : Under s.next ρ) {vis : List Nat} (hv : Vis ρ vis)
    (ha : Agree S D ρ env s) (hlk : Link ρ env s.vars) (i : Int) {vals : List V}
    (hlen : l.iterArgs.length = vals.length) :
    let ρ1 := setVars (setVar ρ s.next (S.ofInt i)) (fresh (s.next + 1) vals.length) vals
    let s1 := enterLoop l vals.length s
    let env1 := loopEnv S l env i vals
    Under s1.next ρ1 ∧ Vis ρ1 (s.next :: fresh (s.next + 1) vals.length ++ vis) ∧
      Agree S D ρ1 env1 s1 ∧ Link ρ1 env1 s1.vars := by
  intro ρ1 s1 env1
  refine ⟨?_, ?_, ?_, ?_⟩
  · intro x v hx
    rcases setVars_some hx with ⟨hx, _⟩ | hx
    · have := mem_fresh.1 hx
      simp only [s1, enterLoop]; omega
    · by_cases hn : x = s.next
      · simp only [s1, enterLoop]; omega
      · rw [setVar_other _ _ hn] at hx
        have := hu x v hx
        simp only [s1, enterLoop]; omega
  · intro x hx
    simp only [List.cons_append, List.mem_cons, List.mem_append] at hx
    rcases hx with rfl | hx | hx
    · exact setVars_isSome (by rw [setVar_same]; rfl)
    · exact setVars_mem_isSome (by simp) hx
    · refine setVars_isSome ?_
      by_cases hn : x = s.next
      · subst hn; rw [setVar_same]; rfl
      · rw [setVar_other _ _ hn]; exact hv x hx
  · intro m ns hm j x v hx hv' r hr
    have hlt := hs.names m ns hm x (List.mem_of_getElem? hx)
    simp only [ρ1] at hv'
    rw [setVars_fresh_other (by omega), setVar_other _ _ (by omega)] at hv'
    refine ha m ns hm j x v hx hv' r ?_
    rw [← hr]
    refine den_congr S hD fun y hy => (loopEnv_other S l env i vals ?_).symm
    intro hbind
    rcases hs.opn n l y hb hl hbind (hs.free m ns y hm hy) with h | h
    · rw [hcn] at h; cases h
    · exact absurd (hP n h) (by omega)
  · have : ∀ y b, setVar s.vars l.iv s.next y = some b → b < s.next + 1 := by
      intro y b hy
      by_cases hx : y = l.iv
      · subst hx; rw [setVar_same] at hy
        simp only [Option.some.injEq] at hy; omega
      · rw [setVar_other _ _ hx] at hy
        have := hs.vars y b hy; omega
    exact link_sets hlen (link_set hlk hs.vars) this

end Heir.Emit
