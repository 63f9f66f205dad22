import Verif.Emit.Lemmas3

/-! # A visible value is the value of its node -/

namespace Heir.Emit

open Heir.Dag

variable {V O : Type} {S : Sem V O} {D : Heap O} {roots : List Nat} {P : Nat → Prop}

theorem head_get {r : List V} {v : V} (h : r.head? = some v) : r[0]? = some v := by
  cases r <;> simp_all

theorem vis_sub {ρ : Env V} {xs vis : List Nat} (h : Vis ρ vis) (hs : xs ⊆ vis) : Vis ρ xs :=
  fun x hx => h x (hs hx)

theorem visit_runs (hD : Ordered D) (hC : Closed D roots) {k : Nat} {rec : ESt → Nat → Res O}
    (ig : Good S D roots k rec) (iab : ∀ {n : Nat} {s : ESt} {r},
      rec s n = some r → ∀ m, n < m → r.2.2.cache m = s.cache m) (ih : Runs S D roots k rec) {n : Nat} {s : ESt}
    {r : List Nat × Code O × ESt} {ρ env : Env V} {vis vis' : List Nat} {d : List V} (hnk : n < k + 1)
    (hb : Below D roots n) (hs : Stat S D roots P s) (hP : ∀ m, P m → n < m)
    (hcn : s.cache n = none) (h : visit D rec s n = some r) (hu : Under s.next ρ) (hv : Vis ρ vis)
    (ha : Agree S D ρ env s) (hl : Link ρ env s.vars)
    (hvis : visibleAfter r.2.1 vis = some vis') (hd : den S D env n = some d) :
    ∃ ρ', exec S r.2.1 ρ = some ρ' ∧ Post S D env ρ s.next ρ'
      { r.2.2 with cache := fun m => if m = n then some r.1 else r.2.2.cache m } vis' := by
  have hlt : ∀ c ∈ clearChildren (D n), c < n := hD n
  have hsc : ∀ c ∈ scopeChildren (D n), c < n := fun c hc => hlt c (scope_sub_clear hc)
  have hrec : ∀ c ∈ scopeChildren (D n), ∀ s r, Stat S D roots P s → rec s c = some r →
      Step S D roots P s r.2.2 ∧ r.2.2.cache c = some r.1 := fun c hc s r hs hr =>
    ig c P s r (by have := hsc c hc; omega) (below_child hb hc) hs
      (fun m hm => (hsc c hc).trans (hP m hm)) hr
  have hrun : ∀ c ∈ scopeChildren (D n), ∀ s r (ρ : Env V) vis vis' d, Stat S D roots P s →
      rec s c = some r → Under s.next ρ → Vis ρ vis → Agree S D ρ env s → Link ρ env s.vars →
      visibleAfter r.2.1 vis = some vis' → den S D env c = some d →
      ∃ ρ', exec S r.2.1 ρ = some ρ' ∧ Post S D env ρ s.next ρ' r.2.2 vis' :=
    fun c hc s r ρ vis vis' d hs hr hu hv ha hl hvis hd =>
      ih c P s r ρ env vis vis' d (by have := hsc c hc; omega) (below_child hb hc) hs
        (fun m hm => (hsc c hc).trans (hP m hm)) hr hu hv ha hl hvis hd
  have hden := hd
  rw [den_eq S hD, denV] at hd
  rw [visit] at h
  cases hn : D n with
  | pure o cs =>
    rw [hn] at h hrec hrun hd
    simp only [Option.map_eq_some_iff] at h
    obtain ⟨q, hq, rfl⟩ := h
    simp only [Option.bind_eq_some_iff, Option.map_eq_some_iff] at hd
    obtain ⟨vs, hvs, v, ho, rfl⟩ := hd
    simp only [visitPure, visibleAfter, Option.bind_eq_some_iff] at hvis
    obtain ⟨vis1, hvis1, hvis⟩ := hvis
    split at hvis
    case isFalse => cases hvis
    case isTrue hsub =>
      simp only [Option.some.injEq] at hvis
      subst hvis
      obtain ⟨h1, hp⟩ := visitList_step hrec hs hq
      obtain ⟨ρ1, he1, p1⟩ := visitList_runs hrec hrun hs hq hu hv ha hl hvis1 hvs
      have hread := read_list (fun _ _ => first_get) (fun _ _ => head_get) hp p1.agree hvs
        (vis_sub p1.vis hsub)
      have pd := post_done h1.stat (n := n) (k := 1) p1.under p1.vis p1.agree p1.link hden rfl
      refine ⟨setVar ρ1 q.2.2.next v, by simp [visitPure, exec, he1, hread, ho], pd.vis, pd.under,
        pd.agree, pd.link, fun x hx => ?_⟩
      exact (pd.old x (hx.trans_le h1.next)).trans (p1.old x hx)
  | var =>
    rw [hn] at h
    simp only [Option.map_eq_some_iff] at h
    obtain ⟨a, hva, rfl⟩ := h
    simp only [visibleAfter, Option.some.injEq] at hvis
    subst hvis
    have p0 : Post S D env ρ s.next ρ s vis := ⟨hv, hu, ha, hl, fun _ _ => rfl⟩
    exact ⟨ρ, rfl, post_cache p0 (holds_var hD hn hva hl)⟩
  | ifElse c t e =>
    rw [hn] at h hrec hrun hd
    simp only [Option.bind_eq_some_iff] at h
    obtain ⟨q, hq, cn, hcn', h⟩ := h
    split at h
    case isFalse => cases h
    case isTrue hy =>
      simp only [visitIf, Option.bind_eq_some_iff, Option.map_eq_some_iff] at h
      obtain ⟨qt, hqt, qe, hqe, rfl⟩ := h
      obtain ⟨h1, hc1⟩ := hrec c (by simp [scopeChildren]) s q hs hq
      obtain ⟨h2, hc2⟩ := hrec t (by simp [scopeChildren]) _ qt h1.stat hqt
      obtain ⟨h3, hc3⟩ := hrec e (by simp [scopeChildren]) _ qe h2.stat hqe
      simp only [Option.bind_eq_some_iff] at hd
      obtain ⟨v, ⟨dc, hdc, hhead⟩, b, hbt, hd⟩ := hd
      simp only [visibleAfter, Option.bind_eq_some_iff] at hvis
      obtain ⟨vis1, hvis1, hvis⟩ := hvis
      split at hvis
      case isFalse => cases hvis
      case isTrue hcvis =>
        simp only [Option.bind_eq_some_iff] at hvis
        obtain ⟨vt, hvt, ve, hve, hvis⟩ := hvis
        split at hvis
        case isFalse => cases hvis
        case isTrue hys =>
          simp only [Option.some.injEq] at hvis
          subst hvis
          obtain ⟨hty, hey, hlt1, hlt2⟩ := hys
          rw [fresh_length] at hlt2
          obtain ⟨ρ1, he1, p1⟩ := hrun c (by simp [scopeChildren]) s q ρ vis vis1 dc hs hq hu hv ha hl
            hvis1 hdc
          -- the condition
          obtain ⟨w, hw⟩ := Option.isSome_iff_exists.1 (p1.vis cn hcvis)
          have hwv : w = v := by
            have := p1.agree c q.1 hc1 0 cn w (first_get hcn') hw dc hdc
            rw [head_get hhead] at this
            simpa using this.symm
          subst hwv
          obtain ⟨a2, l2⟩ := h2.keep ρ1 env p1.under p1.agree p1.link
          obtain ⟨a3, l3⟩ := h3.keep ρ1 env (p1.under.mono h2.next) a2 l2
          have hlen : qt.1.length = d.length := by
            cases b
            · rw [h3.stat.len e qe.1 hc3 env d (by simpa using hd), hlt2]
            · rw [h2.stat.len t qt.1 hc2 env d (by simpa using hd)]
          have pd := post_done h3.stat (n := n) (k := qt.1.length)
            (p1.under.mono (h2.next.trans h3.next)) p1.vis a3 l3 hden hlen
          have hexec : exec S (Code.ite (fresh qe.2.2.next qt.1.length) cn qt.2.1 qt.1 qe.2.1 qe.1) ρ1 =
              some (setVars ρ1 (fresh qe.2.2.next qt.1.length) d) := by
            rw [exec, hw, Option.bind_some, hbt, Option.bind_some]
            cases b
            · obtain ⟨ρe, hee, pe⟩ := hrun e (by simp [scopeChildren]) _ qe ρ1 vis1 ve d h2.stat hqe
                (p1.under.mono h2.next) p1.vis a2 l2 hve (by simpa using hd)
              have hr := read_node (pe.agree e qe.1 hc3) (by simpa using hd)
                (h3.stat.len e qe.1 hc3 env d (by simpa using hd)) (vis_sub pe.vis hey)
              simp [hee, hr]
            · obtain ⟨ρt, het, pt⟩ := hrun t (by simp [scopeChildren]) _ qt ρ1 vis1 vt d h1.stat hqt
                p1.under p1.vis p1.agree p1.link hvt (by simpa using hd)
              have hr := read_node (pt.agree t qt.1 hc2) (by simpa using hd)
                (h2.stat.len t qt.1 hc2 env d (by simpa using hd)) (vis_sub pt.vis hty)
              simp [het, hr]
          refine ⟨_, by rw [exec, he1, Option.bind_some, hexec], pd.vis, pd.under, pd.agree, pd.link,
            fun x hx => ?_⟩
          rw [pd.old x (hx.trans_le (h1.next.trans (h2.next.trans h3.next))), p1.old x hx]
  | loop l =>
    rw [hn] at h hrec hrun hd
    simp only [Option.bind_eq_some_iff] at h
    obtain ⟨q, hq, h⟩ := h
    split at h
    case isFalse => cases h
    case isTrue hy =>
      simp only [visitLoop, Option.map_eq_some_iff] at h
      obtain ⟨qb, hqb, rfl⟩ := h
      obtain ⟨h1, hp⟩ := visitList_step hrec hs hq
      have hbn : l.body < n := hlt _ (by rw [hn]; exact body_mem_clear l)
      have hPb : ∀ m, (P m ∨ m = n) → l.body < m := by
        rintro m (hm | rfl)
        · exact hbn.trans (hP m hm)
        · exact hbn
      have h2 := Step.enter hC q.1.length h1.stat hb hn
      obtain ⟨h3, hc3⟩ := ig l.body _ _ qb (by omega) (below_body hb hn) h2.stat hPb hqb
      simp only [Option.bind_eq_some_iff] at hd
      obtain ⟨vals, hvals, is, his, hd⟩ := hd
      simp only [visibleAfter, Option.bind_eq_some_iff] at hvis
      obtain ⟨vis1, hvis1, hvis⟩ := hvis
      split at hvis
      case isFalse => cases hvis
      case isTrue hin =>
        simp only [Option.bind_eq_some_iff] at hvis
        obtain ⟨vb, hvb, hvis⟩ := hvis
        split at hvis
        case isFalse => cases hvis
        case isTrue hys =>
          simp only [Option.some.injEq] at hvis
          subst hvis
          obtain ⟨ρ1, he1, p1⟩ := visitList_runs hrec hrun hs hq hu hv ha hl hvis1 hvals
          have hread := read_list (fun _ _ => first_get) (fun r v h => by rw [only_get h]; rfl) hp
            p1.agree hvals (vis_sub p1.vis hin.1)
          have hvl : vals.length = q.1.length := by
            rw [allSome_length hvals]; exact hp.length
          -- the loop is not in the cache when its body is entered
          have hcn1 : q.2.2.cache n = none :=
            (visitList_above (fun c hc s r hr => iab hr n (hsc c (by rw [hn]; exact hc))) hq).trans hcn
          obtain ⟨a2, l2⟩ := h2.keep ρ1 env p1.under p1.agree p1.link
          obtain ⟨a3, l3⟩ := h3.keep ρ1 env (p1.under.mono h2.next) a2 l2
          have hlen : q.1.length = d.length := by
            rw [den_loop_length hD hn hden]; exact hp.length.symm
          have pd := post_done h3.stat (n := n) (k := q.1.length)
            (p1.under.mono (h2.next.trans h3.next)) p1.vis a3 l3 hden hlen
          have hcarry : carry (fun i vals =>
              (exec S qb.2.1 (setVars (setVar ρ1 q.2.2.next (S.ofInt i))
                (fresh (q.2.2.next + 1) q.1.length) vals)).bind fun ρ' => readAll ρ' qb.1) is vals =
              some d := by
            refine carry_of_denLoop (k := q.1.length) ?_ hvl hd
            intro i ws w hws hw
            split at hw
            case isFalse => cases hw
            case isTrue hcond =>
              simp only [Option.bind_eq_some_iff] at hw
              obtain ⟨w', hw', hwl⟩ := hw
              split at hwl
              case isFalse => cases hwl
              case isTrue hwlen =>
                simp only [Option.some.injEq] at hwl
                subst hwl
                obtain ⟨eu, ev, ea, el⟩ := enter_names h1.stat hD hb hn hcn1 hP p1.under p1.vis
                  p1.agree p1.link i hcond.1
                rw [hws] at eu ev ea el
                obtain ⟨ρb, heb, pb⟩ := ih l.body _ _ qb _ _ _ vb w' (by omega) (below_body hb hn)
                  h2.stat hPb hqb eu ev ea el hvb hw'
                refine ⟨by omega, ?_⟩
                rw [heb, Option.bind_some]
                exact read_node (pb.agree l.body qb.1 hc3) hw'
                  (h3.stat.len l.body qb.1 hc3 _ _ hw') (vis_sub pb.vis hys.1)
          refine ⟨_, ?_, pd.vis, pd.under, pd.agree, pd.link, fun x hx => ?_⟩
          · rw [exec, he1, Option.bind_some, exec, hread, Option.bind_some, inductionValues_of his,
              Option.bind_some, hcarry]
            rfl
          · rw [pd.old x (hx.trans_le (h1.next.trans (h2.next.trans h3.next))), p1.old x hx]
  | yield cs =>
    rw [hn] at h hrec hrun hd
    obtain ⟨h1, hp⟩ := visitList_step hrec hs h
    obtain ⟨ρ1, he1, p1⟩ := visitList_runs hrec hrun hs h hu hv ha hl hvis hd
    exact ⟨ρ1, he1, post_cache p1 (holds_yield hD hn hp p1.agree)⟩
  | resultAt c i =>
    rw [hn] at h hrec hrun hd
    simp only [Option.bind_eq_some_iff, Option.map_eq_some_iff] at h
    obtain ⟨q, hq, x, hx, rfl⟩ := h
    simp only [Option.bind_eq_some_iff] at hd
    obtain ⟨dc, hdc, _⟩ := hd
    obtain ⟨h1, hc⟩ := hrec c (by simp [scopeChildren]) s q hs hq
    obtain ⟨ρ1, he1, p1⟩ := hrun c (by simp [scopeChildren]) s q ρ vis vis' dc hs hq hu hv ha hl
      hvis hdc
    exact ⟨ρ1, he1, post_cache p1 (holds_resultAt hD hn hc hx p1.agree)⟩

theorem process_runs (S : Sem V O) (hD : Ordered D) (hC : Closed D roots) (k : Nat) :
    Runs S D roots k (process D k) := by
  induction k with
  | zero => intro n P s r ρ env vis vis' d hn; omega
  | succ k ih =>
    intro n P s r ρ env vis vis' d hnk hb hs hP h hu hv ha hl hvis hd
    rw [process] at h
    cases hc : s.cache n with
    | some vs =>
      rw [hc] at h
      simp only [Option.some.injEq] at h
      subst h
      simp only [visibleAfter, Option.some.injEq] at hvis
      subst hvis
      exact ⟨ρ, rfl, hv, hu, ha, hl, fun _ _ => rfl⟩
    | none =>
      rw [hc] at h
      simp only [Option.map_eq_some_iff] at h
      obtain ⟨q, hq, rfl⟩ := h
      exact visit_runs hD hC (process_step S hD hC k) (process_above hD k) ih hnk hb hs hP hc hq hu
        hv ha hl hvis hd

end Heir.Emit
