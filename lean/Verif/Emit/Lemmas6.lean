import Verif.Emit.Lemmas5

/-! # Private regions: the visitor -/

namespace Heir.Emit

open Heir.Dag

variable {V O : Type} {S : Sem V O} {D : Heap O} {roots : List Nat} {P Open : Nat → Prop}

theorem VInv.enter {vis : List Nat} {s : ESt} (hs : Stat S D roots P s) {n : Nat}
    {l : LoopNode} {k : Nat} (hb : Below D roots n) (hl : D n = .loop l) (hcn : s.cache n = none)
    (hP : ∀ m, P m → n < m) (h : VInv D roots Open vis s) :
    VInv D roots Open (s.next :: fresh (s.next + 1) k ++ vis) (enterLoop l k s) := by
  constructor
  · intro m ns hm
    rcases h.seen m ns hm with h | h
    · exact Or.inl fun x hx => List.mem_append.2 (Or.inr (h hx))
    · exact Or.inr h
  · intro x a hx ha
    rcases enterLoop_vars ha with ⟨_, h1, h2⟩ | ha
    · left
      refine List.mem_append.2 (Or.inl ?_)
      by_cases h : a = s.next
      · simp [h]
      · exact List.mem_cons_of_mem _ (mem_fresh.2 (by omega))
    · rcases h.vars x a hx ha with h | h
      · exact Or.inl (List.mem_append.2 (Or.inr h))
      · exact Or.inr h
  · intro m ns hv hm
    obtain ⟨a, rfl, ha⟩ := h.cvar m ns hv hm
    refine ⟨a, rfl, ?_⟩
    have hnb : ¬ l.binds m := by
      intro hbd
      rcases hs.opn n l m hb hl hbd (by rw [ha]; rfl) with h | h
      · rw [hcn] at h; cases h
      · exact absurd (hP n h) (by omega)
    simp only [LoopNode.binds, not_or] at hnb
    simp only [enterLoop]
    rw [setVars_other _ _ hnb.2, setVar_other _ _ hnb.1]
    exact ha
  · exact h.clos

theorem visit_valid (hD : Ordered D) (hC : Closed D roots) (hpr : Private D roots) (har : Arity D roots) {k : Nat}
    {rec : ESt → Nat → Res O}
    (ig : Good S D roots k rec) (iab : ∀ {n : Nat} {s : ESt} {r},
      rec s n = some r → ∀ m, n < m → r.2.2.cache m = s.cache m) (ih : Valid S D roots k rec) {n : Nat}
    {s : ESt} {r : List Nat × Code O × ESt} {vis : List Nat} (hnk : n < k + 1)
    (hb : Below D roots n) (hs : Stat S D roots P s) (hP : ∀ m, P m → n < m)
    (hO : ∀ m, Open m → n < m) (hcn : s.cache n = none) (hi : VInv D roots Open vis s)
    (hsg : Sighted D vis s n) (h : visit D rec s n = some r) :
    ∃ vis', VPost D roots Open (Reach D n) s vis (r.1, r.2.1,
      { r.2.2 with cache := fun m => if m = n then some r.1 else r.2.2.cache m }) vis' := by
  have hlt : ∀ c ∈ clearChildren (D n), c < n := hD n
  have hsc : ∀ c ∈ scopeChildren (D n), c < n := fun c hc => hlt c (scope_sub_clear hc)
  have hOn : ¬ Open n := fun h => absurd (hO n h) (by omega)
  have hrec : ∀ c ∈ scopeChildren (D n), ∀ s r, Stat S D roots P s → rec s c = some r →
      Step S D roots P s r.2.2 ∧ r.2.2.cache c = some r.1 := fun c hc s r hs hr =>
    ig c P s r (by have := hsc c hc; omega) (below_child hb hc) hs
      (fun m hm => (hsc c hc).trans (hP m hm)) hr
  have habove : ∀ c ∈ scopeChildren (D n), ∀ s r, rec s c = some r → r.2.2.cache n = s.cache n :=
    fun c hc s r hr => iab hr n (hsc c hc)
  have hval : ∀ c ∈ scopeChildren (D n), ∀ s r vis, Stat S D roots P s → VInv D roots Open vis s →
      s.cache n = none → rec s c = some r → ∃ vis', VPost D roots Open (Reach D c) s vis r vis' :=
    fun c hc s r vis hs hi hcn hr =>
      ih c P Open s r vis (by have := hsc c hc; omega) (below_child hb hc) hs
        (fun m hm => (hsc c hc).trans (hP m hm)) (fun m hm => (hsc c hc).trans (hO m hm)) hi
        (hi.sighted hb hcn hOn (Or.inl hc)) hr
  -- all but the new entry
  have wrap : ∀ (s1 : ESt) (ns : List Nat) (j : Nat) (m : Nat),
      (∀ m, (s1.cache m).isSome → (s.cache m).isSome ∨ Reach D n m) →
      ((done s1 n ns j).cache m).isSome → (s.cache m).isSome ∨ Reach D n m := by
    intro s1 ns j m hh hm
    by_cases hmn : m = n
    · subst hmn; exact Or.inr .refl
    · exact hh m (by simpa [done, hmn] using hm)
  have dmono : ∀ (s1 : ESt) (ns : List Nat) (j : Nat) (m : Nat), (s1.cache m).isSome →
      ((done s1 n ns j).cache m).isSome := by
    intro s1 ns j m hm
    simp only [done]; split
    · rfl
    · exact hm
  rw [visit] at h
  cases hn : D n with
  | pure o cs =>
    rw [hn] at h hrec hval habove
    simp only [Option.map_eq_some_iff] at h
    obtain ⟨q, hq, rfl⟩ := h
    obtain ⟨h1, hp⟩ := visitList_step hrec hs hq
    obtain ⟨vis1, p1⟩ := visitList_valid (fun _ _ => first_get) hrec habove hval hs hi hcn hq
    refine ⟨q.2.2.next :: vis1, ?_, fun x hx => List.mem_cons_of_mem _ (p1.sub hx), ?_, ?_, ?_, ?_⟩
    · simp [visitPure, visibleAfter, p1.code, p1.res]
    · simp [visitPure]
    · refine p1.inv.finish (k := 1) (ns := [q.2.2.next]) (fun m hm => Or.inl hm)
        (fun x hx => List.mem_cons_of_mem _ hx) (by simp) ?_ ?_
      · rintro c (hc | ⟨l, hl, _⟩)
        · rw [hn] at hc
          obtain ⟨ns, hns⟩ := hp.mem hc
          rw [hns]; rfl
        · rw [hn] at hl; cases hl
      · rw [hn]; intro hl; cases hl
    · intro m hm
      refine wrap q.2.2 [q.2.2.next] 1 m (fun m hm => ?_) hm
      rcases p1.new m hm with h | ⟨c, hc, h⟩
      · exact Or.inl h
      · exact Or.inr (edge_reach (Or.inl (by rw [hn]; exact hc)) h)
    · intro x a hx
      rcases p1.newv x a hx with h | ⟨p, l, h1, h2, h3, h4⟩
      · exact Or.inl h
      · exact Or.inr ⟨p, l, h1, h2, h3, dmono q.2.2 [q.2.2.next] 1 p h4⟩
  | var =>
    rw [hn] at h
    simp only [Option.map_eq_some_iff] at h
    obtain ⟨a, hva, rfl⟩ := h
    have hvis := hsg.2 a hn hva
    refine ⟨vis, rfl, fun _ h => h, by simpa using hvis, ?_, ?_, fun x a hx => Or.inl hx⟩
    · refine hi.finish (k := 0) (ns := [a]) (fun m hm => Or.inl hm) (fun _ h => h)
        (by simpa using hvis) ?_ ?_
      · rintro c (hc | ⟨l, hl, _⟩)
        · rw [hn] at hc; simp [scopeChildren] at hc
        · rw [hn] at hl; cases hl
      · exact fun _ => ⟨a, rfl, hva⟩
    · intro m hm
      exact wrap s [a] 0 m (fun m hm => Or.inl hm) hm
  | ifElse c t e =>
    have hnn := hn
    rw [hn] at h hrec hval habove
    simp only [Option.bind_eq_some_iff] at h
    obtain ⟨q, hq, v, hv, h⟩ := h
    split at h
    case isFalse => cases h
    case isTrue hy =>
      simp only [visitIf, Option.bind_eq_some_iff, Option.map_eq_some_iff] at h
      obtain ⟨qt, hqt, qe, hqe, rfl⟩ := h
      obtain ⟨ct, ce, ht, he, hce⟩ := sameYields_iff hy
      have hmc : c ∈ scopeChildren (.ifElse c t e : Kind O) := by simp [scopeChildren]
      have hmt : t ∈ scopeChildren (.ifElse c t e : Kind O) := by simp [scopeChildren]
      have hme : e ∈ scopeChildren (.ifElse c t e : Kind O) := by simp [scopeChildren]
      obtain ⟨h1, hc1⟩ := hrec c hmc s q hs hq
      obtain ⟨h2, hc2⟩ := hrec t hmt _ qt h1.stat hqt
      obtain ⟨h3, hc3⟩ := hrec e hme _ qe h2.stat hqe
      have hcn1 := (habove c hmc s q hq).trans hcn
      have hcn2 := (habove t hmt _ qt hqt).trans hcn1
      obtain ⟨vis1, p1⟩ := hval c hmc s q vis hs hi hcn hq
      obtain ⟨vist, pt⟩ := hval t hmt _ qt vis1 h1.stat p1.inv hcn1 hqt
      have hen : e < n := hsc e (by rw [hn]; exact hme)
      have htn : t < n := hsc t (by rw [hn]; exact hmt)
      have hregt : Region D n t := Or.inr ⟨c, t, e, hn, Or.inl rfl⟩
      have hrege : Region D n e := Or.inr ⟨c, t, e, hn, Or.inr rfl⟩
      have body_of : ∀ {s2 : ESt} {vv : List Nat} {O' : Nat → Prop}, VInv D roots O' vv s2 →
          ∀ p l, D p = .loop l → (s2.cache p).isSome → (s2.cache l.body).isSome :=
        fun hv p l hl hp => hv.clos p _ hp (Or.inr ⟨l, hl, rfl⟩)
      have i2 := p1.inv.leave hC hpr hb hregt pt.inv h2.cache (by rw [hc2]; rfl) pt.new (by
        intro x a hx
        rcases pt.newv x a hx with h | ⟨p, l, h1, h2, h3, h4⟩
        · exact Or.inl h
        · exact Or.inr ⟨p, l, h1, h2, h3, body_of pt.inv p l h2 h4, Or.inl h4⟩)
      -- the else body has not been used by the then body
      have hse : Sighted D vis1 qt.2.2 e := by
        refine ⟨fun ns hns => ?_, fun a hv _ => by rw [he] at hv; cases hv⟩
        rcases pt.new e (by rw [hns]; rfl) with hold | hr
        · obtain ⟨ns', hns'⟩ := Option.isSome_iff_exists.1 hold
          have := h2.cache e ns' hns'
          rw [hns] at this; cases this
          exact (p1.inv.sighted hb hcn1 hOn (Or.inl (by rw [hn]; exact hme))).1 ns hns'
        · exfalso
          rcases hpr.own n t e n hb hregt hr (by rw [he]; exact fun h => by cases h) hb
            (Or.inl (by rw [hn]; exact hme)) with h | ⟨_, h⟩
          · have := h.le hD; omega
          · exact hpr.branches n c t e hb hn h.symm
      obtain ⟨vise, pe⟩ := ih e P (fun m => Open m ∨ m = n) _ qe vis1 (by omega)
        (below_child hb (by rw [hn]; exact hme)) h2.stat (fun m hm => hen.trans (hP m hm))
        (by rintro m (hm | rfl)
            · exact hen.trans (hO m hm)
            · exact hen) i2 hse hqe
      have i3 := i2.leave hC hpr hb hrege pe.inv h3.cache (by rw [hc3]; rfl) pe.new (by
        intro x a hx
        rcases pe.newv x a hx with h | ⟨p, l, h1, h2, h3, h4⟩
        · exact Or.inl h
        · exact Or.inr ⟨p, l, h1, h2, h3, body_of pe.inv p l h2 h4, Or.inl h4⟩)
      have hlt1 := h2.stat.ylen t _ ct hc2 ht
      have hlt2 := h3.stat.ylen e _ ce hc3 he
      refine ⟨fresh qe.2.2.next qt.1.length ++ vis1, ?_,
        fun x hx => List.mem_append.2 (Or.inr (p1.sub hx)),
        fun x hx => List.mem_append.2 (Or.inl hx), ?_, ?_, ?_⟩
      · have hvm : v ∈ vis1 := p1.res (List.mem_of_getElem? (first_get hv))
        simp only [visibleAfter, p1.code, Option.bind_some, if_pos hvm, pt.code, pe.code]
        rw [if_pos ⟨pt.res, pe.res, by simp, by rw [fresh_length]; omega⟩]
      · refine i3.finish (k := qt.1.length) (ns := fresh qe.2.2.next qt.1.length)
          (fun m hm => by
            rcases hm with (hm | hm) | hm
            · exact Or.inl hm
            · exact Or.inr hm
            · exact Or.inr hm)
          (fun x hx => List.mem_append.2 (Or.inr hx)) (fun x hx => List.mem_append.2 (Or.inl hx)) ?_ ?_
        · rintro d (hd | ⟨l, hl, _⟩)
          · rw [hn] at hd
            simp only [scopeChildren, List.mem_cons, List.not_mem_nil, or_false] at hd
            rcases hd with rfl | rfl | rfl
            · exact cache_mono h3 (cache_mono h2 (by rw [hc1]; rfl))
            · exact cache_mono h3 (by rw [hc2]; rfl)
            · rw [hc3]; rfl
          · rw [hn] at hl; cases hl
        · rw [hn]; intro hl; cases hl
      · intro m hm
        refine wrap qe.2.2 _ qt.1.length m (fun m hm => ?_) hm
        rcases pe.new m hm with h | h
        · rcases pt.new m h with h | h
          · rcases p1.new m h with h | h
            · exact Or.inl h
            · exact Or.inr (edge_reach (Or.inl (by rw [hn]; exact hmc)) h)
          · exact Or.inr (edge_reach (Or.inl (by rw [hn]; exact hmt)) h)
        · exact Or.inr (edge_reach (Or.inl (by rw [hn]; exact hme)) h)
      · intro x a hx
        rcases pe.newv x a hx with h | ⟨p, l, g1, g2, g3, g4⟩
        · rcases pt.newv x a h with h | ⟨p, l, g1, g2, g3, g4⟩
          · rcases p1.newv x a h with h | ⟨p, l, g1, g2, g3, g4⟩
            · exact Or.inl h
            · exact Or.inr ⟨p, l, g1, g2, g3, dmono qe.2.2 _ qt.1.length p
                (cache_mono h3 (cache_mono h2 g4))⟩
          · exact Or.inr ⟨p, l, g1, g2, g3, dmono qe.2.2 _ qt.1.length p (cache_mono h3 g4)⟩
        · exact Or.inr ⟨p, l, g1, g2, g3, dmono qe.2.2 _ qt.1.length p g4⟩
  | loop l =>
    rw [hn] at h hrec hval habove
    simp only [Option.bind_eq_some_iff] at h
    obtain ⟨q, hq, h⟩ := h
    split at h
    case isFalse => cases h
    case isTrue hy =>
      simp only [visitLoop, Option.map_eq_some_iff] at h
      obtain ⟨qb, hqb, rfl⟩ := h
      obtain ⟨h1, hp⟩ := visitList_step hrec hs hq
      obtain ⟨vis1, p1⟩ := visitList_valid (fun _ _ => first_get) hrec habove hval hs hi hcn hq
      have hcn1 : q.2.2.cache n = none := (visitList_above habove hq).trans hcn
      have hbn : l.body < n := hlt _ (by rw [hn]; exact body_mem_clear l)
      have hPb : ∀ m, (P m ∨ m = n) → l.body < m := by
        rintro m (hm | rfl)
        · exact hbn.trans (hP m hm)
        · exact hbn
      have h2 := Step.enter hC q.1.length h1.stat hb hn
      obtain ⟨h3, hc3⟩ := ig l.body _ _ qb (by omega) (below_body hb hn) h2.stat hPb hqb
      have ie := p1.inv.enter (k := q.1.length) h1.stat hb hn hcn1 hP
      have hedge : Edge D n l.body := Or.inr ⟨l, hn, rfl⟩
      obtain ⟨visb, pb⟩ := ih l.body _ Open _ qb _ (by omega) (below_body hb hn) h2.stat hPb
        (fun m hm => hbn.trans (hO m hm)) ie (ie.sighted hb hcn1 hOn hedge) hqb
      have hreg : Region D n l.body := Or.inl ⟨l, hn, rfl⟩
      have i3 := p1.inv.leave (s2 := qb.2.2) hC hpr hb hreg pb.inv h3.cache (by rw [hc3]; rfl) pb.new (by
        intro x a hx
        rcases pb.newv x a hx with h | ⟨p, l', g1, g2, g3, g4⟩
        · rcases enterLoop_vars h with h | h
          · exact Or.inr ⟨n, l, hb, hn, h.1, by rw [hc3]; rfl, Or.inr rfl⟩
          · exact Or.inl h
        · exact Or.inr ⟨p, l', g1, g2, g3, pb.inv.clos p _ g4 (Or.inr ⟨l', g2, rfl⟩), Or.inl g4⟩)
      obtain ⟨cb, hcb, hcl⟩ := yieldSize_some (Option.eq_some_of_isSome hy.2)
      have hyl : qb.1.length = q.1.length := by
        rw [h3.stat.ylen l.body _ cb hc3 hcb, har n l cb hb hn hcb]; exact hp.length
      refine ⟨fresh qb.2.2.next q.1.length ++ vis1, ?_,
        fun x hx => List.mem_append.2 (Or.inr (p1.sub hx)),
        fun x hx => List.mem_append.2 (Or.inl hx), ?_, ?_, ?_⟩
      · have hin : q.1 ⊆ vis1 ∧ (fresh (q.2.2.next + 1) q.1.length).length = q.1.length ∧
            (fresh qb.2.2.next q.1.length).length = q.1.length :=
          ⟨p1.res, by simp, by simp⟩
        simp only [visibleAfter, p1.code, Option.bind_some, if_pos hin, pb.code]
        rw [if_pos ⟨pb.res, hyl⟩]
      · refine i3.finish (k := q.1.length) (ns := fresh qb.2.2.next q.1.length) (fun m hm => hm)
          (fun x hx => List.mem_append.2 (Or.inr hx)) (fun x hx => List.mem_append.2 (Or.inl hx)) ?_ ?_
        · rintro d (hd | ⟨l', hl, rfl⟩)
          · rw [hn] at hd
            obtain ⟨ns, hns⟩ := hp.mem hd
            exact cache_mono h3 (cache_mono h2 (by rw [hns]; rfl))
          · rw [hn] at hl; cases hl; rw [hc3]; rfl
        · rw [hn]; intro hl; cases hl
      · intro m hm
        refine wrap qb.2.2 _ q.1.length m (fun m hm => ?_) hm
        rcases pb.new m hm with h | h
        · rcases p1.new m h with h | ⟨c, hc, h⟩
          · exact Or.inl h
          · exact Or.inr (edge_reach (Or.inl (by rw [hn]; exact hc)) h)
        · exact Or.inr (edge_reach hedge h)
      · intro x a hx
        rcases pb.newv x a hx with h | ⟨p, l', g1, g2, g3, g4⟩
        · rcases enterLoop_vars h with h | h
          · exact Or.inr ⟨n, l, hb, hn, h.1, by simp⟩
          · rcases p1.newv x a h with h | ⟨p, l', g1, g2, g3, g4⟩
            · exact Or.inl h
            · exact Or.inr ⟨p, l', g1, g2, g3, dmono qb.2.2 _ q.1.length p
                (cache_mono h3 (cache_mono h2 g4))⟩
        · exact Or.inr ⟨p, l', g1, g2, g3, dmono qb.2.2 _ q.1.length p g4⟩
  | yield cs =>
    rw [hn] at h hrec hval habove
    obtain ⟨h1, hp⟩ := visitList_step hrec hs h
    obtain ⟨vis1, p1⟩ := visitList_valid (fun _ _ h => by rw [single_get h]; rfl) hrec habove hval hs
      hi hcn h
    refine ⟨vis1, p1.code, p1.sub, p1.res, ?_, ?_, ?_⟩
    · refine p1.inv.finish (k := 0) (ns := r.1) (fun m hm => Or.inl hm) (fun _ h => h) p1.res ?_ ?_
      · rintro c (hc | ⟨l, hl, _⟩)
        · rw [hn] at hc
          obtain ⟨ns, hns⟩ := hp.mem hc
          rw [hns]; rfl
        · rw [hn] at hl; cases hl
      · rw [hn]; intro hl; cases hl
    · intro m hm
      refine wrap r.2.2 r.1 0 m (fun m hm => ?_) hm
      rcases p1.new m hm with h | ⟨c, hc, h⟩
      · exact Or.inl h
      · exact Or.inr (edge_reach (Or.inl (by rw [hn]; exact hc)) h)
    · intro x a hx
      rcases p1.newv x a hx with h | ⟨p, l, h1, h2, h3, h4⟩
      · exact Or.inl h
      · exact Or.inr ⟨p, l, h1, h2, h3, dmono r.2.2 r.1 0 p h4⟩
  | resultAt c i =>
    rw [hn] at h hrec hval habove
    simp only [Option.bind_eq_some_iff, Option.map_eq_some_iff] at h
    obtain ⟨q, hq, x, hx, rfl⟩ := h
    have hmc : c ∈ scopeChildren (.resultAt c i : Kind O) := by simp [scopeChildren]
    obtain ⟨h1, hc1⟩ := hrec c hmc s q hs hq
    obtain ⟨vis1, p1⟩ := hval c hmc s q vis hs hi hcn hq
    have hxm : x ∈ vis1 := p1.res (List.mem_of_getElem? hx)
    refine ⟨vis1, p1.code, p1.sub, by simpa using hxm, ?_, ?_, ?_⟩
    · refine p1.inv.finish (k := 0) (ns := [x]) (fun m hm => Or.inl hm) (fun _ h => h)
        (by simpa using hxm) ?_ ?_
      · rintro d (hd | ⟨l, hl, _⟩)
        · rw [hn] at hd
          simp only [scopeChildren, List.mem_singleton] at hd; subst hd
          rw [hc1]; rfl
        · rw [hn] at hl; cases hl
      · rw [hn]; intro hl; cases hl
    · intro m hm
      refine wrap q.2.2 [x] 0 m (fun m hm => ?_) hm
      rcases p1.new m hm with h | h
      · exact Or.inl h
      · exact Or.inr (edge_reach (Or.inl (by rw [hn]; exact hmc)) h)
    · intro y a hy
      rcases p1.newv y a hy with h | ⟨p, l, h1, h2, h3, h4⟩
      · exact Or.inl h
      · exact Or.inr ⟨p, l, h1, h2, h3, dmono q.2.2 [x] 0 p h4⟩

theorem process_valid (S : Sem V O) (hD : Ordered D) (hC : Closed D roots) (hpr : Private D roots)
    (har : Arity D roots) (k : Nat) : Valid S D roots k (process D k) := by
  induction k with
  | zero => intro n P Open s r vis hn; omega
  | succ k ih =>
    intro n P Open s r vis hnk hb hs hP hO hi hsg h
    rw [process] at h
    cases hc : s.cache n with
    | some vs =>
      rw [hc] at h
      simp only [Option.some.injEq] at h
      subst h
      exact ⟨vis, rfl, fun _ h => h, hsg.1 vs hc, hi, fun m hm => Or.inl hm, fun x a hx => Or.inl hx⟩
    | none =>
      rw [hc] at h
      simp only [Option.map_eq_some_iff] at h
      obtain ⟨q, hq, rfl⟩ := h
      exact visit_valid hD hC hpr har (process_step S hD hC k) (process_above hD k) ih hnk hb hs hP hO
        hc hi hsg hq

end Heir.Emit
