import Verif.Graph.SccModel
import Verif.Graph.Lemmas

/-! # Tarjan's algorithm -/

namespace Heir.Graph

open Relation

variable {V : Type} [LinearOrder V]

namespace Graph

/-- The number of a visited vertex. -/
def Scc.num (st : Scc V) (x : V) : Nat := (st.index x).getD 0

/-- The edges of a graph. -/
def E (g : Graph V) (a b : V) : Prop := b ∈ g.out a

/-- Reachability. -/
abbrev R (g : Graph V) : V → V → Prop := ReflTransGen g.E

/-- The invariant of the search; `G` are the vertices whose visit is not over. -/
structure Inv (g : Graph V) (G : List V) (st : Scc V) : Prop where
  cur : ∀ x, st.index x ≠ none → st.num x < st.cur
  inj : ∀ x y, st.index x ≠ none → st.index y ≠ none → st.num x = st.num y → x = y
  vert : ∀ x, st.index x ≠ none → x ∈ g.vertices
  sorted : st.stack.Pairwise fun a b => st.num b < st.num a
  seen : ∀ x, st.index x ≠ none ↔ x ∈ st.stack ∨ x ∈ st.result.flatten
  disj : (st.stack ++ st.result.flatten).Nodup
  gray : ∀ x ∈ G, x ∈ st.stack
  black : ∀ x, st.index x ≠ none → x ∉ G → ∀ y, g.E x y → st.index y ≠ none
  up : ∀ x ∈ st.stack, ∀ y ∈ st.stack, st.num x ≤ st.num y → g.R x y
  down : ∀ y ∈ st.stack, ∃ x ∈ G, st.num x ≤ st.num y ∧ g.R y x
  comp : ∀ c ∈ st.result, c ≠ [] ∧ c.Pairwise (· < ·) ∧ ∀ x ∈ c, ∀ y, y ∈ c ↔ g.R x y ∧ g.R y x

/-- What changes during a part of the search. -/
structure Ext (st st' : Scc V) : Prop where
  index : ∀ x, st.index x ≠ none → st'.index x = st.index x
  low : ∀ x, st.index x ≠ none → st'.low x = st.low x
  fresh : ∀ x, st.index x = none → st'.index x ≠ none → st.cur ≤ st'.num x
  cur : st.cur ≤ st'.cur
  result : ∃ r, st'.result = st.result ++ r

/-- The effect of a visit. -/
structure Post (g : Graph V) (G : List V) (st : Scc V) (v : V) (st' : Scc V) (T : List V) : Prop where
  inv : Inv g G st'
  ext : Ext st st'
  stack : st'.stack = T ++ st.stack
  seen : st'.index v ≠ none
  low : (T = [] ∧ st'.low v = st'.num v) ∨ ∃ y ∈ st.stack, st'.num y = st'.low v ∧ g.R v y
  edges : ∀ x ∈ T, ∀ y ∈ st.stack, g.E x y → st'.low v ≤ st'.num y

/-- The state of the loop over the successors. -/
structure Mid (g : Graph V) (G : List V) (st : Scc V) (v : V) (P : List V) (s : Scc V) (T : List V) :
    Prop where
  inv : Inv g (v :: G) s
  ext : Ext st s
  stack : s.stack = T ++ v :: st.stack
  index : s.index v = some st.cur
  lowle : s.low v ≤ st.cur
  wit : ∃ y ∈ s.stack, s.num y = s.low v ∧ g.R v y
  edges : ∀ x ∈ T, ∀ y ∈ st.stack, g.E x y → s.low v ≤ s.num y
  done : ∀ w ∈ P, s.index w ≠ none ∧ (w ∈ st.stack → s.low v ≤ s.num w)

theorem num_eq {st st' : Scc V} {x : V} (h : st'.index x = st.index x) : st'.num x = st.num x := by
  simp [Scc.num, h]

theorem Ext.num {st st' : Scc V} (h : Ext st st') {x : V} (hx : st.index x ≠ none) :
    st'.num x = st.num x := num_eq (h.index x hx)

theorem Ext.some {st st' : Scc V} (h : Ext st st') {x : V} (hx : st.index x ≠ none) :
    st'.index x ≠ none := by rw [h.index x hx]; exact hx

theorem Ext.trans {a b c : Scc V} (h : Ext a b) (k : Ext b c) : Ext a c := by
  refine ⟨fun x hx => ?_, fun x hx => ?_, fun x hx hc => ?_, h.cur.trans k.cur, ?_⟩
  · rw [k.index x (h.some hx), h.index x hx]
  · rw [k.low x (h.some hx), h.low x hx]
  · by_cases hb : b.index x = none
    · exact h.cur.trans (k.fresh x hb hc)
    · rw [k.num hb]; exact h.fresh x hx hb
  · obtain ⟨r, hr⟩ := h.result
    obtain ⟨q, hq⟩ := k.result
    exact ⟨r ++ q, by rw [hq, hr, List.append_assoc]⟩

/-- The number of vertices not visited. -/
def unseen (g : Graph V) (st : Scc V) : Nat := (g.vertices.filter fun x => st.index x = none).length

theorem unseen_le {g : Graph V} {st st' : Scc V} (h : Ext st st') : unseen g st' ≤ unseen g st := by
  refine List.Sublist.length_le (List.monotone_filter_right _ fun x hx => ?_)
  simp only [decide_eq_true_eq] at hx ⊢
  by_contra hc
  exact h.some hc hx

theorem filter_lt {α : Type} {p q : α → Bool} {l : List α} (hpq : ∀ x, q x = true → p x = true)
    {a : α} (ha : a ∈ l) (hp : p a = true) (hq : q a = false) :
    (l.filter q).length < (l.filter p).length := by
  induction l with
  | nil => simp at ha
  | cons b l ih =>
    rcases List.mem_cons.1 ha with rfl | ha
    · rw [List.filter_cons_of_pos hp, List.filter_cons_of_neg (by simp [hq]), List.length_cons]
      exact Nat.lt_succ_of_le (List.Sublist.length_le (List.monotone_filter_right _ hpq))
    · have := ih ha
      simp only [List.filter_cons]
      by_cases h1 : q b = true
      · rw [if_pos h1, if_pos (hpq b h1)]; simpa using this
      · rw [if_neg h1]
        split
        · exact this.trans (by simp)
        · exact this

theorem unseen_visit {g : Graph V} {st : Scc V} {v : V} (hv : v ∈ g.vertices)
    (hn : st.index v = none) : unseen g (st.visit v) < unseen g st := by
  refine filter_lt (fun x hx => ?_) hv (by simpa using hn) (by simp [Scc.visit])
  rw [decide_eq_true_eq] at hx ⊢
  by_cases h : x = v
  · subst h; exact hn
  · rwa [← upd_ne st.index (some st.cur) h]

theorem Inv.lower {g : Graph V} {G : List V} {st : Scc V} (h : Inv g G st) (v : V) (x : Nat) :
    Inv g G (st.lower v x) :=
  ⟨h.cur, h.inj, h.vert, h.sorted, h.seen, h.disj, h.gray, h.black, h.up, h.down, h.comp⟩

theorem ext_visit {st : Scc V} {v : V} (hn : st.index v = none) : Ext st (st.visit v) := by
  refine ⟨fun x hx => ?_, fun x hx => ?_, fun x hx hc => ?_, by simp [Scc.visit], [], by simp [Scc.visit]⟩
  · have : x ≠ v := fun e => hx (e ▸ hn)
    simp [Scc.visit, upd_ne _ _ this]
  · have : x ≠ v := fun e => hx (e ▸ hn)
    simp [Scc.visit, upd_ne _ _ this]
  · have : x = v := by
      by_contra e
      exact hc (by simp only [Scc.visit, upd_ne _ _ e]; exact hx)
    subst this
    simp [Scc.visit, Scc.num]

theorem num_visit (st : Scc V) (v : V) : (st.visit v).num v = st.cur := by simp [Scc.visit, Scc.num]

theorem mid_visit {g : Graph V} {G : List V} {st : Scc V} {v : V} (h : Inv g G st)
    (hv : v ∈ g.vertices) (hn : st.index v = none) (hG : ∀ x ∈ G, g.R x v) :
    Mid g G st v [] (st.visit v) [] := by
  have hext := ext_visit (st := st) hn
  have hidx : (st.visit v).index v = some st.cur := by simp [Scc.visit]
  have hns : v ∉ st.stack := fun hc => (h.seen v).2 (Or.inl hc) hn
  have hnr : v ∉ st.result.flatten := fun hc => (h.seen v).2 (Or.inr hc) hn
  have hst : ∀ x ∈ st.stack, st.index x ≠ none := fun x hx => (h.seen x).2 (Or.inl hx)
  have hcase : ∀ x, (st.visit v).index x ≠ none → x = v ∨ (x ≠ v ∧ st.index x ≠ none) := by
    intro x hx
    by_cases e : x = v
    · exact Or.inl e
    · refine Or.inr ⟨e, ?_⟩
      simpa only [Scc.visit, upd_ne _ _ e] using hx
  have hreach : ∀ x ∈ st.stack, g.R x v := by
    intro x hx
    obtain ⟨y, hy, -, hr⟩ := h.down x hx
    exact hr.trans (hG y hy)
  refine ⟨⟨?_, ?_, ?_, ?_, ?_, ?_, ?_, ?_, ?_, ?_, h.comp⟩, hext, rfl, hidx, ?_, ?_, ?_, ?_⟩
  · intro x hx
    rcases hcase x hx with rfl | ⟨-, hx⟩
    · rw [num_visit]; simp [Scc.visit]
    · rw [hext.num hx]; exact (h.cur x hx).trans (by simp [Scc.visit])
  · intro x y hx hy hxy
    rcases hcase x hx with rfl | ⟨hxv, hx⟩ <;> rcases hcase y hy with rfl | ⟨hyv, hy⟩
    · rfl
    · rw [num_visit, hext.num hy] at hxy
      exact absurd (h.cur y hy) (by omega)
    · rename_i hx'
      rw [num_visit, hext.num hx'] at hxy
      exact absurd (h.cur x hx') (by omega)
    · rw [hext.num hx, hext.num hy] at hxy
      exact h.inj x y hx hy hxy
  · intro x hx
    rcases hcase x hx with rfl | ⟨-, hx⟩
    · exact hv
    · exact h.vert x hx
  · refine List.pairwise_cons.2 ⟨fun x hx => ?_, ?_⟩
    · rw [num_visit, hext.num (hst x hx)]; exact h.cur x (hst x hx)
    · refine h.sorted.imp_of_mem fun {a b} ha hb hab => ?_
      rw [hext.num (hst a ha), hext.num (hst b hb)]; exact hab
  · intro x
    by_cases e : x = v
    · subst e; simp [Scc.visit]
    · simp only [Scc.visit, upd_ne _ _ e, List.mem_cons, e, false_or]
      exact h.seen x
  · simp only [Scc.visit, List.cons_append, List.nodup_cons, List.mem_append]
    exact ⟨by tauto, h.disj⟩
  · intro x hx
    simp only [Scc.visit, List.mem_cons] at hx ⊢
    exact hx.imp_right (h.gray x)
  · intro x hx hxG y hy
    simp only [List.mem_cons, not_or] at hxG
    rcases hcase x hx with rfl | ⟨-, hx⟩
    · exact absurd rfl hxG.1
    · exact hext.some (h.black x hx hxG.2 y hy)
  · intro x hx y hy hxy
    simp only [Scc.visit, List.mem_cons] at hx hy
    rcases hx with rfl | hx <;> rcases hy with rfl | hy
    · exact .refl
    · rw [num_visit, hext.num (hst y hy)] at hxy
      exact absurd (h.cur y (hst y hy)) (by omega)
    · exact hreach x hx
    · rw [hext.num (hst x hx), hext.num (hst y hy)] at hxy
      exact h.up x hx y hy hxy
  · intro y hy
    simp only [Scc.visit, List.mem_cons] at hy
    rcases hy with rfl | hy
    · exact ⟨y, List.mem_cons_self, le_rfl, .refl⟩
    · obtain ⟨x, hx, hxy, hr⟩ := h.down y hy
      refine ⟨x, List.mem_cons_of_mem _ hx, ?_, hr⟩
      rw [hext.num (hst x (h.gray x hx)), hext.num (hst y hy)]
      exact hxy
  · simp [Scc.visit]
  · exact ⟨v, by simp [Scc.visit], by simp [Scc.visit, Scc.num], .refl⟩
  · simp
  · simp

/-- Lowering the number of `v` keeps the loop state. -/
theorem Mid.lower {g : Graph V} {G : List V} {st : Scc V} {v : V} {P : List V} {s : Scc V}
    {T : List V} (h : Mid g G st v P s T) (hn : st.index v = none) (x : Nat)
    (hx : (∃ y ∈ s.stack, s.num y = x ∧ g.R v y) ∨ s.low v ≤ x) :
    Mid g G st v P (s.lower v x) T := by
  have hlow : (s.lower v x).low v = min (s.low v) x := by simp [Scc.lower]
  refine ⟨h.inv.lower v x, ⟨h.ext.index, ?_, h.ext.fresh, h.ext.cur, h.ext.result⟩, h.stack, h.index,
    ?_, ?_, ?_, ?_⟩
  · intro y hy
    have : y ≠ v := fun e => hy (e ▸ hn)
    simp only [Scc.lower, upd_ne _ _ this]
    exact h.ext.low y hy
  · rw [hlow]; exact (Nat.min_le_left _ _).trans h.lowle
  · rcases hx with hx | hx
    · rcases Nat.le_total (s.low v) x with hle | hle
      · rw [hlow, Nat.min_eq_left hle]; exact h.wit
      · rw [hlow, Nat.min_eq_right hle]; exact hx
    · rw [hlow, Nat.min_eq_left hx]; exact h.wit
  · intro a ha y hy e
    rw [hlow]; exact (Nat.min_le_left _ _).trans (h.edges a ha y hy e)
  · intro w hw
    refine ⟨(h.done w hw).1, fun hs => ?_⟩
    rw [hlow]; exact (Nat.min_le_left _ _).trans ((h.done w hw).2 hs)

/-- One more successor that needs no visit. -/
theorem Mid.snoc {g : Graph V} {G : List V} {st : Scc V} {v : V} {P : List V} {s : Scc V}
    {T : List V} (h : Mid g G st v P s T) {w : V} (hw : s.index w ≠ none)
    (hs : w ∈ st.stack → s.low v ≤ s.num w) : Mid g G st v (P ++ [w]) s T := by
  refine ⟨h.inv, h.ext, h.stack, h.index, h.lowle, h.wit, h.edges, fun x hx => ?_⟩
  rcases List.mem_append.1 hx with hx | hx
  · exact h.done x hx
  · rw [List.mem_singleton.1 hx]; exact ⟨hw, hs⟩

theorem mid_edge {g : Graph V} {G : List V} {st : Scc V} {v : V} {P : List V} {s : Scc V} {T : List V}
    (f : Nat)
    (ih : ∀ G v st, Inv g G st → v ∈ g.vertices → st.index v = none → (∀ x ∈ G, g.R x v) →
      unseen g st ≤ f → ∃ st' T, g.dfs f v st = some st' ∧ Post g G st v st' T)
    (hn : st.index v = none) (hst : ∀ x ∈ st.stack, st.index x ≠ none)
    (hG : ∀ x ∈ G, g.R x v) (h : Mid g G st v P s T) {w : V} (hw : w ∈ g.vertices) (e : g.E v w)
    (hf : unseen g s ≤ f) :
    ∃ s' T', Scc.edge (g.dfs f) v s w = some s' ∧ Mid g G st v (P ++ [w]) s' T' ∧
      unseen g s' ≤ f := by
  unfold Scc.edge
  cases hi : s.index w with
  | some i =>
    have hnum : s.num w = i := by simp [Scc.num, hi]
    have hsome : s.index w ≠ none := by simp [hi]
    by_cases hs : w ∈ s.stack
    · refine ⟨s.lower v i, T, by simp [hs], ?_, hf⟩
      refine (h.lower hn i (Or.inl ⟨w, hs, hnum, .single e⟩)).snoc hsome fun _ => ?_
      have : (s.lower v i).num w = i := hnum
      rw [this]
      simp [Scc.lower]
    · refine ⟨s, T, by simp [hs], h.snoc hsome fun hc => ?_, hf⟩
      exact absurd (by rw [h.stack]; simp [hc]) hs
  | none =>
    have hvs : s.index v ≠ none := by simp [h.index]
    obtain ⟨s', T', hd, hp⟩ := ih (v :: G) w s h.inv hw hi (by
      intro x hx
      rcases List.mem_cons.1 hx with rfl | hx
      · exact .single e
      · exact (hG x hx).tail e) hf
    simp only [hd, Option.map_some]
    have hext : Ext st s' := h.ext.trans hp.ext
    have hvlow : s'.low v = s.low v := hp.ext.low v hvs
    have hvnum : s.num v = st.cur := by simp [Scc.num, h.index]
    -- the state before `lowlink[v]` is updated
    have hbase : ∀ x ∈ s.stack, s.index x ≠ none := fun x hx => (h.inv.seen x).2 (Or.inl hx)
    have hsub : ∀ x ∈ st.stack, x ∈ s.stack := fun x hx => by rw [h.stack]; simp [hx]
    have hlowv : s'.num v = st.cur := by rw [hp.ext.num hvs, hvnum]
    set x := s'.low w with hx
    have hlow : (s'.lower v x).low v = min (s.low v) x := by simp [Scc.lower, hvlow]
    refine ⟨s'.lower v x, T' ++ T, rfl, ⟨hp.inv.lower v x,
      ⟨hext.index, ?_, hext.fresh, hext.cur, hext.result⟩, ?_, ?_, ?_, ?_, ?_, ?_⟩, ?_⟩
    · intro y hy
      have : y ≠ v := fun e => hy (e ▸ hn)
      simp only [Scc.lower, upd_ne _ _ this]
      exact hext.low y hy
    · show s'.stack = _
      rw [hp.stack, h.stack, List.append_assoc]
    · show s'.index v = _
      rw [hp.ext.index v hvs, h.index]
    · rw [hlow]; exact (Nat.min_le_left _ _).trans h.lowle
    · rw [hlow]
      have hold : ∃ y ∈ (s'.lower v x).stack, (s'.lower v x).num y = s.low v ∧ g.R v y := by
        obtain ⟨y, hy, hyn, hr⟩ := h.wit
        refine ⟨y, ?_, ?_, hr⟩
        · show y ∈ s'.stack
          rw [hp.stack]; simp [hy]
        · show s'.num y = _
          rw [hp.ext.num (hbase y hy), hyn]
      rcases Nat.le_total (s.low v) x with hle | hle
      · rw [Nat.min_eq_left hle]; exact hold
      · rw [Nat.min_eq_right hle]
        rcases hp.low with ⟨-, hl⟩ | ⟨y, hy, hyn, hr⟩
        · have h1 := hp.ext.fresh w hi hp.seen
          have h2 := h.inv.cur v hvs
          have h3 := h.lowle
          exact absurd hle (by rw [hx, hl]; omega)
        · refine ⟨y, ?_, hyn, hr.head e⟩
          show y ∈ s'.stack
          rw [hp.stack]; simp [hy]
    · intro a ha y hy hay
      rw [hlow]
      show _ ≤ s'.num y
      rcases List.mem_append.1 ha with ha | ha
      · exact (Nat.min_le_right _ _).trans (hp.edges a ha y (hsub y hy) hay)
      · rw [hp.ext.num (hbase y (hsub y hy))]
        exact (Nat.min_le_left _ _).trans (h.edges a ha y hy hay)
    · intro u hu
      rcases List.mem_append.1 hu with hu | hu
      · refine ⟨hp.ext.some (h.done u hu).1, fun hs => ?_⟩
        rw [hlow]
        show _ ≤ s'.num u
        rw [hp.ext.num (h.done u hu).1]
        exact (Nat.min_le_left _ _).trans ((h.done u hu).2 hs)
      · rw [List.mem_singleton.1 hu]
        refine ⟨hp.seen, fun hs => ?_⟩
        exact absurd hi (h.ext.some (hst w hs))
    · exact (unseen_le hp.ext).trans hf

theorem mid_edges {g : Graph V} {G : List V} {st : Scc V} {v : V} (f : Nat)
    (ih : ∀ G v st, Inv g G st → v ∈ g.vertices → st.index v = none → (∀ x ∈ G, g.R x v) →
      unseen g st ≤ f → ∃ st' T, g.dfs f v st = some st' ∧ Post g G st v st' T)
    (hn : st.index v = none) (hst : ∀ x ∈ st.stack, st.index x ≠ none)
    (hG : ∀ x ∈ G, g.R x v) : ∀ (L P : List V) (s : Scc V) (T : List V),
    Mid g G st v P s T → (∀ w ∈ L, w ∈ g.vertices ∧ g.E v w) → unseen g s ≤ f →
    ∃ s' T', L.foldlM (Scc.edge (g.dfs f) v) s = some s' ∧ Mid g G st v (P ++ L) s' T'
  | [], P, s, T, h, _, _ => ⟨s, T, rfl, by simpa using h⟩
  | w :: L, P, s, T, h, hL, hf => by
    obtain ⟨s1, T1, h1, h2, h3⟩ := mid_edge f ih hn hst hG h (hL w List.mem_cons_self).1
      (hL w List.mem_cons_self).2 hf
    obtain ⟨s2, T2, h4, h5⟩ := mid_edges f ih hn hst hG L (P ++ [w]) s1 T1 h2
      (fun x hx => hL x (List.mem_cons_of_mem _ hx)) h3
    refine ⟨s2, T2, ?_, by simpa using h5⟩
    rw [List.foldlM_cons, h1]
    exact h4

theorem popUntil_ok {v : V} : ∀ (T S acc : List V), v ∉ T →
    ∃ c, popUntil v (T ++ v :: S) acc = some (c, S) ∧
      (∀ x, x ∈ c ↔ x ∈ T ∨ x = v ∨ x ∈ acc) ∧
      (acc.Pairwise (· < ·) → c.Pairwise (· < ·))
  | [], S, acc, _ => ⟨ins v acc, by simp [popUntil], by simp, sorted_ins⟩
  | w :: T, S, acc, h => by
    simp only [List.mem_cons, not_or] at h
    obtain ⟨c, h1, h2, h3⟩ := popUntil_ok T S (ins w acc) h.2
    refine ⟨c, ?_, ?_, fun ha => h3 (sorted_ins ha)⟩
    · simp only [List.cons_append, popUntil]
      rw [if_neg (Ne.symm h.1), h1]
    · intro x
      rw [h2, mem_ins, List.mem_cons]
      tauto

/-- The end of a visit. -/
theorem close_ok {g : Graph V} {G : List V} {st : Scc V} {v : V} {s : Scc V} {T : List V}
    (h0 : Inv g G st) (hn : st.index v = none)
    (hG : ∀ x ∈ G, g.R x v) (h : Mid g G st v (g.out v) s T) :
    ∃ st' T', Scc.close v s = some st' ∧ Post g G st v st' T' := by
  have hvs : s.index v ≠ none := by simp [h.index]
  have hvnum : s.num v = st.cur := by simp [Scc.num, h.index]
  have hst : ∀ x ∈ st.stack, st.index x ≠ none := fun x hx => (h0.seen x).2 (Or.inl hx)
  have hss : ∀ x ∈ s.stack, s.index x ≠ none := fun x hx => (h.inv.seen x).2 (Or.inl hx)
  have hGs : ∀ x ∈ G, x ∈ st.stack := h0.gray
  have hnd : (T ++ v :: st.stack).Nodup := by
    have := (List.nodup_append.1 h.inv.disj).1
    rwa [h.stack] at this
  have hnd' := List.nodup_append.1 hnd
  have hvT : v ∉ T := fun hc => hnd'.2.2 v hc v (by simp) rfl
  have hTS : ∀ x ∈ T, x ∉ st.stack := fun x hx hc => hnd'.2.2 x hx x (by simp [hc]) rfl
  have hvS : v ∉ st.stack := (List.nodup_cons.1 hnd'.2.1).1
  have hTG : ∀ x ∈ T, x ∉ v :: G := by
    intro x hx hc
    rcases List.mem_cons.1 hc with rfl | hc
    · exact hvT hx
    · exact hTS x hx (hGs x hc)
  have hTs : ∀ x ∈ T, x ∈ s.stack := fun x hx => by rw [h.stack]; simp [hx]
  have hSs : ∀ x ∈ st.stack, x ∈ s.stack := fun x hx => by rw [h.stack]; simp [hx]
  have hvst : v ∈ s.stack := by rw [h.stack]; simp
  have hnumS : ∀ x ∈ st.stack, s.num x < st.cur := fun x hx => by
    rw [h.ext.num (hst x hx)]; exact h0.cur x (hst x hx)
  have hnumT : ∀ x ∈ T, st.cur < s.num x := fun x hx => by
    have := h.inv.sorted
    rw [h.stack] at this
    rw [← hvnum]
    exact (List.pairwise_append.1 this).2.2 x hx v (by simp)
  -- the successors of the new vertices are visited
  have hsucc : ∀ x, x ∈ T ∨ x = v → ∀ y, g.E x y → s.index y ≠ none ∧
      (y ∈ st.stack → s.low v ≤ s.num y) := by
    intro x hx y e
    rcases hx with hx | rfl
    · exact ⟨h.inv.black x (hss x (hTs x hx)) (hTG x hx) y e, fun hy => h.edges x hx y hy e⟩
    · exact h.done y e
  have hup : ∀ x, x ∈ T ∨ x = v → g.R v x := by
    intro x hx
    rcases hx with hx | rfl
    · exact h.inv.up v hvst x (hTs x hx) (by rw [hvnum]; exact (hnumT x hx).le)
    · exact .refl
  have hdown : ∀ x, x ∈ T ∨ x = v → g.R x v := by
    intro x hx
    rcases hx with hx | rfl
    · obtain ⟨y, hy, -, hr⟩ := h.inv.down x (hTs x hx)
      rcases List.mem_cons.1 hy with rfl | hy
      · exact hr
      · exact hr.trans (hG y hy)
    · exact .refl
  unfold Scc.close
  by_cases hlow : s.low v = st.cur
  · rw [if_pos (by rw [hlow, h.index])]
    obtain ⟨c, hc1, hc2, hc3⟩ := popUntil_ok T st.stack [] hvT
    rw [h.stack, hc1]
    simp only [Option.map_some]
    have hmem : ∀ x, x ∈ c ↔ x ∈ T ∨ x = v := fun x => by rw [hc2]; simp
    -- the component is complete
    have hfull : ∀ z, g.R v z → g.R z v → z ∈ T ∨ z = v := by
      intro z hz
      induction hz with
      | refl => intro _; exact Or.inr rfl
      | tail hb e ih =>
        rename_i b c'
        intro hcv
        have hbm := ih (hcv.head e)
        obtain ⟨h1, h2⟩ := hsucc b hbm c' e
        rcases (h.inv.seen c').1 h1 with h3 | h3
        · rw [h.stack] at h3
          rcases List.mem_append.1 h3 with h3 | h3
          · exact Or.inl h3
          · rcases List.mem_cons.1 h3 with h3 | h3
            · exact Or.inr h3
            · exact absurd (h2 h3) (by have := hnumS c' h3; omega)
        · obtain ⟨d, hd, hcd⟩ := List.mem_flatten.1 h3
          have := ((h.inv.comp d hd).2.2 c' hcd v).2 ⟨hcv, hb.tail e⟩
          exact absurd rfl ((List.nodup_append.1 h.inv.disj).2.2 v hvst v
            (List.mem_flatten.2 ⟨d, hd, this⟩))
    have hmut : ∀ x ∈ c, ∀ y, y ∈ c ↔ g.R x y ∧ g.R y x := by
      intro x hx y
      rw [hmem] at hx ⊢
      constructor
      · intro hy
        exact ⟨(hdown x hx).trans (hup y hy), (hdown y hy).trans (hup x hx)⟩
      · rintro ⟨h1, h2⟩
        exact hfull y ((hup x hx).trans h1) (h2.trans (hdown x hx))
    have hcn : c.Nodup := sorted_nodup (hc3 .nil)
    obtain ⟨r, hr⟩ := h.ext.result
    refine ⟨_, [], rfl, ⟨⟨h.inv.cur, h.inv.inj, h.inv.vert, ?_, ?_, ?_, hGs, ?_, ?_, ?_, ?_⟩, ?_, rfl,
      hvs, Or.inl ⟨rfl, ?_⟩, by simp⟩⟩
    · have := h.inv.sorted
      rw [h.stack] at this
      exact (List.pairwise_cons.1 (List.pairwise_append.1 this).2.1).2
    · intro x
      rw [h.inv.seen x, h.stack]
      simp only [List.flatten_append, List.mem_append, List.mem_cons, List.flatten_cons,
        List.flatten_nil, List.append_nil, hmem]
      tauto
    · have hd := List.nodup_append.1 h.inv.disj
      simp only [List.flatten_append, List.flatten_cons, List.flatten_nil, List.append_nil]
      refine List.nodup_append.2 ⟨(List.nodup_cons.1 hnd'.2.1).2,
        List.nodup_append.2 ⟨hd.2.1, hcn, ?_⟩, ?_⟩
      · intro a ha b hb e
        subst e
        have : a ∈ s.stack := by
          rcases (hmem a).1 hb with hb | rfl
          · exact hTs a hb
          · exact hvst
        exact hd.2.2 a this a ha rfl
      · intro a ha b hb e
        subst e
        rcases List.mem_append.1 hb with hb | hb
        · exact hd.2.2 a (hSs a ha) a hb rfl
        · rcases (hmem a).1 hb with hb | rfl
          · exact hTS a hb ha
          · exact hvS ha
    · intro x hx hxG y e
      by_cases hxv : x = v
      · exact (hsucc x (Or.inr hxv) y e).1
      · exact h.inv.black x hx (by simp [hxv, hxG]) y e
    · intro x hx y hy hxy
      exact h.inv.up x (hSs x hx) y (hSs y hy) hxy
    · intro y hy
      obtain ⟨x, hx, hxy, hr⟩ := h0.down y hy
      refine ⟨x, hx, ?_, hr⟩
      show s.num x ≤ s.num y
      rw [h.ext.num (hst x (hGs x hx)), h.ext.num (hst y hy)]
      exact hxy
    · intro d hd
      rcases List.mem_append.1 hd with hd | hd
      · exact h.inv.comp d hd
      · rw [List.mem_singleton.1 hd]
        exact ⟨List.ne_nil_of_mem ((hmem v).2 (Or.inr rfl)), hc3 .nil, hmut⟩
    · exact ⟨h.ext.index, h.ext.low, h.ext.fresh, h.ext.cur, ⟨r ++ [c], by simp [hr]⟩⟩
    · show s.low v = s.num v
      rw [hlow, hvnum]
  · rw [if_neg (by rw [h.index]; simpa using hlow)]
    have hlt : s.low v < st.cur := lt_of_le_of_ne h.lowle hlow
    obtain ⟨y0, hy0, hy0n, hy0r⟩ := h.wit
    have hy0S : y0 ∈ st.stack := by
      rw [h.stack] at hy0
      rcases List.mem_append.1 hy0 with hc | hc
      · exact absurd (hnumT y0 hc) (by omega)
      · rcases List.mem_cons.1 hc with rfl | hc
        · omega
        · exact hc
    refine ⟨s, T ++ [v], rfl, ⟨⟨h.inv.cur, h.inv.inj, h.inv.vert, h.inv.sorted, h.inv.seen, h.inv.disj,
      fun x hx => hSs x (hGs x hx), ?_, h.inv.up, ?_, h.inv.comp⟩, h.ext, by simp [h.stack], hvs,
      Or.inr ⟨y0, hy0S, hy0n, hy0r⟩, ?_⟩⟩
    · intro x hx hxG y e
      by_cases hxv : x = v
      · exact (hsucc x (Or.inr hxv) y e).1
      · exact h.inv.black x hx (by simp [hxv, hxG]) y e
    · intro y hy
      obtain ⟨x, hx, hxy, hr⟩ := h.inv.down y hy
      rcases List.mem_cons.1 hx with rfl | hx
      · obtain ⟨z, hz, hzy, hzr⟩ := h0.down y0 hy0S
        refine ⟨z, hz, ?_, hr.trans (hy0r.trans hzr)⟩
        rw [← h.ext.num (hst z (hGs z hz)), ← h.ext.num (hst y0 hy0S)] at hzy
        omega
      · exact ⟨x, hx, hxy, hr⟩
    · intro x hx y hy e
      refine (hsucc x ?_ y e).2 hy
      rcases List.mem_append.1 hx with hx | hx
      · exact Or.inl hx
      · exact Or.inr (List.mem_singleton.1 hx)

theorem dfs_ok {g : Graph V} (hg : g.WF) : ∀ (f : Nat) (G : List V) (v : V) (st : Scc V), Inv g G st →
    v ∈ g.vertices → st.index v = none → (∀ x ∈ G, g.R x v) → unseen g st ≤ f →
    ∃ st' T, g.dfs f v st = some st' ∧ Post g G st v st' T
  | 0, G, v, st, _, hv, hn, _, hf => by
    have := unseen_visit hv hn
    omega
  | f + 1, G, v, st, h, hv, hn, hG, hf => by
    have h1 := mid_visit h hv hn hG
    have h2 := unseen_visit hv hn
    obtain ⟨s, T, h3, h4⟩ := mid_edges f (dfs_ok hg f) hn (fun x hx => (h.seen x).2 (Or.inl hx)) hG
      (g.out v) [] _ _ h1 (fun w hw => ⟨(hg.ends v w hw).2, hw⟩) (by omega)
    rw [List.nil_append] at h4
    obtain ⟨st', T', h5, h6⟩ := close_ok h hn hG h4
    refine ⟨st', T', ?_, h6⟩
    have he : g.edgesOutOf v = g.out v := by simp [edgesOutOf, hv]
    simp only [dfs, he, h3, Option.bind_some, h5]

theorem roots_ok {g : Graph V} (hg : g.WF) : ∀ (L : List V) (st : Scc V), Inv g [] st →
    (∀ x ∈ L, x ∈ g.vertices) →
    ∃ st', L.foldlM (root g) st = some st' ∧ Inv g [] st' ∧ Ext st st' ∧ ∀ x ∈ L, st'.index x ≠ none
  | [], st, h, _ => ⟨st, rfl, h, ⟨fun _ _ => rfl, fun _ _ => rfl, fun _ h k => absurd h k, le_rfl, [], by simp⟩,
      by simp⟩
  | v :: L, st, h, hL => by
    have hstep : ∃ s, root g st v = some s ∧ Inv g [] s ∧ Ext st s ∧ s.index v ≠ none := by
      unfold root
      cases hi : st.index v with
      | some i =>
        exact ⟨st, rfl, h, ⟨fun _ _ => rfl, fun _ _ => rfl, fun _ h k => absurd h k, le_rfl, [], by simp⟩,
          by simp [hi]⟩
      | none =>
        obtain ⟨s, T, h1, h2⟩ := dfs_ok hg g.vertices.length [] v st h (hL v List.mem_cons_self) hi
          (by simp) (List.length_filter_le _ _)
        exact ⟨s, h1, h2.inv, h2.ext, h2.seen⟩
    obtain ⟨s, h1, h2, h3, h4⟩ := hstep
    obtain ⟨s', h5, h6, h7, h8⟩ := roots_ok hg L s h2 fun x hx => hL x (List.mem_cons_of_mem _ hx)
    refine ⟨s', by rw [List.foldlM_cons, h1]; exact h5, h6, h3.trans h7, ?_⟩
    intro x hx
    rcases List.mem_cons.1 hx with rfl | hx
    · exact h7.some h4
    · exact h8 x hx

/-- The components. -/
structure Components (g : Graph V) (l : List (List V)) : Prop where
  sorted : ∀ c ∈ l, c ≠ [] ∧ c.Pairwise (· < ·)
  nodup : l.flatten.Nodup
  mem : ∀ v, v ∈ l.flatten ↔ v ∈ g.vertices
  equiv : ∀ c ∈ l, ∀ x ∈ c, ∀ y, y ∈ c ↔ g.R x y ∧ g.R y x

theorem scc_ok {g : Graph V} (hg : g.WF) :
    ∃ l, g.getStronglyConnectedComponents = some l ∧ Components g l := by
  obtain ⟨st, h1, h2, -, h4⟩ := roots_ok hg g.vertices ⟨fun _ => none, fun _ => 0, [], 0, []⟩
    ⟨by simp, by simp, by simp, by simp, by simp, by simp, by simp, by simp, by simp, by simp, by simp⟩
    (fun _ h => h)
  refine ⟨st.result, by simp [getStronglyConnectedComponents, h1], ?_⟩
  have hs : st.stack = [] := by
    rcases hst : st.stack with _ | ⟨a, l⟩
    · rfl
    · obtain ⟨x, hx, -⟩ := h2.down a (by simp [hst])
      simp at hx
  refine ⟨fun c hc => ⟨(h2.comp c hc).1, (h2.comp c hc).2.1⟩, ?_, ?_, fun c hc => (h2.comp c hc).2.2⟩
  · have := h2.disj
    rwa [hs, List.nil_append] at this
  · intro v
    constructor
    · intro hv
      exact h2.vert v ((h2.seen v).2 (Or.inr hv))
    · intro hv
      have := (h2.seen v).1 (h4 v hv)
      simpa [hs] using this

end Graph

end Heir.Graph
