import Verif.Config.Model
import Mathlib.Data.List.Induction
import Mathlib.Data.List.Basic
import Mathlib.Order.Lattice
import Mathlib.Tactic.Ring

/-! # Lemmas about the configuration of the crypto context -/

namespace Heir.Config

/-! ### The walk over functions -/

/-- The state of the walk. -/
structure Inv (calls : Nat → List Nat) (hit : Nat → Bool) (entry : Nat) (queue done : List Nat) :
    Prop where
  reach : ∀ f, f ∈ queue ∨ f ∈ done → Reaches calls entry f
  start : entry ∈ queue ∨ entry ∈ done
  miss : ∀ f ∈ done, hit f = false
  closed : ∀ f ∈ done, ∀ g ∈ calls f, g ∈ queue ∨ g ∈ done

theorem Inv.step {calls : Nat → List Nat} {hit : Nat → Bool} {entry next : Nat} {queue done : List Nat}
    (h : Inv calls hit entry (next :: queue) done) (hn : hit next = false) :
    Inv calls hit entry (queue ++ pushed calls done next) (next :: done) := by
  have hr : Reaches calls entry next := h.reach next (Or.inl List.mem_cons_self)
  refine ⟨?_, ?_, ?_, ?_⟩
  · intro f hf
    simp only [List.mem_append, pushed, List.mem_filter, List.mem_cons] at hf
    rcases hf with (hf | hf) | hf | hf
    · exact h.reach f (Or.inl (List.mem_cons_of_mem _ hf))
    · exact hr.tail hf.1
    · exact hf ▸ hr
    · exact h.reach f (Or.inr hf)
  · rcases h.start with hs | hs
    · rcases List.mem_cons.1 hs with hs | hs
      · exact Or.inr (hs ▸ List.mem_cons_self)
      · exact Or.inl (List.mem_append_left _ hs)
    · exact Or.inr (List.mem_cons_of_mem _ hs)
  · intro f hf
    rcases List.mem_cons.1 hf with rfl | hf
    · exact hn
    · exact h.miss f hf
  · intro f hf g hg
    rcases List.mem_cons.1 hf with rfl | hf
    · by_cases h1 : g ∈ done
      · exact Or.inr (List.mem_cons_of_mem _ h1)
      · by_cases h2 : g = f
        · exact Or.inr (h2 ▸ List.mem_cons_self)
        · refine Or.inl (List.mem_append_right _ ?_)
          simp [pushed, hg, h1, h2]
    · rcases h.closed f hf g hg with h1 | h1
      · rcases List.mem_cons.1 h1 with rfl | h1
        · exact Or.inr List.mem_cons_self
        · exact Or.inl (List.mem_append_left _ h1)
      · exact Or.inr (List.mem_cons_of_mem _ h1)

theorem walk_sound {calls : Nat → List Nat} {hit : Nat → Bool} {entry : Nat} {k : Nat}
    {queue done : List Nat} {b : Bool} (hi : Inv calls hit entry queue done)
    (h : walk calls hit k queue done = some b) :
    b = true ↔ ∃ f, Reaches calls entry f ∧ hit f = true := by
  have fin : ∀ {done}, Inv calls hit entry [] done → ∀ f, Reaches calls entry f → f ∈ done := by
    intro done hi f h1
    induction h1 with
    | refl => simpa using hi.start
    | tail _ hs ih => simpa using hi.closed _ ih _ hs
  induction k generalizing queue done with
  | zero =>
    cases queue with
    | nil =>
      simp only [walk, Option.some.injEq] at h
      subst h
      refine ⟨by simp, fun ⟨f, h1, h2⟩ => ?_⟩
      rw [hi.miss f (fin hi f h1)] at h2
      simp at h2
    | cons next queue => simp [walk] at h
  | succ k ih =>
    cases queue with
    | nil =>
      simp only [walk, Option.some.injEq] at h
      subst h
      refine ⟨by simp, fun ⟨f, h1, h2⟩ => ?_⟩
      rw [hi.miss f (fin hi f h1)] at h2
      simp at h2
    | cons next queue =>
      rw [walk] at h
      split at h
      · rename_i hn
        simp only [Option.some.injEq] at h
        subst h
        exact ⟨fun _ => ⟨next, hi.reach next (Or.inl List.mem_cons_self), hn⟩, fun _ => rfl⟩
      · rename_i hn
        exact ih (hi.step (by simpa using hn)) h

/-- The functions that are not done. -/
def undone (n : Nat) (done : List Nat) : Nat := ((List.range n).filter fun f => decide (f ∉ done)).length

/-- The place of the first function that is not done. -/
def firstUndone (done : List Nat) : List Nat → Nat
  | [] => 0
  | f :: fs => if f ∈ done then 1 + firstUndone done fs else 0

theorem firstUndone_append {done xs ys : List Nat} (h : ∀ y ∈ ys, y ∉ done) :
    firstUndone done (xs ++ ys) ≤ firstUndone done xs := by
  induction xs with
  | nil =>
    cases ys with
    | nil => simp
    | cons y ys => simp [firstUndone, h y List.mem_cons_self]
  | cons x xs ih =>
    simp only [List.cons_append, firstUndone]
    split <;> omega

theorem firstUndone_congr {done done' : List Nat} (h : ∀ f, f ∈ done ↔ f ∈ done') (xs : List Nat) :
    firstUndone done xs = firstUndone done' xs := by
  induction xs with
  | nil => rfl
  | cons x xs ih => simp only [firstUndone, h x, ih]

theorem filter_lt {p q : Nat → Bool} {l : List Nat} (h : ∀ x ∈ l, q x = true → p x = true) {y : Nat}
    (hy : y ∈ l) (h1 : p y = true) (h2 : q y = false) : (l.filter q).length < (l.filter p).length := by
  induction l with
  | nil => simp at hy
  | cons x xs ih =>
    have hle : (xs.filter q).length ≤ (xs.filter p).length := by
      rw [← List.countP_eq_length_filter, ← List.countP_eq_length_filter]
      exact List.countP_mono_left fun z hz => h z (List.mem_cons_of_mem _ hz)
    rcases List.mem_cons.1 hy with rfl | hy
    · rw [List.filter_cons_of_pos h1, List.filter_cons_of_neg (by simp [h2]), List.length_cons]
      omega
    · have := ih (fun z hz => h z (List.mem_cons_of_mem _ hz)) hy
      have hx := h x List.mem_cons_self
      by_cases hq : q x = true
      · rw [List.filter_cons_of_pos hq, List.filter_cons_of_pos (hx hq), List.length_cons,
          List.length_cons]
        omega
      · rw [List.filter_cons_of_neg hq, List.filter_cons]
        split
        · rw [List.length_cons]; omega
        · exact this

theorem walk_ends {calls : Nat → List Nat} (hit : Nat → Bool) {n : Nat}
    (hn : ∀ f, ∀ g ∈ calls f, g < n) (queue done : List Nat) (hq : ∀ f ∈ queue, f < n) :
    ∃ k b, walk calls hit k queue done = some b := by
  match queue with
  | [] => exact ⟨0, false, rfl⟩
  | next :: queue =>
    by_cases hh : hit next = true
    · exact ⟨1, true, by rw [walk, if_pos hh]⟩
    · have hq' : ∀ f ∈ queue ++ pushed calls done next, f < n := by
        intro f hf
        rcases List.mem_append.1 hf with hf | hf
        · exact hq f (List.mem_cons_of_mem _ hf)
        · exact hn next f (List.mem_filter.1 hf).1
      have hnew : ∀ f ∈ pushed calls done next, f ∉ next :: done := by
        intro f hf
        simp only [pushed, List.mem_filter, Bool.and_eq_true, decide_eq_true_eq] at hf
        simp [hf.2.1, hf.2.2]
      obtain ⟨k, b, h⟩ := walk_ends hit hn (queue ++ pushed calls done next) (next :: done) hq'
      exact ⟨k + 1, b, by rw [walk, if_neg hh]; exact h⟩
termination_by (undone n done, firstUndone done queue)
decreasing_by
  by_cases hd : next ∈ done
  · have hc : ∀ f, f ∈ next :: done ↔ f ∈ done := fun f => by
      rw [List.mem_cons]
      exact ⟨fun h => h.elim (fun h => h ▸ hd) id, Or.inr⟩
    have e1 : undone n (next :: done) = undone n done := by
      unfold undone
      congr 2
      funext f
      rw [decide_eq_decide, hc f]
    rw [e1]
    refine Prod.Lex.right _ ?_
    have h1 := firstUndone_append (xs := queue) hnew
    have h2 := firstUndone_congr hc queue
    simp only [firstUndone, if_pos hd]
    omega
  · refine Prod.Lex.left _ _ ?_
    refine filter_lt (y := next) (fun x _ h => ?_) (List.mem_range.2 (hq next List.mem_cons_self)) (by simpa using hd)
      (by simp)
    simp only [decide_eq_true_eq, List.mem_cons, not_or] at h ⊢
    exact h.2

/-! ### Noise -/

/-- The largest noises of the values of a program. -/
def worst (V K R : Nat) (prog : List Op) : List (Option Nat) :=
  prog.foldl (fun ns op => ns ++ [limit V K R ns op]) []

theorem worst_snoc (V K R : Nat) (pre : List Op) (op : Op) :
    worst V K R (pre ++ [op]) = worst V K R pre ++ [limit V K R (worst V K R pre) op] := by
  simp [worst]

theorem counts_snoc (pre : List Op) (op : Op) :
    counts (pre ++ [op]) = counts pre ++ [transfer (counts pre) op] := by
  simp [counts]

theorem worst_length (V K R : Nat) (prog : List Op) : (worst V K R prog).length = prog.length := by
  induction prog using List.reverseRecOn with
  | nil => rfl
  | append_singleton pre op ih => rw [worst_snoc]; simp [ih]

theorem counts_length (prog : List Op) : (counts prog).length = prog.length := by
  induction prog using List.reverseRecOn with
  | nil => rfl
  | append_singleton pre op ih => rw [counts_snoc]; simp [ih]

theorem noise_snoc {ns : List (Option Nat)} {x : Option Nat} {i : Nat} :
    noise (ns ++ [x]) i = if i < ns.length then noise ns i else if i = ns.length then x else none := by
  unfold noise
  split
  · rename_i h
    rw [List.getElem?_append_left h]
  · split
    · rename_i _ h
      subst h
      simp
    · rw [List.getElem?_eq_none (by simp; omega)]; rfl

theorem state_snoc {st : List (Option Count)} {x : Option Count} {i : Nat} :
    state (st ++ [x]) i = if i < st.length then state st i else if i = st.length then x else none := by
  unfold state
  split
  · rename_i h
    rw [List.getElem?_append_left h]
  · split
    · rename_i _ h
      subst h
      simp
    · rw [List.getElem?_eq_none (by simp; omega)]; rfl

theorem noise_take {ns : List (Option Nat)} {i j : Nat} :
    noise (ns.take i) j = if j < i then noise ns j else none := by
  unfold noise
  rw [List.getElem?_take]
  split <;> rfl

theorem worst_get (V K R : Nat) {prog : List Op} {i : Nat} {op : Op} (h : prog[i]? = some op) :
    noise (worst V K R prog) i = limit V K R ((worst V K R prog).take i) op := by
  induction prog using List.reverseRecOn with
  | nil => simp at h
  | append_singleton pre last ih =>
    rw [worst_snoc, noise_snoc, worst_length]
    split
    · rename_i hi
      rw [List.getElem?_append_left hi] at h
      rw [ih h, List.take_append_of_le_length (by rw [worst_length]; omega)]
    · rename_i hi
      have hlen : i < (pre ++ [last]).length := by
        by_contra hc
        rw [List.getElem?_eq_none (by omega)] at h
        simp at h
      have hi' : i = pre.length := by simp at hlen; omega
      subst hi'
      simp only [List.getElem?_concat_length, Option.some.injEq] at h
      subst h
      rw [if_pos rfl]
      have : (worst V K R pre ++ [limit V K R (worst V K R pre) last]).take pre.length = worst V K R pre := by
        rw [← worst_length V K R pre, List.take_left']
        rfl
      rw [this]

theorem foldl_max_mono : ∀ {xs ys : List Nat}, List.Forall₂ (· ≤ ·) xs ys → ∀ {a b : Nat}, a ≤ b →
    xs.foldl max a ≤ ys.foldl max b
  | _, _, .nil, _, _, h => h
  | _, _, .cons h1 h2, _, _, h => foldl_max_mono h2 (max_le_max h h1)

theorem below_max {xs ys : List Nat} (h : List.Forall₂ (· ≤ ·) xs ys) : Below xs.max? ys.max? := by
  cases h with
  | nil => trivial
  | cons h1 h2 => exact foldl_max_mono h2 h1

theorem below_filterMap {xs ys : List (Option Nat)} (h : ∀ j, Below (noise xs j) (noise ys j))
    (as : List Nat) : List.Forall₂ (· ≤ ·) (as.filterMap (noise xs)) (as.filterMap (noise ys)) := by
  induction as with
  | nil => exact .nil
  | cons a as ih =>
    have ha := h a
    rw [List.filterMap_cons, List.filterMap_cons]
    cases hx : noise xs a <;> cases hy : noise ys a <;> rw [hx, hy] at ha
    · exact ih
    · exact ha.elim
    · exact ha.elim
    · exact .cons ha ih

theorem limit_mono (V K R : Nat) {xs ys : List (Option Nat)} (h : ∀ j, Below (noise xs j) (noise ys j))
    (op : Op) : Below (limit V K R xs op) (limit V K R ys op) := by
  cases op with
  | input => exact Nat.le_refl _
  | plain => trivial
  | add a b =>
    have ha := h a
    have hb := h b
    simp only [limit]
    cases hx : noise xs a <;> cases hy : noise ys a <;> rw [hx, hy] at ha <;>
      first
      | exact ha.elim
      | (cases hz : noise xs b <;> cases hw : noise ys b <;> rw [hz, hw] at hb <;>
          first
          | exact hb.elim
          | (simp only [Below, Option.getD_some, Option.getD_none] at ha hb ⊢ <;> omega))
  | mul a b =>
    have ha := h a
    have hb := h b
    simp only [limit]
    cases hx : noise xs a <;> cases hy : noise ys a <;> rw [hx, hy] at ha <;>
      first
      | exact ha.elim
      | (cases hz : noise xs b <;> cases hw : noise ys b <;> rw [hz, hw] at hb <;>
          first
          | exact hb.elim
          | simp [Below])
  | switch a =>
    have ha := h a
    simp only [limit]
    cases hx : noise xs a <;> cases hy : noise ys a <;> rw [hx, hy] at ha <;>
      first
      | exact ha.elim
      | (simp only [Below, Option.map_some, Option.map_none] at ha ⊢ <;> omega)
  | modReduce a => exact Nat.le_refl _
  | other as => exact below_max (below_filterMap h as)

theorem Below.trans {a b c : Option Nat} (h1 : Below a b) (h2 : Below b c) : Below a c := by
  cases a <;> cases b <;> cases c <;> simp only [Below] at * <;> omega

theorem runs_le {V K R : Nat} {prog : List Op} {ns : List (Option Nat)} (h : Runs V K R prog ns)
    (i : Nat) : Below (noise ns i) (noise (worst V K R prog) i) := by
  induction i using Nat.strongRecOn with
  | _ i ih =>
    cases ho : prog[i]? with
    | none =>
      have hl : prog.length ≤ i := List.getElem?_eq_none_iff.1 ho
      have e1 : noise ns i = none := by
        rw [noise, List.getElem?_eq_none (by rw [h.1]; exact hl)]; rfl
      have e2 : noise (worst V K R prog) i = none := by
        rw [noise, List.getElem?_eq_none (by rw [worst_length]; exact hl)]; rfl
      rw [e1, e2]
      trivial
    | some op =>
      rw [worst_get V K R ho]
      refine (h.2 i op ho).trans (limit_mono V K R (fun j => ?_) op)
      rw [noise_take, noise_take]
      split
      · exact ih j (by assumption)
      · trivial

/-- The noise that counts stand for. -/
def val (V K : Nat) (c : Count) : Nat := c.1 * V + c.2 * K

/-- Reduced ciphertexts are operands of products only, and the first of several ciphertexts of other
operations has the largest counts. -/
def Fine (pre : List Op) : Op → Prop
  | .add a b => (∀ c, pre[a]? ≠ some (.modReduce c)) ∧ ∀ c, pre[b]? ≠ some (.modReduce c)
  | .switch a => ∀ c, pre[a]? ≠ some (.modReduce c)
  | .other as => (∀ a ∈ as, ∀ c, pre[a]? ≠ some (.modReduce c)) ∧
      ∀ f, (as.filterMap (state (counts pre))).head? = some f →
        ∀ c ∈ as.filterMap (state (counts pre)), c.1 ≤ f.1 ∧ c.2 ≤ f.2
  | _ => True

/-- All operations are like this. -/
inductive WellFormed : List Op → Prop
  | nil : WellFormed []
  | snoc {pre op} : WellFormed pre → Fine pre op → WellFormed (pre ++ [op])

theorem max_head (V K : Nat) {l : List Count}
    (h : ∀ f, l.head? = some f → ∀ c ∈ l, c.1 ≤ f.1 ∧ c.2 ≤ f.2) :
    (l.map (val V K)).max? = l.head?.map (val V K) := by
  cases l with
  | nil => rfl
  | cons f rest =>
    have h' := h f rfl
    have : ∀ (m : List Count), (∀ c ∈ m, c.1 ≤ f.1 ∧ c.2 ≤ f.2) →
        (m.map (val V K)).foldl max (val V K f) = val V K f := by
      intro m
      induction m with
      | nil => intro _; rfl
      | cons c m ih =>
        intro hm
        have hc := hm c List.mem_cons_self
        have : val V K c ≤ val V K f :=
          Nat.add_le_add (Nat.mul_le_mul_right _ hc.1) (Nat.mul_le_mul_right _ hc.2)
        rw [List.map_cons, List.foldl_cons, Nat.max_eq_left this]
        exact ih fun x hx => hm x (List.mem_cons_of_mem _ hx)
    rw [List.map_cons, List.head?_cons, Option.map_some, List.max?_cons']
    rw [this rest fun c hc => h' c (List.mem_cons_of_mem _ hc)]

theorem worst_counts (V K R : Nat) {prog : List Op} (h : WellFormed prog) (i : Nat) :
    ((noise (worst V K R prog) i).isSome = (state (counts prog) i).isSome) ∧
    ((∀ c, prog[i]? ≠ some (.modReduce c)) →
      noise (worst V K R prog) i = (state (counts prog) i).map (val V K)) := by
  induction h generalizing i with
  | nil => simp [worst, counts, noise, state]
  | @snoc pre op _ hf ih =>
    rw [worst_snoc, counts_snoc, noise_snoc, state_snoc, worst_length, counts_length]
    by_cases h1 : i < pre.length
    · rw [if_pos h1, if_pos h1, List.getElem?_append_left h1]
      exact ih i
    rw [if_neg h1, if_neg h1]
    by_cases h2 : i = pre.length
    · rw [if_pos h2, if_pos h2, h2, List.getElem?_concat_length]
      have key : (∀ c, op ≠ .modReduce c) →
          limit V K R (worst V K R pre) op = (transfer (counts pre) op).map (val V K) := by
        intro hm
        cases op with
        | input => simp [limit, transfer, val]
        | plain => rfl
        | add a b =>
          have ha := (ih a).2 hf.1
          have hb := (ih b).2 hf.2
          simp only [limit, transfer, ha, hb]
          cases hx : state (counts pre) a <;> cases hy : state (counts pre) b <;>
            simp [val, List.filterMap_cons, *] <;> ring
        | mul a b =>
          have ha := (ih a).1
          have hb := (ih b).1
          have iff : ∀ {x : Option Nat} {y : Option Count}, x.isSome = y.isSome →
              (x = none ↔ y = none) := by
            intro x y h; cases x <;> cases y <;> simp_all
          simp only [limit, transfer, iff ha, iff hb]
          split <;> simp [val]
        | switch a =>
          have ha := (ih a).2 hf
          simp only [limit, transfer, ha]
          cases state (counts pre) a with
          | none => rfl
          | some c => simp only [Option.map_some, val]; congr 1; ring
        | modReduce a => exact absurd rfl (hm a)
        | other as =>
          simp only [limit, transfer]
          rw [← max_head V K hf.2]
          congr 1
          rw [List.map_filterMap]
          refine List.filterMap_congr fun a ha => ?_
          exact (ih a).2 (hf.1 a ha)
      by_cases hm : ∃ c, op = .modReduce c
      · obtain ⟨c, rfl⟩ := hm
        exact ⟨rfl, fun h => absurd rfl (h c)⟩
      · have hm' : ∀ c, op ≠ .modReduce c := fun c hc => hm ⟨c, hc⟩
        rw [key hm']
        exact ⟨by simp, fun _ => rfl⟩
    · rw [if_neg h2, if_neg h2]
      exact ⟨rfl, fun _ => rfl⟩

theorem maxCounts_start (st : List (Option Count)) (start : Count) :
    start.1 ≤ (maxCounts start st).1 ∧ start.2 ≤ (maxCounts start st).2 := by
  induction st generalizing start with
  | nil => exact ⟨Nat.le_refl _, Nat.le_refl _⟩
  | cons c st ih =>
    have := ih (max start.1 (c.getD (0, 0)).1, max start.2 (c.getD (0, 0)).2)
    exact ⟨Nat.le_trans (Nat.le_max_left _ _) this.1, Nat.le_trans (Nat.le_max_left _ _) this.2⟩

theorem maxCounts_ge {st : List (Option Count)} {c : Count} (h : some c ∈ st) (start : Count) :
    c.1 ≤ (maxCounts start st).1 ∧ c.2 ≤ (maxCounts start st).2 := by
  induction st generalizing start with
  | nil => simp at h
  | cons d st ih =>
    rcases List.mem_cons.1 h with rfl | h
    · have := maxCounts_start st (max start.1 c.1, max start.2 c.2)
      exact ⟨Nat.le_trans (Nat.le_max_right _ _) this.1, Nat.le_trans (Nat.le_max_right _ _) this.2⟩
    · exact ih h _

theorem state_mem {st : List (Option Count)} {i : Nat} {c : Count} (h : state st i = some c) :
    some c ∈ st := by
  unfold state at h
  cases hg : st[i]? with
  | none => rw [hg] at h; simp at h
  | some d =>
    rw [hg] at h
    simp only [Option.getD_some] at h
    exact h ▸ List.mem_of_getElem? hg

end Heir.Config
