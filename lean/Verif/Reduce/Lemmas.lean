import Verif.Reduce.Spec
import Mathlib.Data.List.GetD
import Mathlib.Tactic.Ring
import Mathlib.Data.Int.ModEq
import Mathlib.Order.Interval.Finset.Nat
import Mathlib.Data.Int.Interval
import Mathlib.Algebra.Order.BigOperators.Group.Finset

namespace Heir.Reduce

variable {R : Type} [CommRing R]

/-! ### Reductions over sets of indices -/

def Name.big {ι : Type} : Name → Finset ι → (ι → R) → R
  | .addi, s, f => ∑ i ∈ s, f i
  | .addf, s, f => ∑ i ∈ s, f i
  | .muli, s, f => ∏ i ∈ s, f i
  | .mulf, s, f => ∏ i ∈ s, f i

def Name.bigL : Name → List R → R
  | .addi, l => l.sum
  | .addf, l => l.sum
  | .muli, l => l.prod
  | .mulf, l => l.prod

theorem Name.apply_assoc (k : Name) (x y z : R) :
    k.apply (k.apply x y) z = k.apply x (k.apply y z) := by
  cases k <;> simp [Name.apply, add_assoc, mul_assoc]

theorem Name.apply_comm (k : Name) (x y : R) : k.apply x y = k.apply y x := by
  cases k <;> simp [Name.apply, add_comm, mul_comm]

theorem Name.apply_nil (k : Name) (x : R) : k.apply x (k.bigL []) = x := by
  cases k <;> simp [Name.apply, Name.bigL]

theorem Name.bigL_append (k : Name) (l l' : List R) :
    k.bigL (l ++ l') = k.apply (k.bigL l) (k.bigL l') := by
  cases k <;> simp [Name.apply, Name.bigL]

theorem Name.bigL_singleton (k : Name) (x : R) : k.bigL [x] = x := by
  cases k <;> simp [Name.bigL]

theorem Name.big_singleton {ι : Type} (k : Name) (i : ι) (f : ι → R) : k.big {i} f = f i := by
  cases k <;> simp [Name.big]

theorem Name.big_union {ι : Type} [DecidableEq ι] (k : Name) {s t : Finset ι} (h : Disjoint s t)
    (f : ι → R) : k.big (s ∪ t) f = k.apply (k.big s f) (k.big t f) := by
  cases k <;> simp [Name.big, Name.apply, Finset.sum_union h, Finset.prod_union h]

theorem Name.big_image {ι κ : Type} [DecidableEq κ] (k : Name) {s : Finset ι} {g : ι → κ}
    (h : Set.InjOn g s) (f : κ → R) : k.big (s.image g) f = k.big s (f ∘ g) := by
  cases k <;> simp [Name.big, Finset.sum_image h, Finset.prod_image h]

theorem Name.big_congr {ι : Type} (k : Name) {s : Finset ι} {f g : ι → R} (h : ∀ i ∈ s, f i = g i) :
    k.big s f = k.big s g := by
  cases k <;> simp [Name.big, Finset.sum_congr rfl h, Finset.prod_congr rfl h]

theorem Name.total_eq (k : Name) (n : Nat) (f : Nat → R) : k.total n f = k.big (Finset.range n) f := by
  cases k <;> rfl

theorem Name.foldl_apply (k : Name) (l : List R) (x : R) :
    l.foldl k.apply x = k.apply x (k.bigL l) := by
  induction l generalizing x with
  | nil => rw [List.foldl_nil, k.apply_nil]
  | cons a l ih =>
    rw [List.foldl_cons, ih, show a :: l = [a] ++ l from rfl, k.bigL_append, k.bigL_singleton,
      k.apply_assoc]

/-! ### Types -/

theorem types_foldl (p : List Inst) (st : List Info) :
    (p.foldl step st).map Info.ty = types p (st.map Info.ty) := by
  induction p generalizing st with
  | nil => rfl
  | cons i p ih =>
    rw [List.foldl_cons, ih, types]
    congr 1
    unfold step
    rw [List.map_append]
    congr 1
    cases i <;> simp [resultTy, typeOf, List.getD_eq_getElem?_getD]

theorem types_run (p : List Inst) : (run p).map Info.ty = types p [] := types_foldl p []

theorem foldl_prefix (p : List Inst) (st : List Info) : st <+: p.foldl step st := by
  induction p generalizing st with
  | nil => exact List.prefix_refl _
  | cons i p ih => exact (List.prefix_append _ _).trans (ih _)

theorem run_prefix (p q : List Inst) : run p <+: run (p ++ q) := by
  unfold run
  rw [List.foldl_append]
  exact foldl_prefix q _

theorem run_length (p : List Inst) : (run p).length = p.length := by
  induction p using List.reverseRecOn with
  | nil => rfl
  | append_singleton p i ih =>
    unfold run at *
    rw [List.foldl_append, List.foldl_cons, List.foldl_nil, step, List.length_append, ih]
    simp

theorem run_snoc (p : List Inst) (i : Inst) : run (p ++ [i]) = step (run p) i := by
  unfold run; rw [List.foldl_append]; rfl

theorem tyAt_run {p q : List Inst} {v : Nat} (h : v < p.length) :
    (types (p ++ q) [])[v]? = some (tyAt (run p) v) := by
  rw [← types_run, List.getElem?_map]
  have hv : v < (run p).length := by rw [run_length]; exact h
  obtain ⟨s, hs⟩ := run_prefix p q
  rw [← hs, List.getElem?_append_left hv]
  unfold tyAt
  rw [List.getElem?_eq_getElem hv]
  rfl

theorem resultTy_run {p q : List Inst} {i : Inst} :
    (types (p ++ i :: q) [])[p.length]? = some (resultTy (run p) i) := by
  rw [show p ++ i :: q = (p ++ [i]) ++ q by simp, tyAt_run (by simp)]
  unfold tyAt
  rw [run_snoc, step, List.getElem?_append_right (by rw [run_length]), run_length]
  simp

theorem redsAt_step_lt {st : List Info} {i : Inst} {v : Nat} (h : v < st.length) :
    redsAt (step st i) v = redsAt st v := by
  unfold redsAt step
  rw [List.getElem?_append_left h]

theorem redsAt_step_eq {st : List Info} {i : Inst} :
    redsAt (step st i) st.length = leafOf st.length (resultTy st i) ++ visit st i := by
  unfold redsAt step
  rw [List.getElem?_append_right (le_refl _)]
  simp

theorem redsAt_ge {st : List Info} {v : Nat} (h : st.length ≤ v) : redsAt st v = [] := by
  unfold redsAt
  rw [List.getElem?_eq_none h]
  rfl

/-! ### The invariant -/

/-- What the analysis knows about a reduction. -/
structure Good (T : List Ty) (env : Nat → Nat → R) (v : Nat) (r : PR) : Prop where
  pos : 0 < r.size
  tensor : T[r.tensor]? = some (.vec r.size)
  nonempty : r.accessed.Nonempty
  range : ∀ i ∈ r.accessed, 0 ≤ i ∧ i < r.size
  ty : (T[v]? = some (.vec r.size) ∧ r.saved = []) ∨ T[v]? = some .scalar
  value : ∀ k, (r.opName = none ∨ r.opName = some k) → ∀ j < r.size, (T[v]? = some .scalar → j = 0) →
    env v j = k.apply (k.big r.accessed fun i => env r.tensor ((i + j) % r.size).toNat)
      (k.bigL (r.saved.map fun u => env u 0))

variable {T : List Ty} {env : Nat → Nat → R}

theorem good_leaf {v n : Nat} (hT : T[v]? = some (.vec n)) (hn : 0 < n) :
    Good T env v (.initializeFromValue v n) := by
  refine ⟨hn, hT, by simp [PR.initializeFromValue], ?_, .inl ⟨hT, rfl⟩, ?_⟩
  · simp [PR.initializeFromValue]; exact hn
  · intro k _ j hj _
    have hj' : j < n := hj
    simp only [PR.initializeFromValue, List.map_nil]
    rw [k.apply_nil, k.big_singleton, zero_add, Int.emod_eq_of_lt (by omega) (by omega),
      Int.toNat_natCast]

theorem rot_injOn {n : Nat} (s : Int) (S : Finset Int) (hS : ∀ i ∈ S, 0 ≤ i ∧ i < n) :
    Set.InjOn (fun i : Int => (i + s) % n) S := by
  intro a ha b hb hab
  have h1 := hS a ha
  have h2 := hS b hb
  have : a ≡ b [ZMOD n] := Int.ModEq.add_right_cancel' s hab
  have := this.eq
  rwa [Int.emod_eq_of_lt h1.1 h1.2, Int.emod_eq_of_lt h2.1 h2.2] at this

theorem good_rotate {src v : Nat} {r : PR} {s : Int} (h : Good T env src r) (hs : 0 ≤ s)
    (hsrc : T[src]? = some (.vec r.size))
    (hv : T[v]? = some (.vec r.size) ∨ T[v]? = some .scalar)
    (hval : ∀ j < r.size, (T[v]? = some .scalar → j = 0) →
      env v j = env src (((j : Int) + s) % r.size).toNat) :
    Good T env v (r.rotate s) := by
  have hn := h.pos
  have himg : (r.rotate s).accessed = r.accessed.image fun i => (i + s) % r.size := by
    unfold PR.rotate
    refine Finset.image_congr fun i hi => ?_
    have := h.range i hi
    exact Int.tmod_eq_emod_of_nonneg (by omega)
  refine ⟨h.pos, h.tensor, ?_, ?_, ?_, ?_⟩
  · rw [himg]; exact h.nonempty.image _
  · intro i hi
    rw [himg] at hi
    obtain ⟨a, -, rfl⟩ := Finset.mem_image.1 hi
    exact ⟨Int.emod_nonneg _ (by omega), Int.emod_lt_of_pos _ (by
      show (0 : Int) < r.size
      omega)⟩
  · exact hv.imp (fun h => ⟨h, rfl⟩) id
  · intro k hk j hj hsc
    have hj' : j < r.size := hj
    rw [hval j hj' hsc]
    have hsaved : r.saved = [] := by
      rcases h.ty with h1 | h1
      · exact h1.2
      · rw [hsrc] at h1; cases h1
    set q := (((j : Int) + s) % r.size).toNat with hq
    have h0 := Int.emod_nonneg ((j : Int) + s) (b := r.size) (by omega)
    have h1 := Int.emod_lt_of_pos ((j : Int) + s) (b := r.size) (by omega)
    rw [h.value k hk q (by omega) (by rw [hsrc]; intro h; cases h), hsaved]
    show k.apply _ _ = k.apply (k.big (r.rotate s).accessed _) (k.bigL [])
    rw [himg, k.big_image (rot_injOn s r.accessed h.range)]
    refine congrArg₂ k.apply ?_ rfl
    refine k.big_congr fun i _ => ?_
    simp only [Function.comp]
    refine congrArg (fun x : Int => env r.tensor x.toNat) ?_
    show (i + q) % (r.size : Int) = ((i + s) % r.size + j) % r.size
    rw [hq, Int.toNat_of_nonneg h0, Int.add_emod_emod, Int.emod_add_emod]
    congr 1; ring

theorem namesAgree_ok {a b : Option Name} {op : Name} (h : PR.namesAgree a b op = true) :
    (a = none ∨ a = some op) ∧ (b = none ∨ b = some op) := by
  unfold PR.namesAgree at h
  cases a <;> cases b
  · simp
  · simp_all
  · simp_all
  · simp only [Bool.and_eq_true, decide_eq_true_eq] at h
    obtain ⟨rfl, rfl⟩ := h
    simp

theorem canJoin_ok {l r : PR} {op : Name} (h : l.canJoin r op = true) :
    l.tensor = r.tensor ∧ ((l.opName = none ∨ l.opName = some op) ∧
      (r.opName = none ∨ r.opName = some op)) ∧ Disjoint l.accessed r.accessed := by
  unfold PR.canJoin at h
  simp only [Bool.and_eq_true, beq_iff_eq, decide_eq_true_eq] at h
  obtain ⟨⟨h1, h2⟩, h3⟩ := h
  refine ⟨h1, namesAgree_ok h2, ?_⟩
  rw [Finset.disjoint_left]
  by_cases hlt : l.accessed.card < r.accessed.card
  · rw [if_pos hlt, if_neg (by omega)] at h3
    exact h3
  · rw [if_neg hlt, if_pos (by omega)] at h3
    exact fun i hi hi' => h3 i hi' hi

theorem good_join {a b v : Nat} {l r : PR} {op : Name} (hl : Good T env a l) (hr : Good T env b r)
    (hj : l.canJoin r op = true) (hab : T[a]? = T[b]?) (hv : T[v]? = T[a]?)
    (hval : ∀ j, env v j = op.apply (env a j) (env b j)) : Good T env v (l.join r op) := by
  obtain ⟨ht, ⟨hn1, hn2⟩, hd⟩ := canJoin_ok hj
  have hsz : r.size = l.size := by
    have h1 := hl.tensor
    have h2 := hr.tensor
    rw [← ht, h1] at h2
    injection h2 with h2; injection h2 with h2; exact h2.symm
  refine ⟨hl.pos, hl.tensor, ?_, ?_, ?_, ?_⟩
  · exact hl.nonempty.mono Finset.subset_union_left
  · intro i hi
    rcases Finset.mem_union.1 hi with hi | hi
    · exact hl.range i hi
    · have := hr.range i hi
      rw [hsz] at this; exact this
  · rcases hl.ty with h1 | h1
    · refine .inl ⟨hv.trans h1.1, ?_⟩
      rcases hr.ty with h2 | h2
      · show l.saved ++ r.saved = []
        rw [h1.2, h2.2]; rfl
      · rw [← hab, h1.1] at h2; cases h2
    · exact .inr (hv.trans h1)
  · intro k hk j hj' hsc
    have hk' : k = op := by
      rcases hk with hk | hk
      · cases hk
      · injection hk with hk; exact hk.symm
    subst hk'
    rw [hval, hl.value k hn1 j hj' (by rwa [← hv]),
      hr.value k hn2 j (by rw [hsz]; exact hj') (by rwa [← hab, ← hv])]
    show _ = k.apply (k.big (l.accessed ∪ r.accessed) fun i => env l.tensor ((i + j) % l.size).toNat)
      (k.bigL ((l.saved ++ r.saved).map fun u => env u 0))
    rw [k.big_union hd, List.map_append, k.bigL_append, ht, hsz, k.apply_assoc, k.apply_assoc]
    congr 1
    rw [← k.apply_assoc, ← k.apply_assoc, k.apply_comm (k.bigL (l.saved.map fun u => env u 0))]

theorem canSave_ok {l : PR} {ty : Ty} {op : Name} (h : l.canSave ty op = true) :
    (l.opName = none ∨ l.opName = some op) ∧ ty = .scalar := by
  unfold PR.canSave at h
  simp only [Bool.and_eq_true, Bool.or_eq_true, decide_eq_true_eq] at h
  refine ⟨h.1, ?_⟩
  cases ty <;> simp_all

theorem good_save {a b v : Nat} {l : PR} {op : Name} (hl : Good T env a l)
    (hj : l.canSave .scalar op = true) (ha : T[a]? = some .scalar) (hv : T[v]? = T[a]?)
    (hval : env v 0 = op.apply (env a 0) (env b 0)) : Good T env v (l.save b op) := by
  obtain ⟨hn, -⟩ := canSave_ok hj
  refine ⟨hl.pos, hl.tensor, hl.nonempty, hl.range, .inr (hv.trans ha), ?_⟩
  intro k hk j hj' hsc
  have hk' : k = op := by
    rcases hk with hk | hk
    · cases hk
    · injection hk with hk; exact hk.symm
  subst hk'
  have hj0 := hsc (hv.trans ha)
  subst hj0
  rw [hval, hl.value k hn 0 hl.pos (fun _ => rfl)]
  show _ = k.apply (k.big l.accessed _) (k.bigL ((l.saved ++ [b]).map fun u => env u 0))
  rw [List.map_append, k.bigL_append, k.apply_assoc]
  congr 2
  exact (k.bigL_singleton _).symm

/-- Every reduction the analysis stores is good. -/
theorem run_good {prog : List Inst} (hv : Valid prog) (hn : NonNeg prog) (hr : Run prog env) :
    ∀ p q, p ++ q = prog →
      (∀ v < p.length, ∀ n, (types prog [])[v]? = some (.vec n) → 0 < n) ∧
      ∀ v, ∀ r ∈ redsAt (run p) v, Good (types prog []) env v r := by
  intro p
  induction p using List.reverseRecOn with
  | nil => 
    intro q _
    refine ⟨fun v hv => by simp at hv, fun v r hr => ?_⟩
    rw [redsAt_ge (by simp [run])] at hr
    simp at hr
  | append_singleton p i ih =>
    intro q hq
    have hq' : p ++ i :: q = prog := by rw [← hq]; simp
    obtain ⟨ihT, ih⟩ := ih (i :: q) hq'
    set T := types prog [] with hT
    have hi : prog[p.length]? = some i := by rw [← hq']; simp
    have hwt := hv _ _ hi
    have hho := hr _ _ hi
    rw [← hT] at hwt hho
    have hty : ∀ v < p.length, T[v]? = some (tyAt (run p) v) := fun v hv => by
      rw [hT, ← hq']; exact tyAt_run hv
    have hres : T[p.length]? = some (resultTy (run p) i) := by
      rw [hT, ← hq']; exact resultTy_run
    have hlt : ∀ v r, r ∈ redsAt (run p) v → v < p.length := fun v r h => by
      by_contra hge
      rw [redsAt_ge (by rw [run_length]; omega)] at h
      simp at h
    have hpos : ∀ n, T[p.length]? = some (.vec n) → 0 < n := by
      intro n h
      cases i with
      | other ty =>
        rw [hres] at h
        exact hwt n (by injection h)
      | rotate src s b =>
        obtain ⟨h1, m, h2⟩ := hwt
        have : T[p.length]? = T[src]? := by rw [hres, hty src h1]; rfl
        exact ihT src h1 n (this ▸ h)
      | extract src j b => rw [hres] at h; cases h
      | arith op a b =>
        obtain ⟨h1, -, -⟩ := hwt
        have : T[p.length]? = T[a]? := by rw [hres, hty a h1]; rfl
        exact ihT a h1 n (this ▸ h)
    constructor
    · intro v hvl n h
      rw [List.length_append, List.length_singleton] at hvl
      rcases Nat.lt_succ_iff_lt_or_eq.1 hvl with h1 | h1
      · exact ihT v h1 n h
      · subst h1; exact hpos n h
    · intro v r hrm
      rw [run_snoc] at hrm
      rcases Nat.lt_trichotomy v p.length with h1 | h1 | h1
      · rw [redsAt_step_lt (by rw [run_length]; exact h1)] at hrm
        exact ih v r hrm
      · subst h1
        rw [show p.length = (run p).length from (run_length p).symm, redsAt_step_eq, run_length,
          List.mem_append] at hrm
        rcases hrm with hrm | hrm
        · unfold leafOf at hrm
          split at hrm
          · rename_i n he
            rw [List.mem_singleton] at hrm
            subst hrm
            have h2 : T[p.length]? = some (.vec n) := by rw [hres, he]
            exact good_leaf h2 (hpos n h2)
          · simp at hrm
        · cases i with
          | other ty => simp [visit] at hrm
          | rotate src s b =>
            simp only [visit] at hrm
            split at hrm
            · obtain ⟨r', hr', rfl⟩ := List.mem_map.1 hrm
              have hg := ih src r' hr'
              obtain ⟨h1, m, h2⟩ := hwt
              have hm : r'.size = m := by
                rcases hg.ty with h3 | h3
                · rw [h3.1] at h2; injection h2 with h2; injection h2
                · rw [h3] at h2; cases h2
              have hs : 0 ≤ s := hn src s b (by rw [← hq']; simp)
              have he : T[p.length]? = T[src]? := by rw [hres, hty src h1]; rfl
              rw [← hm] at h2
              exact good_rotate hg hs h2 (.inl (he.trans h2)) fun j hj _ => hho _ h2 j hj
            · simp at hrm
          | extract src s b =>
            simp only [visit] at hrm
            split at hrm
            · obtain ⟨r', hr', rfl⟩ := List.mem_map.1 hrm
              have hg := ih src r' hr'
              obtain ⟨h1, m, h2, h4, h5⟩ := hwt
              have hm : r'.size = m := by
                rcases hg.ty with h3 | h3
                · rw [h3.1] at h2; injection h2 with h2; injection h2
                · rw [h3] at h2; cases h2
              rw [← hm] at h2 h5
              refine good_rotate hg h4 h2 (.inr hres) fun j hj h => ?_
              rw [h hres]
              rw [show env p.length 0 = env src s.toNat from hho]
              congr 2
              rw [Int.natCast_zero, zero_add, Int.emod_eq_of_lt h4 h5]
            · simp at hrm
          | arith op a b =>
            obtain ⟨h1, h2, h3⟩ := hwt
            have he : T[p.length]? = T[a]? := by rw [hres, hty a h1]; rfl
            unfold visit at hrm
            simp only at hrm
            split at hrm
            · unfold joins at hrm
              obtain ⟨l, hl, hrm⟩ := List.mem_flatMap.1 hrm
              obtain ⟨r', hr', hrm⟩ := List.mem_filterMap.1 hrm
              split at hrm
              · rename_i hc
                injection hrm with hrm; subst hrm
                exact good_join (ih a l hl) (ih b r' hr') hc h3 he hho
              · cases hrm
            · rcases List.mem_append.1 hrm with hrm | hrm
              · obtain ⟨l, hl, hrm⟩ := List.mem_filterMap.1 hrm
                split at hrm
                · rename_i hc
                  injection hrm with hrm; subst hrm
                  have hb := (canSave_ok hc).2
                  rw [hb] at hc
                  have hbT : T[b]? = some .scalar := by rw [hty b h2, hb]
                  exact good_save (ih a l hl) hc (h3.trans hbT) he (hho 0)
                · cases hrm
              · obtain ⟨l, hl, hrm⟩ := List.mem_filterMap.1 hrm
                split at hrm
                · rename_i hc
                  injection hrm with hrm; subst hrm
                  have hb := (canSave_ok hc).2
                  rw [hb] at hc
                  have haT : T[a]? = some .scalar := by rw [hty a h1, hb]
                  exact good_save (ih b l hl) hc (h3.symm.trans haT) (he.trans h3)
                    ((hho 0).trans (op.apply_comm _ _))
                · cases hrm
      · rw [redsAt_ge (by simp [step, run_length]; omega)] at hrm
        simp at hrm

/-- A complete set of indices is all of them. -/
theorem complete_range {r : PR} (h : r.isComplete = true) : r.accessed = Finset.Ico 0 (r.size : Int) := by
  unfold PR.isComplete at h
  rw [decide_eq_true_eq] at h
  obtain ⟨h1, h2, h3⟩ := h
  apply Finset.eq_of_subset_of_card_le
  · intro i hi
    have a := Finset.min_le hi
    have b := Finset.le_max hi
    rw [h1] at a
    rw [h2] at b
    rw [Finset.mem_Ico]
    exact ⟨by exact_mod_cast a, by have : i ≤ (r.size : Int) - 1 := by exact_mod_cast b
                                   omega⟩
  · rw [h3]; simp

/-- Value of a complete reduction. -/
theorem Good.complete {v : Nat} {r : PR} (hg : Good T env v r) (hc : r.isComplete = true) {k : Name}
    (hk : r.opName = none ∨ r.opName = some k) {j : Nat} (hj : j < r.size)
    (hs : T[v]? = some .scalar → j = 0) :
    env v j = k.apply (k.total r.size (env r.tensor)) (k.bigL (r.saved.map fun u => env u 0)) := by
  rw [hg.value k hk j hj hs, complete_range hc, k.total_eq]
  congr 1
  have hn := hg.pos
  have himg : Finset.range r.size =
      (Finset.Ico 0 (r.size : Int)).image fun i => ((i + j) % r.size : Int).toNat := by
    symm
    apply Finset.eq_of_subset_of_card_le
    · intro x hx
      obtain ⟨i, -, rfl⟩ := Finset.mem_image.1 hx
      have := Int.emod_nonneg (i + j) (b := r.size) (by omega)
      have := Int.emod_lt_of_pos (i + j) (b := r.size) (by omega)
      rw [Finset.mem_range]; omega
    · rw [Finset.card_image_of_injOn]
      · simp
      · intro a ha b hb hab
        have h1 := Int.emod_nonneg (a + j) (b := r.size) (by omega)
        have h2 := Int.emod_nonneg (b + j) (b := r.size) (by omega)
        refine rot_injOn (n := r.size) j (Finset.Ico 0 (r.size : Int)) ?_ ha hb ?_
        · intro i hi; simpa using hi
        · simp only at hab ⊢
          omega
  rw [himg, k.big_image]
  · rfl
  · intro a ha b hb hab
    have h1 := Int.emod_nonneg (a + j) (b := r.size) (by omega)
    have h2 := Int.emod_nonneg (b + j) (b := r.size) (by omega)
    refine rot_injOn (n := r.size) j (Finset.Ico 0 (r.size : Int)) ?_ ha hb ?_
    · intro i hi; simpa using hi
    · simp only at hab ⊢
      omega

end Heir.Reduce
