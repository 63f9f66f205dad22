import Verif.Balance.Tree

/-! # Replacing the roots -/

namespace Heir.Balance

variable {R : Type} {T : Name} {D : List Nat}

/-- When the op `v` is reached, `o` is defined. -/
def Avail : List Nat → Block → Nat → Nat → Prop
  | _, [], _, _ => True
  | D, (x, _) :: b, v, o => (x = v → o ∈ D) ∧ Avail (x :: D) b v o

theorem Avail.mono {b : Block} {D D' : List Nat} {v o : Nat} (h : Avail D b v o)
    (hs : o ∈ D → o ∈ D') : Avail D' b v o := by
  induction b generalizing D D' with
  | nil => trivial
  | cons p b ih =>
    obtain ⟨x, i⟩ := p
    refine ⟨fun hx => hs (h.1 hx), ih h.2 ?_⟩
    intro ho
    rcases List.mem_cons.mp ho with rfl | ho
    · exact List.mem_cons_self
    · exact List.mem_cons_of_mem _ (hs ho)

theorem avail_of_mem {b : Block} {D : List Nat} {v o : Nat} (h : o ∈ D) : Avail D b v o := by
  induction b generalizing D with
  | nil => trivial
  | cons p b ih => exact ⟨fun _ => h, ih (List.mem_cons_of_mem _ h)⟩

theorem avail_of_not_mem {b : Block} {D : List Nat} {v o : Nat} (h : v ∉ ids b) : Avail D b v o := by
  induction b generalizing D with
  | nil => trivial
  | cons p b ih =>
    obtain ⟨x, i⟩ := p
    have h' : v ≠ x ∧ v ∉ ids b := by simpa [ids] using h
    exact ⟨fun hx => (h'.1 hx.symm).elim, ih h'.2⟩

theorem avail_of_pos {b : Block} (hn : (ids b).Nodup) {D : List Nat} {v o : Nat} (ho : o ∈ ids b)
    (hp : pos b o < pos b v) : Avail D b v o := by
  induction b generalizing D with
  | nil => trivial
  | cons p b ih =>
    obtain ⟨x, i⟩ := p
    obtain ⟨h1, h2⟩ := List.nodup_cons.mp hn
    by_cases hxo : x = o
    · subst hxo
      refine ⟨fun hx => ?_, avail_of_mem List.mem_cons_self⟩
      subst hx; omega
    · have hxv : x ≠ v := by
        rintro rfl
        simp [pos, ids] at hp
      have ho' : o ∈ ids b := by
        rcases List.mem_cons.mp ho with h | h
        · exact (hxo h.symm).elim
        · exact h
      refine ⟨fun hx => (hxv hx).elim, ih h2 ho' ?_⟩
      have e1 : pos ((x, i) :: b) o = pos b o + 1 := by
        simp [pos, ids, List.idxOf_cons_ne _ hxo]
      have e2 : pos ((x, i) :: b) v = pos b v + 1 := by
        simp [pos, ids, List.idxOf_cons_ne _ hxv]
      omega

theorem avail_append {b c : Block} {D : List Nat} {v o : Nat} :
    Avail D (b ++ c) v o ↔ Avail D b v o ∧ Avail ((ids b).reverse ++ D) c v o := by
  induction b generalizing D with
  | nil => simp [Avail, ids]
  | cons p b ih =>
    obtain ⟨x, i⟩ := p
    simp only [List.cons_append, Avail, ih, ids, List.map_cons, List.reverse_cons, List.append_assoc,
      List.nil_append, and_assoc]

/-! ## Replacing one op -/

theorem replaceOp_not_mem {b new : Block} {root : Nat} (h : root ∉ ids b) :
    replaceOp b root new = b := by
  induction b with
  | nil => rfl
  | cons p b ih =>
    have h' : root ≠ p.1 ∧ root ∉ ids b := by simpa [ids] using h
    have := ih h'.2
    unfold replaceOp at this ⊢
    rw [List.flatMap_cons, this, if_neg (Ne.symm h'.1)]
    rfl

theorem replaceOp_cons {b new : Block} {root : Nat} {p : Nat × Inst} :
    replaceOp (p :: b) root new = (if p.1 = root then new else [p]) ++ replaceOp b root new := by
  unfold replaceOp
  rw [List.flatMap_cons]

theorem mem_replaceOp {b new : Block} {root : Nat} {p : Nat × Inst} :
    p ∈ replaceOp b root new ↔ (p ∈ b ∧ p.1 ≠ root) ∨ (p ∈ new ∧ root ∈ ids b) := by
  unfold replaceOp
  rw [List.mem_flatMap]
  constructor
  · rintro ⟨q, hq, hp⟩
    split at hp
    · rename_i hr
      exact .inr ⟨hp, mem_ids.mpr ⟨q.2, by rw [← hr]; exact hq⟩⟩
    · rename_i hr
      rw [List.mem_singleton] at hp
      subst hp
      exact .inl ⟨hq, hr⟩
  · rintro (⟨h1, h2⟩ | ⟨h1, h2⟩)
    · exact ⟨p, h1, by rw [if_neg h2]; simp⟩
    · obtain ⟨i, hi⟩ := mem_ids.mp h2
      exact ⟨_, hi, by rw [if_pos rfl]; exact h1⟩

theorem replaceOp_valid {b new : Block} {root : Nat} {leaves : List Nat} {n n' : Nat}
    (hvb : Valid D b) (hnD : ∀ v ∈ D, v < n) (hnb : ∀ v ∈ ids b, v < n)
    (hav : ∀ o ∈ leaves, Avail D b root o) (hrn : root < n)
    (hids : ∀ v ∈ ids new, v = root ∨ (n ≤ v ∧ v < n')) (hroot : root ∈ ids new)
    (hnew : ∀ D : List Nat, (∀ v ∈ leaves, v ∈ D) → (∀ v ∈ D, v < n) → root ∉ D → root < n →
      Valid D new) : Valid D (replaceOp b root new) := by
  induction b generalizing D with
  | nil => trivial
  | cons p b ih =>
    obtain ⟨x, i⟩ := p
    have hnd := hvb.nodup
    obtain ⟨h1, h2, h3⟩ := hvb
    rw [replaceOp_cons]
    by_cases hx : x = root
    · subst hx
      simp only [if_true]
      have hxb : x ∉ ids b := (List.nodup_cons.mp hnd.1).1
      rw [replaceOp_not_mem hxb]
      refine valid_append.mpr ⟨hnew D (fun v hv => (hav v hv).1 rfl) hnD h1 hrn, ?_⟩
      refine h3.mono ?_ ?_
      · intro v hv
        rcases List.mem_cons.mp hv with rfl | hv
        · exact List.mem_append_left _ (List.mem_reverse.mpr hroot)
        · exact List.mem_append_right _ hv
      · intro v hv hm
        rcases List.mem_append.mp hm with hm | hm
        · rcases hids v (List.mem_reverse.mp hm) with rfl | h
          · exact hxb hv
          · have := hnb v (List.mem_cons_of_mem _ hv); omega
        · exact h3.nodup.2 v hv (List.mem_cons_of_mem _ hm)
    · simp only [hx, if_false]
      refine ⟨h1, h2, ih h3 ?_ (fun v hv => hnb v (List.mem_cons_of_mem _ hv)) fun o ho => (hav o ho).2⟩
      intro v hv
      rcases List.mem_cons.mp hv with rfl | hv
      · exact hnb _ List.mem_cons_self
      · exact hnD v hv

theorem replaceOp_avail {b new : Block} {root v o n n' : Nat} (hn : (ids b).Nodup)
    (h : Avail D b v o) (hv : v ≠ root) (hvn : v < n)
    (hids : ∀ v ∈ ids new, v = root ∨ (n ≤ v ∧ v < n')) (hroot : root ∈ ids new) :
    Avail D (replaceOp b root new) v o := by
  induction b generalizing D with
  | nil => trivial
  | cons p b ih =>
    obtain ⟨x, i⟩ := p
    obtain ⟨n1, n2⟩ := List.nodup_cons.mp hn
    rw [replaceOp_cons]
    by_cases hx : x = root
    · subst hx
      simp only [if_true]
      rw [replaceOp_not_mem n1]
      refine avail_append.mpr ⟨avail_of_not_mem ?_, h.2.mono ?_⟩
      · intro hm
        rcases hids v hm with h | h
        · exact hv h
        · omega
      · intro ho
        rcases List.mem_cons.mp ho with rfl | ho
        · exact List.mem_append_left _ (List.mem_reverse.mpr hroot)
        · exact List.mem_append_right _ ho
    · simp only [hx, if_false]
      exact ⟨h.1, ih n2 h.2⟩

/-! ## Erasing one op -/

theorem erase_valid {b : Block} {d : Nat} {D D' : List Nat} (h : Valid D b)
    (hu : ∀ p ∈ b, d ∉ p.2.operands) (h1 : ∀ v ∈ D, v ≠ d → v ∈ D') (h2 : ∀ v ∈ D', v ∈ D) :
    Valid D' (b.filter fun p => p.1 ≠ d) := by
  induction b generalizing D D' with
  | nil => trivial
  | cons p b ih =>
    obtain ⟨x, i⟩ := p
    obtain ⟨k1, k2, k3⟩ := h
    have hu' : ∀ p ∈ b, d ∉ p.2.operands := fun p hp => hu p (List.mem_cons_of_mem _ hp)
    by_cases hx : x = d
    · subst hx
      rw [List.filter_cons_of_neg (by simp)]
      refine ih k3 hu' ?_ fun v hv => List.mem_cons_of_mem _ (h2 v hv)
      intro v hv hne
      rcases List.mem_cons.mp hv with rfl | hv
      · exact (hne rfl).elim
      · exact h1 v hv hne
    · rw [List.filter_cons_of_pos (by simpa using hx)]
      refine ⟨fun hm => k1 (h2 _ hm), ?_, ih k3 hu' ?_ ?_⟩
      · intro o ho
        refine h1 o (k2 o ho) ?_
        rintro rfl
        exact hu _ List.mem_cons_self ho
      · intro v hv hne
        rcases List.mem_cons.mp hv with rfl | hv
        · exact List.mem_cons_self
        · exact List.mem_cons_of_mem _ (h1 v hv hne)
      · intro v hv
        rcases List.mem_cons.mp hv with rfl | hv
        · exact List.mem_cons_self
        · exact List.mem_cons_of_mem _ (h2 v hv)

theorem erase_avail {b : Block} {d v o : Nat} {D D' : List Nat} (h : Avail D b v o) (ho : o ≠ d)
    (h1 : o ∈ D → o ∈ D') : Avail D' (b.filter fun p => p.1 ≠ d) v o := by
  induction b generalizing D D' with
  | nil => trivial
  | cons p b ih =>
    obtain ⟨x, i⟩ := p
    by_cases hx : x = d
    · subst hx
      rw [List.filter_cons_of_neg (by simp)]
      refine ih h.2 ?_
      intro hm
      rcases List.mem_cons.mp hm with rfl | hm
      · exact (ho rfl).elim
      · exact h1 hm
    · rw [List.filter_cons_of_pos (by simpa using hx)]
      refine ⟨fun he => h1 (h.1 he), ih h.2 ?_⟩
      intro hm
      rcases List.mem_cons.mp hm with rfl | hm
      · exact List.mem_cons_self
      · exact List.mem_cons_of_mem _ (h1 hm)

/-! ## The invariant -/

/-- What is fixed during the second loop. -/
structure Ctx (R : Type) where
  b₀ : Block
  D : List Nat
  T : Name
  n₀ : Nat
  S : Sem R
  rel : R → R → Prop
  E₀ : Nat → R

namespace Ctx

structure OK (C : Ctx R) : Prop where
  valid : Valid C.D C.b₀
  below : Below C.n₀ C.D C.b₀
  refl : ∀ y, C.rel y y

/-- The op uses no intermediate value. -/
def Clean (C : Ctx R) (p : Nat × Inst) : Prop :=
  ∀ o ∈ p.2.operands, C.n₀ ≤ o ∨ internal C.b₀ C.T o = none

/-- Holds before the roots `rs` are treated. -/
structure Inv (C : Ctx R) (rs : List Root) (b : Block) (n : Nat) : Prop where
  valid : Valid C.D b
  below : Below n C.D b
  le : C.n₀ ≤ n
  sol : ∃ E, (∀ v < C.n₀, E v = C.E₀ v) ∧ Sat C.S C.rel b E
  entry : ∀ p ∈ b, p ∈ C.b₀ ∨ C.Clean p
  mem : ∀ r ∈ rs, ∀ x ∈ r.root :: r.inner, x ∈ ids b
  avail : ∀ r ∈ rs, ∀ o ∈ r.operands, Avail C.D b r.root o
  keep : ∀ p ∈ C.b₀, (∀ a c, p.2 ≠ .arith C.T a c) → p ∈ b

/-- Roots do not meet. -/
def Apart (r r' : Root) : Prop :=
  r'.root ∉ r.root :: r.inner ∧ ∀ x ∈ r.inner, x ∉ r'.inner

theorem eraseAll_ok {C : Ctx R} (hC : C.OK) {r : Root} (hr : FlatOK C.D C.b₀ C.T r) {rs : List Root}
    (hrs : ∀ r' ∈ rs, FlatOK C.D C.b₀ C.T r') (hap : ∀ r' ∈ rs, Apart r r') {n : Nat} :
    ∀ (ds I₁ : List Nat), r.inner = I₁ ++ ds → ∀ b : Block, Inv C rs b n →
      (∀ p ∈ b, p.1 = r.root → C.Clean p) → (∀ x ∈ I₁, x ∉ ids b) → (∀ x ∈ ds, x ∈ ids b) →
      ∃ b', eraseAll b ds = some b' ∧ Inv C rs b' n := by
  have hn0 := hC.valid.nodup.1
  intro ds
  induction ds with
  | nil => intro I₁ _ b hi _ _ _; exact ⟨b, rfl, hi⟩
  | cons d ds ih =>
    intro I₁ he b hi hroot hgone hhas
    have hdin : d ∈ r.inner := by rw [he]; simp
    obtain ⟨ac, hint⟩ := hr.int d hdin
    obtain ⟨hdb, hduse⟩ := internal_some hn0 hint
    have hdn : d < C.n₀ := (hC.below.2 _ hdb).1
    have hnc : ∀ p : Nat × Inst, C.Clean p → d ∉ p.2.operands := by
      intro p hp hd
      rcases hp d hd with h | h
      · omega
      · rw [hint] at h; cases h
    have hunused : ∀ p ∈ b, d ∉ p.2.operands := by
      intro p hp hd
      rcases hi.entry p hp with h0 | hc
      · obtain ⟨par, hpar, hdp⟩ := hr.parents I₁ d ds he
        have hparb : par ∈ ids C.b₀ := by
          by_contra hne
          rw [opsOf_nil hne] at hdp
          cases hdp
        obtain ⟨j, hj⟩ := mem_ids.mp hparb
        rw [opsOf_eq hn0 hj] at hdp
        have hpp : p.1 = par := user_unique hn0 hduse h0 hj hd hdp
        rcases List.mem_cons.mp hpar with h | h
        · exact hnc p (hroot p hp (hpp.trans h)) hd
        · exact hgone par h (mem_ids.mpr ⟨p.2, by rw [← hpp]; exact hp⟩)
      · exact hnc p hc hd
    have hmemf : ∀ {x}, x ∈ ids b → x ≠ d → x ∈ ids (b.filter fun p => p.1 ≠ d) := by
      intro x hx hne
      obtain ⟨j, hj⟩ := mem_ids.mp hx
      exact mem_ids.mpr ⟨j, List.mem_filter.mpr ⟨hj, by simpa using hne⟩⟩
    have hnd := hr.nodup
    rw [he] at hnd
    have hnd' := (List.nodup_append.mp (List.nodup_cons.mp hnd).2)
    rw [eraseAll, if_pos ⟨hhas d List.mem_cons_self, numUses_zero hunused⟩]
    refine ih (I₁ ++ [d]) (by rw [he]; simp) _ ⟨?_, ?_, hi.le, ?_, ?_, ?_, ?_, ?_⟩ ?_ ?_ ?_
    · refine erase_valid hi.valid hunused (fun v hv _ => hv) (fun v hv => hv)
    · exact ⟨hi.below.1, fun p hp => hi.below.2 p (List.mem_filter.mp hp).1⟩
    · obtain ⟨E, h1, h2⟩ := hi.sol
      exact ⟨E, h1, fun p hp => h2 p (List.mem_filter.mp hp).1⟩
    · exact fun p hp => hi.entry p (List.mem_filter.mp hp).1
    · intro r' hr' x hx
      refine hmemf (hi.mem r' hr' x hx) ?_
      rintro rfl
      obtain ⟨a1, a2⟩ := hap r' hr'
      rcases List.mem_cons.mp hx with rfl | hx
      · exact a1 (List.mem_cons_of_mem _ hdin)
      · exact a2 x hdin hx
    · intro r' hr' o ho
      refine erase_avail (hi.avail r' hr' o ho) ?_ id
      rintro rfl
      rw [(hrs r' hr').leaf o ho] at hint
      cases hint
    · intro p hp hT
      refine List.mem_filter.mpr ⟨hi.keep p hp hT, ?_⟩
      simp only [ne_eq, decide_not, Bool.not_eq_true', decide_eq_false_iff_not]
      rintro rfl
      exact hT _ _ (entry_unique hn0 (v := p.1) hp hdb)
    · exact fun p hp => hroot p (List.mem_filter.mp hp).1
    · intro x hx hm
      obtain ⟨j, hj⟩ := mem_ids.mp hm
      obtain ⟨hj1, hj2⟩ := List.mem_filter.mp hj
      rcases List.mem_append.mp hx with hx | hx
      · exact hgone x hx (mem_ids.mpr ⟨j, hj1⟩)
      · rw [List.mem_singleton] at hx
        simp [hx] at hj2
    · intro x hx
      refine hmemf (hhas x (List.mem_cons_of_mem _ hx)) ?_
      rintro rfl
      exact (List.nodup_cons.mp hnd'.2.1).1 hx

theorem balanceRoot_ok {C : Ctx R} (hC : C.OK) (isPublic : Nat → Bool) {r : Root}
    (hr : FlatOK C.D C.b₀ C.T r) {rs : List Root} (hrs : ∀ r' ∈ rs, FlatOK C.D C.b₀ C.T r')
    (hap : ∀ r' ∈ rs, Apart r r')
    (hrel : ∀ t, balancedTree r.operands.length (groupPublic isPublic r.operands) = some t →
      C.rel (t.eval C.S C.T C.E₀) (C.E₀ r.root))
    {b : Block} {n : Nat} (hi : Inv C (r :: rs) b n) :
    ∃ st, balanceRoot isPublic C.T (b, n) r = some st ∧ Inv C rs st.1 st.2 := by
  have hn0 := hC.valid.nodup.1
  have hirs : Inv C rs b n := ⟨hi.valid, hi.below, hi.le, hi.sol, hi.entry,
    fun r' h => hi.mem r' (List.mem_cons_of_mem _ h), fun r' h => hi.avail r' (List.mem_cons_of_mem _ h),
    hi.keep⟩
  unfold balanceRoot
  by_cases hlen : r.operands.length ≤ 2
  · rw [if_pos hlen]; exact ⟨_, rfl, hirs⟩
  rw [if_neg hlen]
  have hperm := groupPublic_perm isPublic r.operands
  obtain ⟨t, ht, htl, htd⟩ := balancedTree_ok r.operands.length (groupPublic isPublic r.operands)
    (by rw [hperm.length_eq]; omega) (by rw [hperm.length_eq])
  have hrel' := hrel t ht
  rw [ht, Option.bind_some]
  have hleaf : ∀ v ∈ t.leaves, v ∈ r.operands := by
    intro v hv; rw [htl] at hv; exact hperm.mem_iff.mp hv
  obtain ⟨a, c, hrb⟩ := hr.def_
  have hrn : r.root < C.n₀ := (hC.below.2 _ hrb).1
  have hrn' : r.root < n := lt_of_lt_of_le hrn hi.le
  have hleafn : ∀ v ∈ t.leaves, v < C.n₀ := by
    intro v hv
    rcases hr.before v (List.mem_append_left _ (hleaf v hv)) with h | ⟨h, -⟩
    · exact hC.below.1 v h
    · obtain ⟨j, hj⟩ := mem_ids.mp h
      exact (hC.below.2 _ hj).1
  have hE : RootOK C.T r.root t n (emitRoot C.T r.root t n) := by
    cases t with
    | leaf v =>
      have := hperm.length_eq
      rw [← htl] at this
      simp only [Tree.leaves, List.length_singleton] at this
      omega
    | node l r => exact emitRoot_ok
  simp only
  generalize emitRoot C.T r.root t n = e at hE
  have hle := hE.le
  have hmemroot : r.root ∈ ids b := hi.mem r List.mem_cons_self _ List.mem_cons_self
  have hmem : ∀ {x}, x ∈ ids b → x ∈ ids (replaceOp b r.root e.1) := by
    intro x hx
    obtain ⟨j, hj⟩ := mem_ids.mp hx
    by_cases hxr : x = r.root
    · subst hxr
      obtain ⟨k, hk⟩ := mem_ids.mp hE.root_mem
      exact mem_ids.mpr ⟨k, mem_replaceOp.mpr (.inr ⟨hk, hx⟩)⟩
    · exact mem_ids.mpr ⟨j, mem_replaceOp.mpr (.inl ⟨hj, hxr⟩)⟩
  have hclean : ∀ p ∈ e.1, C.Clean p := by
    intro p hp o ho
    rcases hE.operands p hp o ho with h | h
    · exact .inr (hr.leaf o (hleaf o h))
    · exact .inl (le_trans hi.le h.1)
  have hInv : Inv C rs (replaceOp b r.root e.1) e.2 := by
    refine ⟨?_, ⟨?_, ?_⟩, le_trans hi.le hle, ?_, ?_, ?_, ?_, ?_⟩
    · refine replaceOp_valid (leaves := t.leaves) hi.valid hi.below.1 ?_ ?_ hrn' hE.ids_fresh hE.root_mem hE.valid
      · intro v hv
        obtain ⟨j, hj⟩ := mem_ids.mp hv
        exact (hi.below.2 _ hj).1
      · exact fun o ho => hi.avail r List.mem_cons_self o (hleaf o ho)
    · exact fun v hv => lt_of_lt_of_le (hi.below.1 v hv) hle
    · intro p hp
      rcases mem_replaceOp.mp hp with ⟨h, -⟩ | ⟨h, -⟩
      · obtain ⟨h1, h2⟩ := hi.below.2 p h
        exact ⟨lt_of_lt_of_le h1 hle, fun o ho => lt_of_lt_of_le (h2 o ho) hle⟩
      · refine ⟨?_, ?_⟩
        · rcases hE.ids_fresh p.1 (mem_ids.mpr ⟨p.2, h⟩) with h | h
          · rw [h]; omega
          · exact h.2
        · intro o ho
          rcases hE.operands p h o ho with h | h
          · have := hleafn o h
            have := hi.le
            omega
          · exact h.2
    · obtain ⟨E, s1, s2⟩ := hi.sol
      obtain ⟨E', u1, u2⟩ := hE.sat R C.S C.rel hC.refl E
        (fun v hv => lt_of_lt_of_le (hleafn v hv) hi.le) hrn' (by
          rw [Tree.eval_congr (E' := C.E₀) fun v hv => s1 v (hleafn v hv), s1 _ hrn]
          exact hrel')
      refine ⟨E', fun v hv => (u1 v (lt_of_lt_of_le hv hi.le)).trans (s1 v hv), ?_⟩
      intro p hp
      rcases mem_replaceOp.mp hp with ⟨h, -⟩ | ⟨h, -⟩
      · obtain ⟨h1, h2⟩ := hi.below.2 p h
        rw [u1 _ h1, eval_congr (e' := E) fun o ho => u1 o (h2 o ho)]
        exact s2 p h
      · exact u2 p h
    · intro p hp
      rcases mem_replaceOp.mp hp with ⟨h, -⟩ | ⟨h, -⟩
      · exact hi.entry p h
      · exact .inr (hclean p h)
    · exact fun r' h x hx => hmem (hirs.mem r' h x hx)
    · intro r' h o ho
      obtain ⟨a', c', h'⟩ := (hrs r' h).def_
      refine replaceOp_avail (n := n) (n' := e.2) hi.valid.nodup.1 (hirs.avail r' h o ho) ?_ ?_ hE.ids_fresh hE.root_mem
      · rintro he
        exact (hap r' h).1 (by rw [he]; exact List.mem_cons_self)
      · exact lt_of_lt_of_le (hC.below.2 _ h').1 hi.le
    · intro p hp hT
      refine mem_replaceOp.mpr (.inl ⟨hi.keep p hp hT, ?_⟩)
      rintro he
      exact hT _ _ (entry_unique hn0 (v := p.1) hp (by rw [he]; exact hrb))
  obtain ⟨b', h1, h2⟩ := eraseAll_ok hC hr hrs hap r.inner [] rfl _ hInv (by
    intro p hp hpr
    rcases mem_replaceOp.mp hp with ⟨-, h⟩ | ⟨h, -⟩
    · exact (h hpr).elim
    · exact hclean p h) (by simp) (fun x hx => hmem (hi.mem r List.mem_cons_self x (List.mem_cons_of_mem _ hx)))
  refine ⟨(b', e.2), ?_, h2⟩
  rw [h1]
  rfl

theorem fold_ok {C : Ctx R} (hC : C.OK) (isPublic : Nat → Bool) : ∀ (rs : List Root),
    (∀ r ∈ rs, FlatOK C.D C.b₀ C.T r) → rs.Pairwise Apart →
    (∀ r ∈ rs, ∀ t, balancedTree r.operands.length (groupPublic isPublic r.operands) = some t →
      C.rel (t.eval C.S C.T C.E₀) (C.E₀ r.root)) →
    ∀ st : Block × Nat, Inv C rs st.1 st.2 →
      ∃ st', rs.foldlM (balanceRoot isPublic C.T) st = some st' ∧ Inv C [] st'.1 st'.2 := by
  intro rs
  induction rs with
  | nil => intro _ _ _ st hi; exact ⟨st, rfl, hi⟩
  | cons r rs ih =>
    intro hr hap hrel st hi
    obtain ⟨a1, a2⟩ := List.pairwise_cons.mp hap
    obtain ⟨st1, h1, h2⟩ := balanceRoot_ok hC isPublic (hr r List.mem_cons_self)
      (fun r' h => hr r' (List.mem_cons_of_mem _ h)) a1 (hrel r List.mem_cons_self) hi
    obtain ⟨st2, h3, h4⟩ := ih (fun r' h => hr r' (List.mem_cons_of_mem _ h)) a2
      (fun r' h => hrel r' (List.mem_cons_of_mem _ h)) st1 h2
    refine ⟨st2, ?_, h4⟩
    rw [List.foldlM_cons, h1]
    exact h3

end Ctx

/-! ## The first loop -/

theorem collect_ok {b : Block} (hv : Valid D b) : ∀ (l : Block) (visited : List Nat),
    (∀ p ∈ l, p ∈ b) → l.Pairwise (fun p q => pos b q.1 < pos b p.1) →
    (∀ r ∈ collect b T l visited, FlatOK D b T r ∧ r.root ∉ visited ∧
      ∃ p ∈ l, p.1 = r.root) ∧
    (collect b T l visited).Pairwise (fun r r' => r'.root ∉ r.root :: r.inner ∧
      pos b r'.root < pos b r.root) := by
  intro l
  induction l with
  | nil => intro vis _ _; simp [collect]
  | cons p l ih =>
    obtain ⟨v, i⟩ := p
    intro vis hm hp
    obtain ⟨p1, p2⟩ := List.pairwise_cons.mp hp
    have hm' : ∀ p ∈ l, p ∈ b := fun p hp => hm p (List.mem_cons_of_mem _ hp)
    have skip : (∀ r ∈ collect b T l vis, FlatOK D b T r ∧ r.root ∉ vis ∧
        ∃ p ∈ (v, i) :: l, p.1 = r.root) ∧
        (collect b T l vis).Pairwise (fun r r' => r'.root ∉ r.root :: r.inner ∧
          pos b r'.root < pos b r.root) := by
      obtain ⟨h1, h2⟩ := ih vis hm' p2
      refine ⟨fun r hr => ?_, h2⟩
      obtain ⟨k1, k2, q, k3, k4⟩ := h1 r hr
      exact ⟨k1, k2, q, List.mem_cons_of_mem _ k3, k4⟩
    cases i with
    | other tag args => simpa only [collect] using skip
    | arith op a c =>
      simp only [collect]
      split
      · rename_i hc
        obtain ⟨rfl, hvis⟩ := hc
        have hok := flattenRoot_ok hv (hm _ List.mem_cons_self)
        have hroot : (flattenRoot b op v a c).root = v := rfl
        obtain ⟨h1, h2⟩ := ih (v :: (flattenRoot b op v a c).inner ++ vis) hm' p2
        refine ⟨?_, List.pairwise_cons.mpr ⟨?_, h2⟩⟩
        · intro r hr
          rcases List.mem_cons.mp hr with rfl | hr
          · exact ⟨hok, hvis, _, List.mem_cons_self, rfl⟩
          · obtain ⟨k1, k2, q, k3, k4⟩ := h1 r hr
            exact ⟨k1, fun h => k2 (List.mem_append_right _ h), q, List.mem_cons_of_mem _ k3, k4⟩
        · intro r hr
          obtain ⟨k1, k2, q, k3, k4⟩ := h1 r hr
          refine ⟨fun h => k2 (List.mem_append_left _ h), ?_⟩
          rw [← k4]
          exact p1 q k3
      · exact skip

theorem apart_of {b : Block} (hv : Valid D b) {r r' : Root} (hr : FlatOK D b T r)
    (hr' : FlatOK D b T r') (h1 : r'.root ∉ r.root :: r.inner) (h2 : pos b r'.root < pos b r.root) :
    Ctx.Apart r r' := by
  have hn := hv.nodup.1
  refine ⟨h1, ?_⟩
  have hrr : r.root ∉ r'.root :: r'.inner := by
    intro h
    rcases List.mem_cons.mp h with h | h
    · rw [h] at h2; omega
    · obtain ⟨ac, hac⟩ := hr'.int _ h
      rcases hr'.before _ (List.mem_append_right _ h) with h3 | ⟨-, h3⟩
      · exact hv.nodup.2 _ (mem_ids.mpr ⟨_, (internal_some hn hac).1⟩) h3
      · omega
  have key : ∀ (k : Nat) (I₁ : List Nat) (d : Nat) (I₂ : List Nat), I₁.length ≤ k →
      r.inner = I₁ ++ d :: I₂ → d ∉ r'.inner := by
    intro k
    induction k with
    | zero =>
      intro I₁ d I₂ hk he hd
      obtain ⟨p, hp, hdp⟩ := hr.parents I₁ d I₂ he
      have : I₁ = [] := List.length_eq_zero_iff.mp (by omega)
      subst this
      rw [List.mem_singleton] at hp
      subst hp
      obtain ⟨J₁, J₂, hJ⟩ := List.append_of_mem hd
      obtain ⟨p', hp', hdp'⟩ := hr'.parents J₁ d J₂ hJ
      obtain ⟨ac, hac⟩ := hr'.int d hd
      have hpp : r.root = p' := parent_unique hn (internal_some hn hac).2 hdp hdp'
      refine hrr ?_
      rw [hpp, hJ]
      rcases List.mem_cons.mp hp' with h | h
      · rw [h]; exact List.mem_cons_self
      · exact List.mem_cons_of_mem _ (List.mem_append_left _ h)
    | succ k ih =>
      intro I₁ d I₂ hk he hd
      obtain ⟨p, hp, hdp⟩ := hr.parents I₁ d I₂ he
      obtain ⟨J₁, J₂, hJ⟩ := List.append_of_mem hd
      obtain ⟨p', hp', hdp'⟩ := hr'.parents J₁ d J₂ hJ
      obtain ⟨ac, hac⟩ := hr'.int d hd
      have hpp : p = p' := parent_unique hn (internal_some hn hac).2 hdp hdp'
      subst hpp
      have hp'' : p ∈ r'.root :: r'.inner := by
        rw [hJ]
        rcases List.mem_cons.mp hp' with h | h
        · rw [h]; exact List.mem_cons_self
        · exact List.mem_cons_of_mem _ (List.mem_append_left _ h)
      rcases List.mem_cons.mp hp with h | h
      · rw [h] at hp''; exact hrr hp''
      · rcases List.mem_cons.mp hp'' with h' | h'
        · refine h1 ?_
          rw [← h', he]
          exact List.mem_cons_of_mem _ (List.mem_append_left _ h)
        · obtain ⟨K₁, K₂, hK⟩ := List.append_of_mem h
          refine ih K₁ p (K₂ ++ d :: I₂) ?_ (by rw [he, hK]; simp) h'
          rw [hK, List.length_append, List.length_cons] at hk
          omega
  intro x hx
  obtain ⟨I₁, I₂, hI⟩ := List.append_of_mem hx
  exact key I₁.length I₁ x I₂ le_rfl hI
where
  parent_unique {b : Block} (hn : (ids b).Nodup) {d p q : Nat} (hd : numUses b d = 1)
      (hp : d ∈ opsOf b p) (hq : d ∈ opsOf b q) : p = q := by
    have mem : ∀ {x}, d ∈ opsOf b x → ∃ i, (x, i) ∈ b ∧ d ∈ i.operands := by
      intro x hx
      have hxb : x ∈ ids b := by
        by_contra hne
        rw [opsOf_nil hne] at hx
        cases hx
      obtain ⟨i, hi⟩ := mem_ids.mp hxb
      rw [opsOf_eq hn hi] at hx
      exact ⟨i, hi, hx⟩
    obtain ⟨i, hi, hi'⟩ := mem hp
    obtain ⟨j, hj, hj'⟩ := mem hq
    exact user_unique hn hd hi hj hi' hj'

/-- The roots of a block. -/
theorem roots_ok {b : Block} (hv : Valid D b) :
    (∀ r ∈ collect b T b.reverse [], FlatOK D b T r) ∧
      (collect b T b.reverse []).Pairwise Ctx.Apart := by
  obtain ⟨h1, h2⟩ := collect_ok (T := T) hv b.reverse [] (fun p hp => List.mem_reverse.mp hp)
    (List.pairwise_reverse.mpr (pairwise_pos hv.nodup.1))
  refine ⟨fun r hr => (h1 r hr).1, ?_⟩
  refine h2.imp_of_mem ?_
  intro r r' hr hr' h
  exact apart_of hv (h1 r hr).1 (h1 r' hr').1 h.1 h.2

end Heir.Balance
