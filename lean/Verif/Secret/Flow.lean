import Verif.Secret.Lemmas

/-! # Secretness: noninterference -/

namespace Heir.Secret

variable {V : Type} {S : Sem V}

/-! ## The lattice -/

/-- Height in the lattice. -/
def rk : Secretness → Nat
  | none => 0
  | some false => 1
  | some true => 2

theorem rk_inj : ∀ {a b : Secretness}, rk a = rk b → a = b := by
  intro a b h
  rcases a with _ | _ | _ <;> rcases b with _ | _ | _ <;> simp_all [rk]

theorem rk_join (a b : Secretness) : rk (join a b) = max (rk a) (rk b) := by
  rcases a with _ | _ | _ <;> rcases b with _ | _ | _ <;> rfl

theorem raise_le (L : Labels) (v : Nat) (s : Secretness) (x : Nat) : rk (L x) ≤ rk (raise L v s x) := by
  unfold raise
  by_cases h : x = v
  · subst h; rw [Function.update_self, rk_join]; omega
  · rw [Function.update_of_ne h]; exact Nat.le_refl _

theorem raiseMany_le : ∀ (vs ss : List Nat) (L : Labels) (x : Nat),
    rk (L x) ≤ rk (raiseMany L vs ss x) := by
  intro vs
  induction vs with
  | nil => intro ss L x; exact Nat.le_refl _
  | cons v vs ih =>
    intro ss L x
    cases ss with
    | nil => exact Nat.le_refl _
    | cons s ss => exact Nat.le_trans (raise_le L v (L s) x) (ih ss _ x)

theorem raise_eq {L : Labels} {v : Nat} {s : Secretness} (h : raise L v s = L) :
    join (L v) s = L v := by
  have := congrFun h v
  rwa [raise, Function.update_self] at this

/-- In a stable state values are at least as secret as what is forwarded to them. -/
def Flows (L : Labels) : List Nat → List Nat → Prop
  | v :: vs, s :: ss => rk (L s) ≤ rk (L v) ∧ Flows L vs ss
  | _, _ => True

theorem flows_of_stable : ∀ (vs ss : List Nat) (L : Labels), raiseMany L vs ss = L → Flows L vs ss := by
  intro vs
  induction vs with
  | nil => intro ss L _; trivial
  | cons v vs ih =>
    intro ss L h
    cases ss with
    | nil => trivial
    | cons s ss =>
      simp only [raiseMany] at h
      have h1 : raise L v (L s) = L := by
        funext x
        apply rk_inj
        have a := raise_le L v (L s) x
        have b := raiseMany_le vs ss (raise L v (L s)) x
        rw [h] at b
        omega
      rw [h1] at h
      refine ⟨?_, ih ss L h⟩
      have := congrArg rk (raise_eq h1)
      rw [rk_join] at this
      omega

theorem scan_true : ∀ (os : List Secretness) (res : Secretness) (un : Bool), some true ∈ os →
    (scan os res un).1 = some true := by
  intro os
  induction os with
  | nil => intro res un h; simp at h
  | cons o os ih =>
    intro res un h
    simp only [scan]
    split
    · assumption
    · rcases List.mem_cons.mp h with h' | h'
      · subst h'
        rename_i hn
        exact absurd (by rcases res with _ | _ | _ <;> rfl) hn
      · exact ih _ _ h'

theorem scan_known : ∀ (os : List Secretness) (res : Secretness) (un : Bool),
    (scan os res un).2 = false → (scan os res un).1 ≠ some true → un = false ∧ none ∉ os := by
  intro os
  induction os with
  | nil => intro res un h _; exact ⟨h, by simp⟩
  | cons o os ih =>
    intro res un h h'
    simp only [scan] at h h'
    split at h
    · rename_i hj; rw [if_pos hj] at h'; exact absurd hj h'
    · rename_i hj
      rw [if_neg hj] at h'
      obtain ⟨k1, k2⟩ := ih _ _ h h'
      simp only [Bool.or_eq_false_iff] at k1
      refine ⟨k1.1, ?_⟩
      intro hm
      rcases List.mem_cons.mp hm with h1 | h1
      · subst h1; simp at k1
      · exact k2 h1

theorem visit_true {os : List Secretness} {hr : Bool} (h : some true ∈ os) :
    visit os hr = some true := by
  unfold visit
  have := scan_true os (if os.isEmpty then some false else none) false h
  simp only [this]
  simp

theorem visit_known {os : List Secretness} (h : visit os false = some false) : none ∉ os := by
  unfold visit at h
  simp only at h
  generalize hr : scan os (if os.isEmpty then some false else none) false = r at h
  by_cases hc : (r.2 || false) = true ∧ r.1 = some false
  · rw [if_pos hc] at h; simp at h
  · rw [if_neg hc] at h
    refine (scan_known os (if os.isEmpty then some false else none) false ?_ ?_).2
    · rw [hr]
      by_contra hb
      exact hc ⟨by simpa using hb, h⟩
    · rw [hr, h]; simp

theorem visit_reg (os : List Secretness) : visit os true ≠ some false := by
  unfold visit
  simp only
  generalize scan os (if os.isEmpty then some false else none) false = r
  by_cases hc : (r.2 || true) = true ∧ r.1 = some false
  · rw [if_pos hc]; simp
  · rw [if_neg hc]
    intro h
    exact hc ⟨by simp, h⟩

/-! ## Reached states are grounded -/

/-- A public label on the result of an op is backed by known operands; results of region ops are
never public. -/
def Grounded (L : Labels) : Blk → Prop
  | .done => True
  | .op r _ a rest => (L r = some false → none ∉ a.map L) ∧ Grounded L rest
  | .reg r _ _ _ rest => L r ≠ some false ∧ Grounded L rest
  | .reveal _ _ rest => Grounded L rest
  | .eff r _ a rest => (L r = some false → none ∉ a.map L) ∧ Grounded L rest
  | .ite _ _ t _ e _ rest => Grounded L t ∧ Grounded L e ∧ Grounded L rest
  | .loop _ _ _ _ _ body _ rest => Grounded L body ∧ Grounded L rest

/-- `L'` differs from `L` upwards, and only at values outside `b`. -/
theorem grounded_frame : ∀ (b : Blk) (L L' : Labels), Grounded L b → (∀ v, rk (L v) ≤ rk (L' v)) →
    (∀ v ∈ allDefs b, L' v = L v) → Grounded L' b := by
  have key : ∀ (L L' : Labels) (a : List Nat), (∀ v, rk (L v) ≤ rk (L' v)) → none ∉ a.map L →
      none ∉ a.map L' := by
    intro L L' a h h1 h2
    obtain ⟨v, hv, e⟩ := List.mem_map.mp h2
    refine h1 (List.mem_map.mpr ⟨v, hv, ?_⟩)
    have := h v
    rw [e] at this
    exact rk_inj (by simp only [rk] at this ⊢; omega)
  intro b
  induction b with
  | done => intros; trivial
  | op r f a rest ih =>
    intro L L' h hm hd
    refine ⟨fun hr => key L L' a hm (h.1 ?_), ih L L' h.2 hm fun v hv => hd v ?_⟩
    · rw [← hd r (by simp [allDefs])]; exact hr
    · simp [allDefs, hv]
  | reg r f a c rest ih =>
    intro L L' h hm hd
    refine ⟨?_, ih L L' h.2 hm fun v hv => hd v ?_⟩
    · rw [hd r (by simp [allDefs])]; exact h.1
    · simp [allDefs, hv]
  | reveal r a rest ih =>
    intro L L' h hm hd
    exact ih L L' h hm fun v hv => hd v (by simp [allDefs, hv])
  | eff r f a rest ih =>
    intro L L' h hm hd
    refine ⟨fun hr => key L L' a hm (h.1 ?_), ih L L' h.2 hm fun v hv => hd v ?_⟩
    · rw [← hd r (by simp [allDefs])]; exact hr
    · simp [allDefs, hv]
  | ite res c t ty e ey rest iht ihe ih =>
    intro L L' h hm hd
    exact ⟨iht L L' h.1 hm fun v hv => hd v (by simp [allDefs, hv]),
      ihe L L' h.2.1 hm fun v hv => hd v (by simp [allDefs, hv]),
      ih L L' h.2.2 hm fun v hv => hd v (by simp [allDefs, hv])⟩
  | loop res bs iv ps ins body ys rest ihb ih =>
    intro L L' h hm hd
    exact ⟨ihb L L' h.1 hm fun v hv => hd v (by simp [allDefs, hv]),
      ih L L' h.2 hm fun v hv => hd v (by simp [allDefs, hv])⟩

theorem raiseMany_frame : ∀ (vs ss : List Nat) (L : Labels) (x : Nat), x ∉ vs →
    raiseMany L vs ss x = L x := by
  intro vs
  induction vs with
  | nil => intro ss L x _; rfl
  | cons v vs ih =>
    intro ss L x hx
    cases ss with
    | nil => rfl
    | cons s ss =>
      simp only [List.mem_cons, not_or] at hx
      simp only [raiseMany]
      rw [ih _ _ _ hx.2, raise, Function.update_of_ne hx.1]

theorem visits_le : ∀ (b : Blk) (f : Labels → Labels), f ∈ visits b → ∀ (L : Labels) (x : Nat),
    rk (L x) ≤ rk (f L x) := by
  intro b
  induction b with
  | done => intro f hf; simp [visits] at hf
  | op r g a rest ih =>
    intro f hf L x
    rcases List.mem_cons.mp hf with rfl | h
    · exact raise_le _ _ _ _
    · exact ih f h L x
  | reg r g a c rest ih =>
    intro f hf L x
    rcases List.mem_cons.mp hf with rfl | h
    · exact raise_le _ _ _ _
    · exact ih f h L x
  | reveal r a rest ih =>
    intro f hf L x
    rcases List.mem_cons.mp hf with rfl | h
    · exact raise_le _ _ _ _
    · exact ih f h L x
  | eff r g a rest ih =>
    intro f hf L x
    rcases List.mem_cons.mp hf with rfl | h
    · exact raise_le _ _ _ _
    · exact ih f h L x
  | ite res c t ty e ey rest iht ihe ih =>
    intro f hf L x
    simp only [visits, List.mem_cons, List.mem_append] at hf
    rcases hf with rfl | rfl | (h | h) | h
    · exact raiseMany_le _ _ _ _
    · exact raiseMany_le _ _ _ _
    · exact iht f h L x
    · exact ihe f h L x
    · exact ih f h L x
  | loop res bs iv ps ins body ys rest ihb ih =>
    intro f hf L x
    simp only [visits, List.mem_cons, List.mem_append] at hf
    rcases hf with rfl | rfl | rfl | rfl | rfl | h | h
    · exact raise_le _ _ _ _
    · exact raiseMany_le _ _ _ _
    · exact raiseMany_le _ _ _ _
    · exact raiseMany_le _ _ _ _
    · exact raiseMany_le _ _ _ _
    · exact ihb f h L x
    · exact ih f h L x

theorem visits_frame : ∀ (b : Blk) (f : Labels → Labels), f ∈ visits b → ∀ (L : Labels) (x : Nat),
    x ∉ allDefs b → f L x = L x := by
  intro b
  induction b with
  | done => intro f hf; simp [visits] at hf
  | op r g a rest ih =>
    intro f hf L x hx
    simp only [allDefs, List.mem_cons, not_or] at hx
    rcases List.mem_cons.mp hf with rfl | h
    · exact Function.update_of_ne hx.1 _ _
    · exact ih f h L x hx.2
  | reg r g a c rest ih =>
    intro f hf L x hx
    simp only [allDefs, List.mem_cons, not_or] at hx
    rcases List.mem_cons.mp hf with rfl | h
    · exact Function.update_of_ne hx.1 _ _
    · exact ih f h L x hx.2
  | reveal r a rest ih =>
    intro f hf L x hx
    simp only [allDefs, List.mem_cons, not_or] at hx
    rcases List.mem_cons.mp hf with rfl | h
    · exact Function.update_of_ne hx.1 _ _
    · exact ih f h L x hx.2
  | eff r g a rest ih =>
    intro f hf L x hx
    simp only [allDefs, List.mem_cons, not_or] at hx
    rcases List.mem_cons.mp hf with rfl | h
    · exact Function.update_of_ne hx.1 _ _
    · exact ih f h L x hx.2
  | ite res c t ty e ey rest iht ihe ih =>
    intro f hf L x hx
    simp only [allDefs, List.mem_append, not_or] at hx
    simp only [visits, List.mem_cons, List.mem_append] at hf
    rcases hf with rfl | rfl | (h | h) | h
    · exact raiseMany_frame _ _ _ _ hx.1
    · exact raiseMany_frame _ _ _ _ hx.1
    · exact iht f h L x hx.2.1
    · exact ihe f h L x hx.2.2.1
    · exact ih f h L x hx.2.2.2
  | loop res bs iv ps ins body ys rest ihb ih =>
    intro f hf L x hx
    simp only [allDefs, List.mem_append, List.cons_append, List.mem_cons, not_or] at hx
    simp only [visits, List.mem_cons, List.mem_append] at hf
    rcases hf with rfl | rfl | rfl | rfl | rfl | h | h
    · exact Function.update_of_ne hx.2.1 _ _
    · exact raiseMany_frame _ _ _ _ hx.2.2.1
    · exact raiseMany_frame _ _ _ _ hx.2.2.1
    · exact raiseMany_frame _ _ _ _ hx.1
    · exact raiseMany_frame _ _ _ _ hx.1
    · exact ihb f h L x hx.2.2.2.1
    · exact ih f h L x hx.2.2.2.2

theorem grounded_visit : ∀ (b : Blk), (allDefs b).Nodup → ∀ (f : Labels → Labels), f ∈ visits b →
    ∀ L : Labels, Grounded L b → Grounded (f L) b := by
  have own : ∀ (L : Labels) (r : Nat) (a : List Nat), (L r = some false → none ∉ a.map L) →
      raise L r (visit (a.map L) false) r = some false →
      none ∉ a.map (raise L r (visit (a.map L) false)) := by
    intro L r a h h1 h2
    obtain ⟨v, hv, e⟩ := List.mem_map.mp h2
    have hn : L v = none := by
      have := raise_le L r (visit (a.map L) false) v
      rw [e] at this
      exact rk_inj (by simp only [rk] at this ⊢; omega)
    have hm : none ∈ a.map L := List.mem_map.mpr ⟨v, hv, hn⟩
    rw [raise, Function.update_self] at h1
    rcases hL : L r with _ | _ | _
    · rw [hL] at h1
      exact visit_known h1 hm
    · exact h hL hm
    · rw [hL] at h1
      rcases hw : visit (a.map L) false with _ | _ | _ <;> rw [hw] at h1 <;> simp [join] at h1
  intro b
  induction b with
  | done => intro _ f hf; simp [visits] at hf
  | op r g a rest ih =>
    intro hn f hf L h
    simp only [allDefs, List.nodup_cons] at hn
    rcases List.mem_cons.mp hf with rfl | hf
    · exact ⟨own L r a h.1, grounded_frame _ L _ h.2 (raise_le _ _ _) fun v hv =>
        Function.update_of_ne (fun e : v = r => hn.1 (e ▸ hv)) _ _⟩
    · have hk := visits_frame rest f hf L r hn.1
      refine ⟨fun hr hm => ?_, ih hn.2 f hf L h.2⟩
      rw [hk] at hr
      obtain ⟨v, hv, e⟩ := List.mem_map.mp hm
      refine h.1 hr (List.mem_map.mpr ⟨v, hv, ?_⟩)
      have := visits_le rest f hf L v
      rw [e] at this
      exact rk_inj (by simp only [rk] at this ⊢; omega)
  | reg r g a c rest ih =>
    intro hn f hf L h
    simp only [allDefs, List.nodup_cons] at hn
    rcases List.mem_cons.mp hf with rfl | hf
    · refine ⟨?_, grounded_frame _ L _ h.2 (raise_le _ _ _) fun v hv =>
        Function.update_of_ne (fun e : v = r => hn.1 (e ▸ hv)) _ _⟩
      have h1 := visit_reg (a.map L)
      have h2 := h.1
      change Function.update L r _ r ≠ _
      rw [Function.update_self]
      revert h1 h2
      rcases L r with _ | _ | _ <;> rcases visit (a.map L) true with _ | _ | _ <;> simp [join]
    · exact ⟨by rw [visits_frame rest f hf L r hn.1]; exact h.1, ih hn.2 f hf L h.2⟩
  | reveal r a rest ih =>
    intro hn f hf L h
    simp only [allDefs, List.nodup_cons] at hn
    rcases List.mem_cons.mp hf with rfl | hf
    · exact grounded_frame rest L _ h (raise_le _ _ _) fun v hv =>
        Function.update_of_ne (fun e : v = r => hn.1 (e ▸ hv)) _ _
    · exact ih hn.2 f hf L h
  | eff r g a rest ih =>
    intro hn f hf L h
    simp only [allDefs, List.nodup_cons] at hn
    rcases List.mem_cons.mp hf with rfl | hf
    · exact ⟨own L r a h.1, grounded_frame _ L _ h.2 (raise_le _ _ _) fun v hv =>
        Function.update_of_ne (fun e : v = r => hn.1 (e ▸ hv)) _ _⟩
    · have hk := visits_frame rest f hf L r hn.1
      refine ⟨fun hr hm => ?_, ih hn.2 f hf L h.2⟩
      rw [hk] at hr
      obtain ⟨v, hv, e⟩ := List.mem_map.mp hm
      refine h.1 hr (List.mem_map.mpr ⟨v, hv, ?_⟩)
      have := visits_le rest f hf L v
      rw [e] at this
      exact rk_inj (by simp only [rk] at this ⊢; omega)
  | ite res c t ty e ey rest iht ihe ih =>
    intro hn f hf L h
    have hle := visits_le _ f hf L
    simp only [allDefs, List.nodup_append, List.mem_append] at hn
    obtain ⟨n1, ⟨n2, ⟨n3, n4, d3⟩, d2⟩, d1⟩ := hn
    have fr : ∀ b' : Blk, Grounded L b' → (∀ v ∈ allDefs b', f L v = L v) → Grounded (f L) b' :=
      fun b' hg hd => grounded_frame b' L _ hg hle hd
    simp only [visits, List.mem_cons, List.mem_append] at hf
    rcases hf with rfl | rfl | (hf | hf) | hf
    · exact ⟨fr _ h.1 fun v hv => raiseMany_frame _ _ _ _ fun hr => d1 v hr v (.inl hv) rfl,
        fr _ h.2.1 fun v hv => raiseMany_frame _ _ _ _ fun hr => d1 v hr v (.inr (.inl hv)) rfl,
        fr _ h.2.2 fun v hv => raiseMany_frame _ _ _ _ fun hr => d1 v hr v (.inr (.inr hv)) rfl⟩
    · exact ⟨fr _ h.1 fun v hv => raiseMany_frame _ _ _ _ fun hr => d1 v hr v (.inl hv) rfl,
        fr _ h.2.1 fun v hv => raiseMany_frame _ _ _ _ fun hr => d1 v hr v (.inr (.inl hv)) rfl,
        fr _ h.2.2 fun v hv => raiseMany_frame _ _ _ _ fun hr => d1 v hr v (.inr (.inr hv)) rfl⟩
    · exact ⟨iht n2 f hf L h.1,
        fr _ h.2.1 fun v hv => visits_frame _ f hf L v fun hr => d2 v hr v (.inl hv) rfl,
        fr _ h.2.2 fun v hv => visits_frame _ f hf L v fun hr => d2 v hr v (.inr hv) rfl⟩
    · exact ⟨fr _ h.1 fun v hv => visits_frame _ f hf L v fun hr => d2 v hv v (.inl hr) rfl,
        ihe n3 f hf L h.2.1,
        fr _ h.2.2 fun v hv => visits_frame _ f hf L v fun hr => d3 v hr v hv rfl⟩
    · exact ⟨fr _ h.1 fun v hv => visits_frame _ f hf L v fun hr => d2 v hv v (.inr hr) rfl,
        fr _ h.2.1 fun v hv => visits_frame _ f hf L v fun hr => d3 v hv v hr rfl,
        ih n4 f hf L h.2.2⟩
  | loop res bs iv ps ins body ys rest ihb ih =>
    intro hn f hf L h
    have hle := visits_le _ f hf L
    simp only [allDefs, List.nodup_append, List.mem_append] at hn
    obtain ⟨n1, ⟨n2, ⟨n3, n4, d3⟩, d2⟩, d1⟩ := hn
    have fr : ∀ b' : Blk, Grounded L b' → (∀ v ∈ allDefs b', f L v = L v) → Grounded (f L) b' :=
      fun b' hg hd => grounded_frame b' L _ hg hle hd
    simp only [visits, List.mem_cons, List.mem_append] at hf
    rcases hf with rfl | rfl | rfl | rfl | rfl | hf | hf
    · exact ⟨fr _ h.1 fun v hv => Function.update_of_ne
          (fun hr : v = iv => d2 iv (by simp) v (.inl hv) hr.symm) _ _,
        fr _ h.2 fun v hv => Function.update_of_ne
          (fun hr : v = iv => d2 iv (by simp) v (.inr hv) hr.symm) _ _⟩
    · exact ⟨fr _ h.1 fun v hv => raiseMany_frame _ _ _ _ fun hr =>
          d2 v (List.mem_cons_of_mem _ hr) v (.inl hv) rfl,
        fr _ h.2 fun v hv => raiseMany_frame _ _ _ _ fun hr =>
          d2 v (List.mem_cons_of_mem _ hr) v (.inr hv) rfl⟩
    · exact ⟨fr _ h.1 fun v hv => raiseMany_frame _ _ _ _ fun hr =>
          d2 v (List.mem_cons_of_mem _ hr) v (.inl hv) rfl,
        fr _ h.2 fun v hv => raiseMany_frame _ _ _ _ fun hr =>
          d2 v (List.mem_cons_of_mem _ hr) v (.inr hv) rfl⟩
    · exact ⟨fr _ h.1 fun v hv => raiseMany_frame _ _ _ _ fun hr => d1 v hr v (.inr (.inl hv)) rfl,
        fr _ h.2 fun v hv => raiseMany_frame _ _ _ _ fun hr => d1 v hr v (.inr (.inr hv)) rfl⟩
    · exact ⟨fr _ h.1 fun v hv => raiseMany_frame _ _ _ _ fun hr => d1 v hr v (.inr (.inl hv)) rfl,
        fr _ h.2 fun v hv => raiseMany_frame _ _ _ _ fun hr => d1 v hr v (.inr (.inr hv)) rfl⟩
    · exact ⟨ihb n3 f hf L h.1,
        fr _ h.2 fun v hv => visits_frame _ f hf L v fun hr => d3 v hr v hv rfl⟩
    · exact ⟨fr _ h.1 fun v hv => visits_frame _ f hf L v fun hr => d3 v hv v hr rfl,
        ih n4 f hf L h.2⟩

theorem grounded_fresh : ∀ (b : Blk) (L : Labels), Fresh b L → Grounded L b := by
  intro b
  induction b with
  | done => intros; trivial
  | op r f a rest ih =>
    intro L h
    exact ⟨fun hr => by rw [h r (by simp [allDefs])] at hr; simp at hr,
      ih L fun v hv => h v (by simp [allDefs, hv])⟩
  | reg r f a c rest ih =>
    intro L h
    exact ⟨by rw [h r (by simp [allDefs])]; simp, ih L fun v hv => h v (by simp [allDefs, hv])⟩
  | reveal r a rest ih => intro L h; exact ih L fun v hv => h v (by simp [allDefs, hv])
  | eff r f a rest ih =>
    intro L h
    exact ⟨fun hr => by rw [h r (by simp [allDefs])] at hr; simp at hr,
      ih L fun v hv => h v (by simp [allDefs, hv])⟩
  | ite res c t ty e ey rest iht ihe ih =>
    intro L h
    exact ⟨iht L fun v hv => h v (by simp [allDefs, hv]), ihe L fun v hv => h v (by simp [allDefs, hv]),
      ih L fun v hv => h v (by simp [allDefs, hv])⟩
  | loop res bs iv ps ins body ys rest ihb ih =>
    intro L h
    exact ⟨ihb L fun v hv => h v (by simp [allDefs, hv]), ih L fun v hv => h v (by simp [allDefs, hv])⟩

theorem Reached.grounded {b : Blk} {L₀ L : Labels} (h : Reached b L₀ L) (hn : (allDefs b).Nodup)
    (hf : Fresh b L₀) : Grounded L b := by
  unfold Reached at h
  induction h with
  | refl => exact grounded_fresh b L₀ hf
  | tail _ h' ih =>
    obtain ⟨f, hf, rfl⟩ := h'
    exact grounded_visit b hn f hf _ ih

/-! ## Two runs -/

/-- Same values for public names. -/
def Agree (L : Labels) : List Nat → List V → List V → Prop
  | n :: ns, v :: vs, v' :: vs' => (L n = some false → v = v') ∧ Agree L ns vs vs'
  | [], [], [] => True
  | _, _, _ => False

/-- Agreement of the public values of `P`. -/
def Low (L : Labels) (P : List Nat) (env env' : Nat → V) : Prop :=
  ∀ v ∈ P, L v = some false → env v = env' v

theorem low_update {L : Labels} {P : List Nat} {env env' : Nat → V} (h : Low L P env env') (r : Nat)
    {x x' : V} (hx : L r = some false → x = x') :
    Low L (r :: P) (Function.update env r x) (Function.update env' r x') := by
  intro v hv hl
  by_cases hvr : v = r
  · subst hvr; simpa using hx hl
  · rw [Function.update_of_ne hvr, Function.update_of_ne hvr]
    rcases List.mem_cons.mp hv with h' | h'
    · exact absurd h' hvr
    · exact h v h' hl

theorem low_setMany {L : Labels} : ∀ (ns P : List Nat) (vs vs' : List V) (env env' : Nat → V),
    Low L P env env' → Agree L ns vs vs' →
    Low L (ns ++ P) (setMany env ns vs) (setMany env' ns vs') := by
  intro ns
  induction ns with
  | nil =>
    intro P vs vs' env env' h _
    cases vs <;> cases vs' <;> exact h
  | cons n ns ih =>
    intro P vs vs' env env' h ha
    cases vs with
    | nil => exact ha.elim
    | cons x vs =>
      cases vs' with
      | nil => exact ha.elim
      | cons x' vs' =>
        have := ih (n :: P) vs vs' _ _ (low_update h n ha.1) ha.2
        intro v hv hl
        refine this v ?_ hl
        simp only [List.cons_append, List.mem_cons, List.mem_append] at hv ⊢
        tauto

theorem agree_map {L : Labels} {P : List Nat} {env env' : Nat → V} (h : Low L P env env') :
    ∀ (res ys : List Nat), ys.length = res.length → ys ⊆ P → (∀ v ∈ ys, L v ≠ none) →
    Flows L res ys → Agree L res (ys.map env) (ys.map env') := by
  intro res
  induction res with
  | nil =>
    intro ys hl _ _ _
    obtain rfl := List.length_eq_zero_iff.mp hl
    trivial
  | cons r res ih =>
    intro ys hl hs hk hf
    cases ys with
    | nil => simp at hl
    | cons y ys =>
      obtain ⟨p1, p2⟩ := List.cons_subset.mp hs
      refine ⟨fun hr => h y p1 ?_, ih ys (by simpa using hl) p2
        (fun v hv => hk v (List.mem_cons_of_mem _ hv)) hf.2⟩
      have h1 := hf.1
      have h2 := hk y (by simp)
      rw [hr] at h1
      revert h1 h2
      rcases L y with _ | _ | _ <;> simp [rk]

/-- The operands of an op whose result is public are public. -/
theorem operands_public {L : Labels} {r : Nat} {a : List Nat} (hr : L r = some false)
    (hg : L r = some false → none ∉ a.map L) (hs : raise L r (visit (a.map L) false) = L) :
    ∀ v ∈ a, L v = some false := by
  intro v hv
  have h1 := raise_eq hs
  rw [hr] at h1
  rcases hL : L v with _ | _ | _
  · exact absurd (List.mem_map.mpr ⟨v, hv, hL⟩) (hg hr)
  · rfl
  · rw [visit_true (List.mem_map.mpr ⟨v, hv, hL⟩)] at h1
    simp [join] at h1

theorem low_map {L : Labels} {P a : List Nat} {env env' : Nat → V} (h : Low L P env env')
    (ha : a ⊆ P) (hp : ∀ v ∈ a, L v = some false) : a.map env = a.map env' :=
  List.map_congr_left fun v hv => h v (ha hv) (hp v hv)

theorem Diverge.append {l l' : List V} (h : Diverge l l') (t t' : List V) :
    Diverge (l ++ t) (l' ++ t') := by
  obtain ⟨k, a, b, h1, h2, h3⟩ := h
  refine ⟨k, a, b, ?_, ?_, h3⟩
  · rw [List.getElem?_append_left (List.getElem?_eq_some_iff.mp h1).1]; exact h1
  · rw [List.getElem?_append_left (List.getElem?_eq_some_iff.mp h2).1]; exact h2

theorem rev_append : ∀ (b : Blk) (s : St V), ∃ t, (eval S b s).rev = s.rev ++ t := by
  intro b
  induction b with
  | done => intro s; exact ⟨[], by simp [eval]⟩
  | op r f a rest ih => intro s; exact ih _
  | reg r f a c rest ih => intro s; exact ih _
  | reveal r a rest ih =>
    intro s
    obtain ⟨t, ht⟩ := ih { s with
      env := Function.update s.env r (s.env a), rev := s.rev ++ [s.env a] }
    exact ⟨[s.env a] ++ t, by simp only [eval]; rw [ht]; simp⟩
  | eff r f a rest ih => intro s; exact ih _
  | ite res c t ty e ey rest iht ihe ih =>
    intro s
    simp only [eval]
    split
    · obtain ⟨u, hu⟩ := iht { s with ctl := s.ctl ++ [.branch true] }
      obtain ⟨w, hw⟩ := ih ((eval S t { s with ctl := s.ctl ++ [.branch true] }).leave s.env res
        (ty.map (eval S t { s with ctl := s.ctl ++ [.branch true] }).env))
      exact ⟨u ++ w, by rw [hw]; simp only [St.leave]; rw [hu]; simp⟩
    · obtain ⟨u, hu⟩ := ihe { s with ctl := s.ctl ++ [.branch false] }
      obtain ⟨w, hw⟩ := ih ((eval S e { s with ctl := s.ctl ++ [.branch false] }).leave s.env res
        (ey.map (eval S e { s with ctl := s.ctl ++ [.branch false] }).env))
      exact ⟨u ++ w, by rw [hw]; simp only [St.leave]; rw [hu]; simp⟩
  | loop res bs iv ps ins body ys rest ihb ih =>
    intro s
    simp only [eval]
    have hit : ∀ n (a : List V × St V), ∃ t,
        (iter (loopStep (eval S body) s.env iv (S.iv (bs.map s.env)) ps ys) n a).2.rev
          = a.2.rev ++ t := by
      intro n a
      induction n with
      | zero => exact ⟨[], by simp [iter]⟩
      | succ n ihn =>
        obtain ⟨t, ht⟩ := ihn
        simp only [iter, loopStep]
        generalize iter (loopStep (eval S body) s.env iv (S.iv (bs.map s.env)) ps ys) n a = y at ht ⊢
        obtain ⟨u, hu⟩ := ihb { y.2 with
          env := setMany (Function.update s.env iv (S.iv (bs.map s.env) n)) ps y.1 }
        exact ⟨t ++ u, by rw [hu]; simp only; rw [ht]; simp⟩
    obtain ⟨t, ht⟩ := hit (S.trips (bs.map s.env))
      (ins.map s.env, { s with ctl := s.ctl ++ [.trip (S.trips (bs.map s.env))] })
    generalize iter (loopStep (eval S body) s.env iv (S.iv (bs.map s.env)) ps ys)
      (S.trips (bs.map s.env)) _ = y at ht ⊢
    obtain ⟨u, hu⟩ := ih (y.2.leave s.env res y.1)
    exact ⟨t ++ u, by rw [hu]; simp only [St.leave]; rw [ht]; simp⟩

theorem diverge_eval (b : Blk) {s s' : St V} (h : Diverge s.rev s'.rev) :
    Diverge (eval S b s).rev (eval S b s').rev := by
  obtain ⟨t, ht⟩ := rev_append (S := S) b s
  obtain ⟨t', ht'⟩ := rev_append (S := S) b s'
  rw [ht, ht']
  exact h.append t t'

theorem LowEq.mono {L : Labels} {P Q : List Nat} {s s' : St V} (h : LowEq L P s s') (hq : Q ⊆ P) :
    LowEq L Q s s' := ⟨fun v hv => h.1 v (hq hv), h.2⟩

theorem noninterference {L : Labels} (hS : S.NoLoads) : ∀ (b : Blk) (P : List Nat) (s s' : St V),
    Valid P b → Stable L b → Grounded L b → YieldsKnown L b → PublicCtl L b → LowEq L P s s' →
    LowEq L (P ++ topDefs b) (eval S b s) (eval S b s') ∨
      Diverge (eval S b s).rev (eval S b s').rev := by
  intro b
  induction b with
  | done => intro P s s' _ _ _ _ _ h; left; simpa [eval, topDefs] using h
  | op r f a rest ih =>
    intro P s s' hv hst hg hy hp h
    have hx : L r = some false → a.map s.env = a.map s'.env := fun hr =>
      low_map h.1 hv.1 (operands_public hr hg.1 (hst _ (List.mem_cons_self ..)))
    have h' : LowEq L (r :: P) { s with env := Function.update s.env r (f.eval S (a.map s.env)) }
        { s' with env := Function.update s'.env r (f.eval S (a.map s'.env)) } :=
      ⟨low_update h.1 r fun hr => by rw [hx hr], h.2⟩
    refine (ih (r :: P) _ _ hv.2 (fun f hf => hst f (List.mem_cons_of_mem _ hf)) hg.2 hy hp h').imp
      (fun k => k.mono ?_) id
    intro v hv
    simp only [topDefs, List.mem_append, List.mem_cons] at hv ⊢
    tauto
  | reg r f a c rest ih =>
    intro P s s' hv hst hg hy hp h
    have h' : LowEq L (r :: P)
        { s with env := Function.update s.env r (S.app f ((a ++ c).map s.env)) }
        { s' with env := Function.update s'.env r (S.app f ((a ++ c).map s'.env)) } :=
      ⟨low_update h.1 r fun hr => absurd hr hg.1, h.2⟩
    refine (ih (r :: P) _ _ hv.2.2 (fun f hf => hst f (List.mem_cons_of_mem _ hf)) hg.2 hy hp h').imp
      (fun k => k.mono ?_) id
    intro v hv
    simp only [topDefs, List.mem_append, List.mem_cons] at hv ⊢
    tauto
  | reveal r a rest ih =>
    intro P s s' hv hst hg hy hp h
    by_cases ha : s.env a = s'.env a
    · have h' : LowEq L (r :: P)
          { s with env := Function.update s.env r (s.env a), rev := s.rev ++ [s.env a] }
          { s' with env := Function.update s'.env r (s'.env a), rev := s'.rev ++ [s'.env a] } :=
        ⟨low_update h.1 r fun _ => ha, h.2.1, by simp only; rw [h.2.2, ha]⟩
      refine (ih (r :: P) _ _ hv.2 (fun f hf => hst f (List.mem_cons_of_mem _ hf)) hg hy hp h').imp
        (fun k => k.mono ?_) id
      intro v hv
      simp only [topDefs, List.mem_append, List.mem_cons] at hv ⊢
      tauto
    · right
      refine diverge_eval rest ⟨s.rev.length, s.env a, s'.env a, by simp, ?_, ha⟩
      simp only
      rw [h.2.2]; simp
  | eff r f a rest ih =>
    intro P s s' hv hst hg hy hp h
    have hx : L r = some false → a.map s.env = a.map s'.env := fun hr =>
      low_map h.1 hv.1 (operands_public hr hg.1 (hst _ (List.mem_cons_self ..)))
    have h' : LowEq L (r :: P)
        { s with
          env := Function.update s.env r (S.eff f (a.map s.env) s.mem)
          mem := s.mem ++ [(f, a.map s.env)] }
        { s' with
          env := Function.update s'.env r (S.eff f (a.map s'.env) s'.mem)
          mem := s'.mem ++ [(f, a.map s'.env)] } :=
      ⟨low_update h.1 r fun hr => by rw [hx hr]; exact hS _ _ _ _, h.2⟩
    refine (ih (r :: P) _ _ hv.2 (fun f hf => hst f (List.mem_cons_of_mem _ hf)) hg.2 hy hp h').imp
      (fun k => k.mono ?_) id
    intro v hv
    simp only [topDefs, List.mem_append, List.mem_cons] at hv ⊢
    tauto
  | ite res c t ty e ey rest iht ihe ih =>
    intro P s s' hv hst hg hy hp h
    obtain ⟨h1, h2, h3, h4, h5, h6, h7, h8⟩ := hv
    obtain ⟨g1, g2, g3⟩ := hg
    obtain ⟨y0, y1, y2, y3⟩ := hy
    obtain ⟨p0, p1, p2, p3⟩ := hp
    have sub : P ++ topDefs (.ite res c t ty e ey rest) ⊆ (res ++ P) ++ topDefs rest := by
      intro v hv
      simp only [topDefs, List.mem_append] at hv ⊢
      tauto
    have hin : ∀ f, f ∈ visits t ∨ f ∈ visits e ∨ f ∈ visits rest →
        f ∈ visits (.ite res c t ty e ey rest) := by
      intro f hf
      simp only [visits, List.mem_cons, List.mem_append]
      tauto
    have fin : ∀ u u' : St V, LowEq L (res ++ P) u u' →
        LowEq L (P ++ topDefs (.ite res c t ty e ey rest)) (eval S rest u) (eval S rest u') ∨
          Diverge (eval S rest u).rev (eval S rest u').rev := fun u u' hu =>
      (ih (res ++ P) u u' h8 (fun f hf => hst f (hin f (.inr (.inr hf)))) g3 y3 p3 hu).imp
        (fun k => LowEq.mono k sub) id
    have f1 : Flows L res ty := flows_of_stable _ _ _ (hst _ (List.mem_cons_self ..))
    have f2 : Flows L res ey :=
      flows_of_stable _ _ _ (hst _ (List.mem_cons_of_mem _ (List.mem_cons_self ..)))
    have hc : s.env c = s'.env c := h.1 c h1 p0
    simp only [eval]
    rw [← hc]
    split
    · rcases iht P { s with ctl := s.ctl ++ [.branch true] } { s' with ctl := s'.ctl ++ [.branch true] }
        h2 (fun f hf => hst f (hin f (.inl hf))) g1 y1 p1 ⟨h.1, by simp only; rw [h.2.1], h.2.2⟩
        with k | k
      · refine fin _ _ ⟨?_, k.2.1, k.2.2⟩
        exact low_setMany res P _ _ _ _ h.1 (agree_map k.1 res ty h4 h3
          (fun v hv => y0 v (List.mem_append_left _ hv)) f1)
      · right
        exact diverge_eval rest k
    · rcases ihe P { s with ctl := s.ctl ++ [.branch false] }
        { s' with ctl := s'.ctl ++ [.branch false] }
        h5 (fun f hf => hst f (hin f (.inr (.inl hf)))) g2 y2 p2 ⟨h.1, by simp only; rw [h.2.1], h.2.2⟩
        with k | k
      · refine fin _ _ ⟨?_, k.2.1, k.2.2⟩
        exact low_setMany res P _ _ _ _ h.1 (agree_map k.1 res ey h7 h6
          (fun v hv => y0 v (List.mem_append_right _ hv)) f2)
      · right
        exact diverge_eval rest k
  | loop res bs iv ps ins body ys rest ihb ih =>
    intro P s s' hv hst hg hy hp h
    obtain ⟨h1, h2, h3, h4, h5, h6, h7, h8⟩ := hv
    obtain ⟨g1, g3⟩ := hg
    obtain ⟨y0, y1, y3⟩ := hy
    obtain ⟨p0, p1, p3⟩ := hp
    have sub : P ++ topDefs (.loop res bs iv ps ins body ys rest) ⊆ (res ++ P) ++ topDefs rest := by
      intro v hv
      simp only [topDefs, List.mem_append] at hv ⊢
      tauto
    have hin : ∀ f, f ∈ visits body ∨ f ∈ visits rest →
        f ∈ visits (.loop res bs iv ps ins body ys rest) := by
      intro f hf
      simp only [visits, List.mem_cons, List.mem_append]
      tauto
    have fin : ∀ u u' : St V, LowEq L (res ++ P) u u' →
        LowEq L (P ++ topDefs (.loop res bs iv ps ins body ys rest)) (eval S rest u) (eval S rest u') ∨
          Diverge (eval S rest u).rev (eval S rest u').rev := fun u u' hu =>
      (ih (res ++ P) u u' h8 (fun f hf => hst f (hin f (.inr hf))) g3 y3 p3 hu).imp
        (fun k => LowEq.mono k sub) id
    have f1 : Flows L ps ins :=
      flows_of_stable _ _ _ (hst (fun L => raiseMany L ps ins) (by simp [visits]))
    have f2 : Flows L ps ys :=
      flows_of_stable _ _ _ (hst (fun L => raiseMany L ps ys) (by simp [visits]))
    have f3 : Flows L res ins :=
      flows_of_stable _ _ _ (hst (fun L => raiseMany L res ins) (by simp [visits]))
    have f4 : Flows L res ys :=
      flows_of_stable _ _ _ (hst (fun L => raiseMany L res ys) (by simp [visits]))
    have hb : bs.map s.env = bs.map s'.env := low_map h.1 h1 p0
    have kins : ∀ v ∈ ins, L v ≠ none := fun v hv => y0 v (List.mem_append_left _ hv)
    have kys : ∀ v ∈ ys, L v ≠ none := fun v hv => y0 v (List.mem_append_right _ hv)
    simp only [eval]
    rw [← hb]
    generalize S.trips (bs.map s.env) = n
    generalize S.iv (bs.map s.env) = ivAt
    have hit : ∀ m,
        let x := iter (loopStep (eval S body) s.env iv ivAt ps ys) m
          (ins.map s.env, { s with ctl := s.ctl ++ [.trip n] })
        let x' := iter (loopStep (eval S body) s'.env iv ivAt ps ys) m
          (ins.map s'.env, { s' with ctl := s'.ctl ++ [.trip n] })
        (Agree L ps x.1 x'.1 ∧ Agree L res x.1 x'.1 ∧ x.2.ctl = x'.2.ctl ∧ x.2.rev = x'.2.rev) ∨
          Diverge x.2.rev x'.2.rev := by
      intro m
      induction m with
      | zero =>
        left
        exact ⟨agree_map h.1 ps ins (by omega) h2 kins f1, agree_map h.1 res ins h3 h2 kins f3,
          by simp only [iter]; rw [h.2.1], h.2.2⟩
      | succ m ihm =>
        simp only [iter, loopStep] at ihm ⊢
        generalize iter (loopStep (eval S body) s.env iv ivAt ps ys) m
          (ins.map s.env, { s with ctl := s.ctl ++ [.trip n] }) = x at ihm ⊢
        generalize iter (loopStep (eval S body) s'.env iv ivAt ps ys) m
          (ins.map s'.env, { s' with ctl := s'.ctl ++ [.trip n] }) = x' at ihm ⊢
        rcases ihm with ⟨a1, -, a3, a4⟩ | k
        · have hl : Low L (iv :: ps ++ P) (setMany (Function.update s.env iv (ivAt m)) ps x.1)
              (setMany (Function.update s'.env iv (ivAt m)) ps x'.1) := by
            have := low_setMany ps (iv :: P) _ _ _ _ (low_update h.1 iv (x := ivAt m) (x' := ivAt m) fun _ => rfl) a1
            intro v hv hlv
            refine this v ?_ hlv
            simp only [List.cons_append, List.mem_cons, List.mem_append] at hv ⊢
            tauto
          rcases ihb (iv :: ps ++ P)
            { x.2 with env := setMany (Function.update s.env iv (ivAt m)) ps x.1 }
            { x'.2 with env := setMany (Function.update s'.env iv (ivAt m)) ps x'.1 }
            h5 (fun f hf => hst f (hin f (.inl hf))) g1 y1 p1 ⟨hl, a3, a4⟩ with k | k
          · left
            exact ⟨agree_map k.1 ps ys (by omega) h6 kys f2, agree_map k.1 res ys h7 h6 kys f4,
              k.2.1, k.2.2⟩
          · exact .inr k
        · right
          exact diverge_eval body k
    rcases hit n with ⟨-, a2, a3, a4⟩ | k
    · refine fin _ _ ⟨?_, a3, a4⟩
      exact low_setMany res P _ _ _ _ h.1 a2
    · right
      exact diverge_eval rest k

/-! ## When labels are known -/

theorem visit_some {os : List Secretness} (h : none ∉ os) : visit os false ≠ none := by
  have key : ∀ (os : List Secretness) (res : Secretness), none ∉ os → (res ≠ none ∨ os ≠ []) →
      (scan os res false).1 ≠ none ∧ ((scan os res false).2 = false) := by
    intro os
    induction os with
    | nil => intro res _ h; simpa [scan] using h
    | cons o os ih =>
      intro res hn _
      simp only [List.mem_cons, not_or] at hn
      obtain ⟨x, rfl⟩ := Option.ne_none_iff_exists'.mp (Ne.symm hn.1)
      simp only [scan]
      split
      · rename_i h; rw [h]; simp
      · refine ih _ hn.2 (.inl ?_)
        rcases res with _ | r
        · simp [join]
        · simp only [join]; split <;> simp
  unfold visit
  have := key os (if os.isEmpty then some false else none) h (by
    cases os <;> simp)
  simp only [this.2, Bool.or_false, Bool.false_eq_true, false_and, if_false]
  exact this.1

theorem known_iff {a : Secretness} : a ≠ none ↔ 1 ≤ rk a := by
  rcases a with _ | _ | _ <;> simp [rk]

theorem known_raise {L : Labels} {v : Nat} {s : Secretness} (h : raise L v s = L) (hs : s ≠ none) :
    L v ≠ none := by
  have := congrArg rk (raise_eq h)
  rw [rk_join] at this
  rw [known_iff] at hs ⊢
  omega

theorem known_flows {L : Labels} : ∀ (vs ss : List Nat), Flows L vs ss → ss.length = vs.length →
    (∀ s ∈ ss, L s ≠ none) → ∀ v ∈ vs, L v ≠ none := by
  intro vs
  induction vs with
  | nil => intro ss _ _ _ v hv; simp at hv
  | cons w vs ih =>
    intro ss hf hl hk v hv
    cases ss with
    | nil => simp at hl
    | cons s ss =>
      rcases List.mem_cons.mp hv with rfl | h
      · have h1 := known_iff.mp (hk s (by simp))
        have h2 := hf.1
        rw [known_iff]
        omega
      · exact ih ss hf.2 (by simpa using hl) (fun x hx => hk x (List.mem_cons_of_mem _ hx)) v h

theorem known_of_regFree {L : Labels} : ∀ (b : Blk) (P : List Nat), Valid P b → RegFree b →
    Stable L b → (∀ v ∈ P, L v ≠ none) → YieldsKnown L b ∧ ∀ v ∈ topDefs b, L v ≠ none := by
  have kmap : ∀ (P a : List Nat), a ⊆ P → (∀ v ∈ P, L v ≠ none) → none ∉ a.map L := by
    intro P a ha hP hm
    obtain ⟨v, hv, e⟩ := List.mem_map.mp hm
    exact hP v (ha hv) e
  have kcons : ∀ (r : Nat) (P : List Nat), L r ≠ none → (∀ v ∈ P, L v ≠ none) →
      ∀ v ∈ r :: P, L v ≠ none := by
    intro r P hr hP v hv
    rcases List.mem_cons.mp hv with rfl | h
    · exact hr
    · exact hP v h
  have kapp : ∀ (R P : List Nat), (∀ v ∈ R, L v ≠ none) → (∀ v ∈ P, L v ≠ none) →
      ∀ v ∈ R ++ P, L v ≠ none := by
    intro R P hr hP v hv
    exact (List.mem_append.mp hv).elim (hr v) (hP v)
  intro b
  induction b with
  | done => intro P _ _ _ _; exact ⟨trivial, by simp [topDefs]⟩
  | op r f a rest ih =>
    intro P hv hr hst hP
    have hk := known_raise (hst _ (List.mem_cons_self ..)) (visit_some (kmap P a hv.1 hP))
    obtain ⟨i1, i2⟩ := ih (r :: P) hv.2 hr (fun f hf => hst f (List.mem_cons_of_mem _ hf))
      (kcons r P hk hP)
    exact ⟨i1, kcons r _ hk i2⟩
  | reg r f a c rest ih => intro P _ hr; exact hr.elim
  | reveal r a rest ih =>
    intro P hv hr hst hP
    have hk := known_raise (hst _ (List.mem_cons_self ..)) (by simp)
    obtain ⟨i1, i2⟩ := ih (r :: P) hv.2 hr (fun f hf => hst f (List.mem_cons_of_mem _ hf))
      (kcons r P hk hP)
    exact ⟨i1, kcons r _ hk i2⟩
  | eff r f a rest ih =>
    intro P hv hr hst hP
    have hk := known_raise (hst _ (List.mem_cons_self ..)) (visit_some (kmap P a hv.1 hP))
    obtain ⟨i1, i2⟩ := ih (r :: P) hv.2 hr (fun f hf => hst f (List.mem_cons_of_mem _ hf))
      (kcons r P hk hP)
    exact ⟨i1, kcons r _ hk i2⟩
  | ite res c t ty e ey rest iht ihe ih =>
    intro P hv hr hst hP
    obtain ⟨h1, h2, h3, h4, h5, h6, h7, h8⟩ := hv
    obtain ⟨r1, r2, r3⟩ := hr
    have hin : ∀ f, f ∈ visits t ∨ f ∈ visits e ∨ f ∈ visits rest →
        f ∈ visits (.ite res c t ty e ey rest) := by
      intro f hf
      simp only [visits, List.mem_cons, List.mem_append]
      tauto
    obtain ⟨t1, t2⟩ := iht P h2 r1 (fun f hf => hst f (hin f (.inl hf))) hP
    obtain ⟨e1, e2⟩ := ihe P h5 r2 (fun f hf => hst f (hin f (.inr (.inl hf)))) hP
    have kty : ∀ v ∈ ty, L v ≠ none := fun v hv => kapp _ _ hP t2 v (h3 hv)
    have key : ∀ v ∈ ey, L v ≠ none := fun v hv => kapp _ _ hP e2 v (h6 hv)
    have kres := known_flows res ty
      (flows_of_stable _ _ _ (hst _ (List.mem_cons_self ..))) h4 kty
    obtain ⟨i1, i2⟩ := ih (res ++ P) h8 r3 (fun f hf => hst f (hin f (.inr (.inr hf))))
      (kapp _ _ kres hP)
    exact ⟨⟨kapp _ _ kty key, t1, e1, i1⟩, kapp _ _ kres i2⟩
  | loop res bs iv ps ins body ys rest ihb ih =>
    intro P hv hr hst hP
    obtain ⟨h1, h2, h3, h4, h5, h6, h7, h8⟩ := hv
    obtain ⟨r1, r3⟩ := hr
    have hin : ∀ f, f ∈ visits body ∨ f ∈ visits rest →
        f ∈ visits (.loop res bs iv ps ins body ys rest) := by
      intro f hf
      simp only [visits, List.mem_cons, List.mem_append]
      tauto
    have kins : ∀ v ∈ ins, L v ≠ none := fun v hv => hP v (h2 hv)
    have kiv : L iv ≠ none := known_raise (hst _ (List.mem_cons_self ..)) (by simp)
    have kps := known_flows ps ins (flows_of_stable _ _ _
      (hst (fun L => raiseMany L ps ins) (by simp [visits]))) (by omega) kins
    have kres := known_flows res ins (flows_of_stable _ _ _
      (hst (fun L => raiseMany L res ins) (by simp [visits]))) h3 kins
    have kin : ∀ v ∈ iv :: ps ++ P, L v ≠ none := kcons iv (ps ++ P) kiv (kapp _ _ kps hP)
    obtain ⟨b1, b2⟩ := ihb (iv :: ps ++ P) h5 r1 (fun f hf => hst f (hin f (.inl hf))) kin
    have kys : ∀ v ∈ ys, L v ≠ none := fun v hv => kapp _ _ kin b2 v (h6 hv)
    obtain ⟨i1, i2⟩ := ih (res ++ P) h8 r3 (fun f hf => hst f (hin f (.inr hf)))
      (kapp _ _ kres hP)
    exact ⟨⟨kapp _ _ kins kys, b1, i1⟩, kapp _ _ kres i2⟩

/-! ## Nothing left to convert -/

theorem publicCtl_of_normal {L : Labels} : ∀ b : Blk, b.isPure = true → PublicBounds L b →
    (∀ b', ¬ Step L b b') → (∀ P, Valid P b → PublicCtl L b) := by
  intro b
  induction b with
  | done => intros; trivial
  | op r f a rest ih =>
    intro hp hb hn P hv
    exact ih hp hb (fun b' h => hn _ (.op h)) _ hv.2
  | reg r f a c rest ih =>
    intro hp hb hn P hv
    exact ih hp hb (fun b' h => hn _ (.reg h)) _ hv.2.2
  | reveal r a rest ih =>
    intro hp hb hn P hv
    exact ih hp hb (fun b' h => hn _ (.reveal h)) _ hv.2
  | eff r f a rest ih => intro hp; simp [Blk.isPure] at hp
  | ite res c t ty e ey rest iht ihe ih =>
    intro hp hb hn P hv
    simp only [Blk.isPure, Bool.and_eq_true] at hp
    obtain ⟨b1, b2, b3⟩ := hb
    obtain ⟨h1, h2, h3, h4, h5, h6, h7, h8⟩ := hv
    refine ⟨?_, iht hp.1.1 b1 (fun b' h => hn _ (.thn h)) _ h2,
      ihe hp.1.2 b2 (fun b' h => hn _ (.els h)) _ h5, ih hp.2 b3 (fun b' h => hn _ (.after h)) _ h8⟩
    by_contra hc
    by_cases hr : res = []
    · subst hr
      obtain rfl := List.length_eq_zero_iff.mp h4
      obtain rfl := List.length_eq_zero_iff.mp h7
      exact hn _ (.dead hp.1.1 hp.1.2)
    · refine hn (t.app (e.app (selects c res ty ey rest))) (.convert hr ?_)
      simp [convertIf, hc, hp.1.1, hp.1.2]
  | loop res bs iv ps ins body ys rest ihb ih =>
    intro hp hb hn P hv
    simp only [Blk.isPure, Bool.and_eq_true] at hp
    obtain ⟨b0, b1, b2⟩ := hb
    obtain ⟨h1, h2, h3, h4, h5, h6, h7, h8⟩ := hv
    exact ⟨b0, ihb hp.1 b1 (fun b' h => hn _ (.body h)) _ h5,
      ih hp.2 b2 (fun b' h => hn _ (.afterLoop h)) _ h8⟩

theorem eval_noReveal : ∀ (b : Blk) (s : St V), NoReveal b → (eval S b s).rev = s.rev := by
  intro b
  induction b with
  | done => intro s _; rfl
  | op r f a rest ih => intro s h; exact ih _ h
  | reg r f a c rest ih => intro s h; exact ih _ h
  | reveal r a rest ih => intro s h; exact h.elim
  | eff r f a rest ih => intro s h; exact ih _ h
  | ite res c t ty e ey rest iht ihe ih =>
    intro s h
    simp only [eval]
    split
    · rw [ih _ h.2.2]; exact iht _ h.1
    · rw [ih _ h.2.2]; exact ihe _ h.2.1
  | loop res bs iv ps ins body ys rest ihb ih =>
    intro s h
    simp only [eval]
    rw [ih _ h.2]
    simp only [St.leave]
    generalize S.trips (bs.map s.env) = n
    generalize hc : s.ctl ++ _ = c
    clear hc
    induction n with
    | zero => rfl
    | succ n ihn => simp only [iter, loopStep]; rw [ihb _ h.1]; exact ihn

end Heir.Secret
