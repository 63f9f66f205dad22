import Verif.Preproc.Lemmas3
import Mathlib.Data.List.Perm.Subperm
import Mathlib.Data.List.Pairwise

namespace Heir.Preproc

variable {V K : Type}

/-! ## The worklist -/

theorem push_spec (s : List Nat × List Nat) (o : Nat) :
    (∀ x, x ∈ (push s o).1 ↔ x ∈ s.1 ∨ x = o) ∧ (s.1.Nodup → (push s o).1.Nodup) ∧
      (∀ x ∈ (push s o).1, x ∈ (push s o).2 ∨ x ∈ s.1) ∧ (∀ x ∈ s.2, x ∈ (push s o).2) ∧
      (∀ n, s.1.length = s.2.length + n → (push s o).1.length = (push s o).2.length + n) := by
  unfold push
  split
  · rename_i h
    exact ⟨fun x => ⟨.inl, fun hx => hx.elim id fun he => he ▸ h⟩, id, fun x hx => .inr hx, fun x hx => hx, fun n hn => hn⟩
  · rename_i h
    refine ⟨fun x => by simp, fun hn => ?_, fun x hx => ?_, fun x hx => by simp [hx], fun n hn => ?_⟩
    · exact List.Nodup.append hn (by simp) (by simpa using h)
    · simp only [List.mem_append, List.mem_singleton] at hx
      exact hx.elim .inr fun he => .inl (by simp [he])
    · simp [hn]; omega

theorem pushes_spec : ∀ (l : List Nat) (s : List Nat × List Nat),
    (∀ x, x ∈ (l.foldl push s).1 ↔ x ∈ s.1 ∨ x ∈ l) ∧ (s.1.Nodup → (l.foldl push s).1.Nodup) ∧
      (∀ x ∈ (l.foldl push s).1, x ∈ (l.foldl push s).2 ∨ x ∈ s.1) ∧ (∀ x ∈ s.2, x ∈ (l.foldl push s).2) ∧
      (∀ n, s.1.length = s.2.length + n → (l.foldl push s).1.length = (l.foldl push s).2.length + n) := by
  intro l
  induction l with
  | nil => intro s; exact ⟨fun x => by simp, id, fun x hx => .inr hx, fun x hx => hx, fun n hn => hn⟩
  | cons o l ih =>
    intro s
    obtain ⟨a1, a2, a3, a4, a5⟩ := push_spec s o
    obtain ⟨b1, b2, b3, b4, b5⟩ := ih (push s o)
    refine ⟨fun x => ?_, fun h => b2 (a2 h), fun x hx => ?_, fun x hx => b4 x (a4 x hx), fun n hn => b5 n (a5 n hn)⟩
    · rw [List.foldl_cons, b1, a1, List.mem_cons, or_assoc]
    · rcases b3 x hx with h | h
      · exact .inl h
      · exact (a3 x h).imp_left (b4 x)

/-- What holds of the set and the worklist after `n` rounds. -/
structure Inv (rs : List Row) (T : Nat → Prop) (n : Nat) (s : List Nat × List Nat) : Prop where
  nodup : s.1.Nodup
  sub : ∀ o ∈ s.1, o ∈ rs.map (·.id)
  closed : ∀ o ∈ s.1, o ∈ s.2 ∨ ∀ x ∈ succs rs o, x ∈ s.1
  rounds : s.1.length = s.2.length + n
  least : ∀ o ∈ s.1, T o

theorem close_spec {rs : List Row} {T : Nat → Prop} (hT : ∀ o, T o → ∀ x ∈ succs rs o, T x)
    (hs : ∀ o, ∀ x ∈ succs rs o, x ∈ rs.map (·.id)) :
    ∀ (fuel n : Nat) (s : List Nat × List Nat), Inv rs T n s → rs.length ≤ n + fuel → (∀ o ∈ s.2, o ∈ s.1) →
      (∀ o ∈ (close rs fuel s).1, ∀ x ∈ succs rs o, x ∈ (close rs fuel s).1) ∧
      (∀ o ∈ s.1, o ∈ (close rs fuel s).1) ∧ (∀ o ∈ (close rs fuel s).1, T o ∧ o ∈ rs.map (·.id)) := by
  intro fuel
  induction fuel with
  | zero =>
    intro n s h hn _
    have hl : s.1.length ≤ rs.length := by
      have := (List.Nodup.subperm h.nodup h.sub).length_le
      simpa using this
    have h2 : s.2 = [] := by
      have := h.rounds
      exact List.eq_nil_of_length_eq_zero (by omega)
    refine ⟨fun o ho => (h.closed o ho).resolve_left (by simp [h2]), fun o ho => ho, fun o ho => ⟨h.least o ho, h.sub o ho⟩⟩
  | succ fuel ih =>
    intro n s h hn hsub
    obtain ⟨seen, work⟩ := s
    cases work with
    | nil =>
      exact ⟨fun o ho => (h.closed o ho).resolve_left (by simp), fun o ho => ho, fun o ho => ⟨h.least o ho, h.sub o ho⟩⟩
    | cons o work =>
      simp only [close]
      obtain ⟨b1, b2, b3, b4, b5⟩ := pushes_spec (succs rs o) (seen, work)
      have hT' : ∀ x ∈ ((succs rs o).foldl push (seen, work)).1, T x := by
        intro x hx
        rcases (b1 x).mp hx with h1 | h1
        · exact h.least x h1
        · exact hT o (h.least o (hsub o (by simp))) x h1
      have hinv : Inv rs T (n + 1) ((succs rs o).foldl push (seen, work)) := by
        refine ⟨b2 h.nodup, fun x hx => ?_, fun x hx => ?_, b5 _ ?_, hT'⟩
        · exact ((b1 x).mp hx).elim (h.sub x) (hs o x)
        · rcases b3 x hx with h1 | h1
          · exact .inl h1
          · rcases h.closed x h1 with h2 | h2
            · rcases List.mem_cons.mp h2 with rfl | h2
              · exact .inr fun y hy => (b1 y).mpr (.inr hy)
              · exact .inl (b4 x h2)
            · exact .inr fun y hy => (b1 y).mpr (.inl (h2 y hy))
        · have := h.rounds; simp at this ⊢; omega
      have hws : ∀ x ∈ ((succs rs o).foldl push (seen, work)).2, x ∈ ((succs rs o).foldl push (seen, work)).1 := by
        have : ∀ (l : List Nat) (s : List Nat × List Nat), (∀ x ∈ s.2, x ∈ s.1) →
            ∀ x ∈ (l.foldl push s).2, x ∈ (l.foldl push s).1 := by
          intro l
          induction l with
          | nil => intro s h; exact h
          | cons a l ihl =>
            intro s h
            refine ihl _ ?_
            unfold push
            split
            · exact h
            · intro x hx
              simp only [List.mem_cons] at hx
              rcases hx with rfl | hx
              · simp
              · simp [h x hx]
        exact this _ _ fun x hx => hsub x (by simp [hx])
      obtain ⟨c1, c2, c3⟩ := ih (n + 1) _ hinv (by omega) hws
      exact ⟨c1, fun x hx => c2 x ((b1 x).mpr (.inl hx)), c3⟩

theorem parent_mem : ∀ (c : Code) (p : Option Nat), ∀ r ∈ rows p c, r.parent = p ∨
    ∃ q ∈ (rows p c).map (·.id), r.parent = some q := by
  intro c
  induction c with
  | done => intro p r hr; simp [rows] at hr
  | op id res f args rest ih =>
    intro p r hr; simp only [rows, List.mem_cons] at hr
    rcases hr with rfl | hr
    · exact .inl rfl
    · exact (ih p r hr).imp_right fun ⟨q, h, h'⟩ => ⟨q, by simp [rows, List.mem_map] at h ⊢; exact .inr h, h'⟩
  | enc id site res f ty shape args rest ih =>
    intro p r hr; simp only [rows, List.mem_cons] at hr
    rcases hr with rfl | hr
    · exact .inl rfl
    · exact (ih p r hr).imp_right fun ⟨q, h, h'⟩ => ⟨q, by simp [rows, List.mem_map] at h ⊢; exact .inr h, h'⟩
  | ite id res c t ty el ey rest iht ihe ih =>
    intro p r hr; simp only [rows, List.mem_cons, List.mem_append] at hr
    rcases hr with rfl | (hr | hr) | hr
    · exact .inl rfl
    · rcases iht (some id) r hr with h | ⟨q, h, h'⟩
      · exact .inr ⟨id, by simp [rows], h⟩
      · exact .inr ⟨q, by simp only [rows, List.map_cons, List.map_append, List.mem_cons, List.mem_append]; simp only [h, true_or, or_true], h'⟩
    · rcases ihe (some id) r hr with h | ⟨q, h, h'⟩
      · exact .inr ⟨id, by simp [rows], h⟩
      · exact .inr ⟨q, by simp only [rows, List.map_cons, List.map_append, List.mem_cons, List.mem_append]; simp only [h, true_or, or_true], h'⟩
    · exact (ih p r hr).imp_right fun ⟨q, h, h'⟩ => ⟨q, by simp only [rows, List.map_cons, List.map_append, List.mem_cons, List.mem_append]; simp only [h, or_true], h'⟩
  | loop id res iv l inits iters body ys rest ihb ih =>
    intro p r hr; simp only [rows, List.mem_cons, List.mem_append] at hr
    rcases hr with rfl | hr | hr
    · exact .inl rfl
    · rcases ihb (some id) r hr with h | ⟨q, h, h'⟩
      · exact .inr ⟨id, by simp [rows], h⟩
      · exact .inr ⟨q, by simp only [rows, List.map_cons, List.map_append, List.mem_cons, List.mem_append]; simp only [h, true_or, or_true], h'⟩
    · exact (ih p r hr).imp_right fun ⟨q, h, h'⟩ => ⟨q, by simp only [rows, List.map_cons, List.map_append, List.mem_cons, List.mem_append]; simp only [h, or_true], h'⟩
  | store site ty v one idx rest ih => intro p; exact ih p
  | load site ty res one idx rest ih => intro p; exact ih p

theorem mem_succs {rs : List Row} {o x : Nat} : x ∈ succs rs o ↔ ∃ r ∈ rs, r.id = o ∧
    (r.parent = some x ∨ ∃ v ∈ r.uses, ∃ d ∈ rs, v ∈ d.defs ∧ d.id = x) := by
  simp only [succs, List.mem_flatMap, List.mem_filter, decide_eq_true_eq, List.mem_append, Option.mem_toList,
    List.mem_map]
  constructor
  · rintro ⟨r, ⟨hr, rfl⟩, h | ⟨v, hv, d, ⟨hd, hvd⟩, rfl⟩⟩
    · exact ⟨r, hr, rfl, .inl h⟩
    · exact ⟨r, hr, rfl, .inr ⟨v, hv, d, hd, hvd, rfl⟩⟩
  · rintro ⟨r, hr, rfl, h | ⟨v, hv, d, hd, hvd, rfl⟩⟩
    · exact ⟨r, ⟨hr, rfl⟩, .inl h⟩
    · exact ⟨r, ⟨hr, rfl⟩, .inr ⟨v, hv, d, ⟨hd, hvd⟩, rfl⟩⟩

theorem succs_sub (c : Code) (o : Nat) : ∀ x ∈ succs (rows none c) o, x ∈ (rows none c).map (·.id) := by
  intro x hx
  obtain ⟨r, hr, -, h | ⟨v, -, d, hd, -, rfl⟩⟩ := mem_succs.mp hx
  · rcases parent_mem c none r hr with h' | ⟨q, hq, h'⟩
    · rw [h] at h'; cases h'
    · rw [h] at h'; cases h'; exact hq
  · exact List.mem_map.mpr ⟨d, hd, rfl⟩

/-- The cloned operations are the least set with the encoders that is closed. -/
theorem deps_spec (c : Code) :
    (∀ r ∈ rows none c, r.isEnc = true → r.id ∈ deps c) ∧
    (∀ o ∈ deps c, ∀ x ∈ succs (rows none c) o, x ∈ deps c) ∧
    ∀ T : Nat → Prop, (∀ r ∈ rows none c, r.isEnc = true → T r.id) →
      (∀ o, T o → ∀ x ∈ succs (rows none c) o, T x) → ∀ o ∈ deps c, T o := by
  have base : ∀ T : Nat → Prop, (∀ r ∈ rows none c, r.isEnc = true → T r.id) →
      Inv (rows none c) T 0 ((((rows none c).filter (·.isEnc)).map (·.id)).foldl push ([], [])) ∧
      ∀ o ∈ ((((rows none c).filter (·.isEnc)).map (·.id)).foldl push ([], [])).2,
        o ∈ ((((rows none c).filter (·.isEnc)).map (·.id)).foldl push ([], [])).1 := by
    intro T hT
    obtain ⟨b1, b2, b3, b4, b5⟩ := pushes_spec (((rows none c).filter (·.isEnc)).map (·.id)) ([], [])
    refine ⟨⟨b2 (by simp), fun o ho => ?_, fun o ho => ?_, b5 0 rfl, fun o ho => ?_⟩, ?_⟩
    · obtain ⟨r, hr, rfl⟩ := List.mem_map.mp (((b1 o).mp ho).resolve_left (by simp))
      exact List.mem_map.mpr ⟨r, (List.mem_filter.mp hr).1, rfl⟩
    · exact .inl ((b3 o ho).resolve_right (by simp))
    · obtain ⟨r, hr, rfl⟩ := List.mem_map.mp (((b1 o).mp ho).resolve_left (by simp))
      exact hT r (List.mem_filter.mp hr).1 (List.mem_filter.mp hr).2
    · have : ∀ (l : List Nat) (s : List Nat × List Nat), (∀ x ∈ s.2, x ∈ s.1) →
          ∀ x ∈ (l.foldl push s).2, x ∈ (l.foldl push s).1 := by
        intro l
        induction l with
        | nil => intro s h; exact h
        | cons a l ihl =>
          intro s h
          refine ihl _ ?_
          unfold push
          split
          · exact h
          · intro x hx
            simp only [List.mem_cons] at hx
            rcases hx with rfl | hx
            · simp
            · simp [h x hx]
      exact this _ _ (by simp)
  refine ⟨fun r hr he => ?_, ?_, fun T hT hc o ho => ?_⟩
  · obtain ⟨hb, hb2⟩ := base (fun _ => True) (by simp)
    refine (close_spec (by simp) (succs_sub c) _ 0 _ hb (by omega) hb2).2.1 _ ?_
    exact ((pushes_spec _ _).1 _).mpr (.inr (List.mem_map.mpr ⟨r, List.mem_filter.mpr ⟨hr, he⟩, rfl⟩))
  · obtain ⟨hb, hb2⟩ := base (fun _ => True) (by simp)
    exact (close_spec (by simp) (succs_sub c) _ 0 _ hb (by omega) hb2).1
  · obtain ⟨hb, hb2⟩ := base T hT
    exact ((close_spec hc (succs_sub c) _ 0 _ hb (by omega) hb2).2.2 o ho).1

/-! ## Names have one definition -/

theorem rows_defs : ∀ (c : Code) (p : Option Nat), Source c →
    ((rows p c).flatMap (·.defs)).Perm (defs c) := by
  intro c
  induction c with
  | done => intro p _; simp [rows, defs]
  | op id res f args rest ih =>
    intro p hs; simp only [rows, defs, List.flatMap_cons]; exact (List.Perm.refl _).append (ih p hs)
  | enc id site res f ty shape args rest ih =>
    intro p hs; simp only [rows, defs, List.flatMap_cons, List.singleton_append]; exact (ih p hs).cons _
  | ite id res c t ty el ey rest iht ihe ih =>
    intro p hs; simp only [rows, defs, List.flatMap_cons, List.flatMap_append]
    rw [← List.append_assoc]
    refine List.Perm.append ?_ (ih p hs.2.2)
    exact List.perm_append_comm.trans (((iht _ hs.1).append (ihe _ hs.2.1)).append_right _)
  | loop id res iv l inits iters body ys rest ihb ih =>
    intro p hs; simp only [rows, defs, List.flatMap_cons, List.flatMap_append]
    rw [← List.append_assoc]
    refine List.Perm.append ?_ (ih p hs.2)
    rw [List.append_assoc, List.append_assoc (iv :: iters)]
    exact ((List.perm_append_comm.trans ((ihb _ hs.1).append_right _)).append_left _)
  | store => intro p hs; exact hs.elim
  | load => intro p hs; exact hs.elim

theorem rows_unique {c : Code} (hs : Source c) (hn : (defs c).Nodup) {r r' : Row} (hr : r ∈ rows none c)
    (hr' : r' ∈ rows none c) {v : Nat} (hv : v ∈ r.defs) (hv' : v ∈ r'.defs) : r = r' := by
  have h := (rows_defs c none hs).nodup_iff.mpr hn
  rw [List.nodup_flatMap] at h
  by_contra hne
  haveI : Std.Symm (Function.onFun List.Disjoint fun x : Row => x.defs) := ⟨fun a b hab => hab.symm⟩
  have := h.2.forall hr hr' hne
  exact this hv hv'

/-- Names whose values the function that encodes has. -/
def Live (ct : Nat → Bool) (f : Func) (v : Nat) : Prop :=
  ct v = false ∧ (∀ r ∈ rows none f.code, v ∈ r.defs → r.id ∈ deps f.code) ∧ (v ∈ f.args → v ∈ inputs ct f.code)

theorem ok_deps {ct : Nat → Bool} {f : Func} (hs : Source f.code) (hn : Ssa f) :
    Ok ct (deps f.code) (Live ct f) (rows none f.code) := by
  obtain ⟨henc, hcl, -⟩ := deps_spec f.code
  obtain ⟨-, hd, hdis⟩ := List.nodup_append'.mp hn
  refine ⟨fun r hr hid v hv hct => ⟨hct, fun d hd' hvd => ?_, fun ha => ?_⟩, fun r hr hid v hv hct => ⟨hct, ?_, fun ha => ?_⟩,
    fun r hr hid v hv hl => hid (hl.2.1 r hr hv), henc, fun r hr q hq hid => ?_⟩
  · exact hcl r.id hid _ (mem_succs.mpr ⟨r, hr, rfl, .inr ⟨v, hv, d, hd', hvd, rfl⟩⟩)
  · simp only [inputs, List.mem_dedup, List.mem_filter, List.mem_flatMap, decide_eq_true_eq]
    refine ⟨⟨r.id, hid, r, ⟨hr, rfl⟩, hv⟩, ?_⟩
    simp only [hct, Bool.not_false, Bool.true_and, List.all_eq_true]
    intro d hd'
    have : v ∉ d.defs := fun hvd => hdis ha ((rows_defs f.code none hs).mem_iff.mp (List.mem_flatMap.mpr ⟨d, hd', hvd⟩))
    simp [this]
  · intro d hd' hvd
    rw [rows_unique hs hd hd' hr hvd hv]; exact hid
  · exact absurd ((rows_defs f.code none hs).mem_iff.mp (List.mem_flatMap.mpr ⟨r, hr, hv⟩)) fun h => hdis ha h
  · exact hcl r.id hid q (mem_succs.mpr ⟨r, hr, rfl, .inl hq⟩)

/-! ## Both functions together -/

/-- If different references have different places, the rewritten function
returns what the original returns. -/
theorem runSplit_spec [DecidableEq K] {I : Interp V} (hI : I.Lawful) (key : Ref → Option K) {ct : Nat → Bool} {f : Func}
    {s : Split} (hs : Source f.code) (ht : Typed ct f.code) (hn : Ssa f)
    (hsites : ((encs [] f.code).map (·.1)).Nodup) (hc : convert ct f = some (some s))
    (hk : ∀ r, IsRef f.code r → ∃ k, key r = some k)
    (hi : ∀ r r', IsRef f.code r → IsRef f.code r' → key r = key r' → r.site = r'.site ∧ r.idx = r'.idx)
    (vals dummy : Nat → V) :
    runSplit I key f s vals dummy = (f.rets.map (eval I f.code vals), true) := by
  have hs' : s = ⟨inputs ct f.code, slice (deps f.code) [] f.code, loads [] f.code⟩ := by
    unfold convert at hc
    split at hc
    · simp at hc
    · split at hc
      · simpa using hc.symm
      · simp at hc
  subst hs'
  have hd : (defs f.code).Nodup := (List.nodup_append'.mp hn).2.1
  have hag : Agree (Live ct f) (prepEnv f ⟨inputs ct f.code, slice (deps f.code) [] f.code, loads [] f.code⟩ vals dummy) vals := by
    intro v hv
    unfold prepEnv
    split
    · rfl
    · rename_i h
      split
      · rename_i h'; exact absurd (hv.2.2 h') h
      · rfl
  obtain ⟨-, hm⟩ := slice_run hI key (A := Live ct f) (fun v h => h.1) f.code none [] [] []
    ⟨prepEnv f ⟨inputs ct f.code, slice (deps f.code) [] f.code, loads [] f.code⟩ vals dummy, emptyStore, true⟩ vals
    hs ht (ok_deps hs hn) (by simp) hd hag rfl
  have href : ∀ x ∈ trace I [] [] f.code vals, IsRef f.code x.1 := fun x hx =>
    ⟨(trace_ref I f.code [] [] vals .nil x hx).1, (trace_ref I f.code [] [] vals .nil x hx).2.1⟩
  obtain ⟨h1, h2, -⟩ := writes_spec key (trace I [] [] f.code vals)
    ⟨prepEnv f ⟨inputs ct f.code, slice (deps f.code) [] f.code, loads [] f.code⟩ vals dummy, emptyStore, true⟩
    (fun x hx => hk x.1 (href x hx)) (trace_nodup I f.code [] [] vals .nil hsites)
    fun x hx y hy he => Prod.ext (hi _ _ (href x hx) (href y hy) he).1 (hi _ _ (href x hx) (href y hy) he).2
  unfold runSplit
  simp only
  rw [loads_run hI key f.code [] [] [] _ hs (by simp) hd rfl]
  · simp only [hm.2, h1]
  · intro x hx
    obtain ⟨k, hk1, hk2⟩ := h2 x hx
    exact ⟨k, hk1, by simp only [hm.1]; exact hk2⟩

/-! ## Numbers of encoders -/

theorem number_encs : ∀ (c : Code) (n : Nat) (ls : List Loop),
    (encs ls (number c n).1).map (·.1) = (List.range (encs ls c).length).map (n + ·) ∧
      (number c n).2 = n + (encs ls c).length := by
  have hcat : ∀ a b n : Nat, (List.range a).map (n + ·) ++ (List.range b).map (n + a + ·) = (List.range (a + b)).map (n + ·) := by
    intro a b n
    rw [List.range_add, List.map_append, List.map_map]
    congr 1
    exact List.map_congr_left fun x _ => by simp [Nat.add_assoc]
  intro c
  induction c with
  | done => intro n ls; simp [number, encs]
  | op id res f args rest ih => intro n ls; simpa [number, encs] using ih n ls
  | enc id site res f ty shape args rest ih =>
    intro n ls
    obtain ⟨h1, h2⟩ := ih (n + 1) ls
    simp only [number, encs, List.map_cons, List.length_cons, h1, h2]
    refine ⟨?_, by omega⟩
    have := hcat 1 (encs ls rest).length n
    rw [Nat.add_comm 1] at this
    rw [← this]; simp
  | ite id res c t ty el ey rest iht ihe ih =>
    intro n ls
    obtain ⟨a1, a2⟩ := iht n ls
    obtain ⟨b1, b2⟩ := ihe (number t n).2 ls
    obtain ⟨c1, c2⟩ := ih (number el (number t n).2).2 ls
    simp only [number, encs, List.map_append, List.length_append, a1, b1, c1, c2]
    rw [b2, a2, hcat]
    refine ⟨?_, by omega⟩
    rw [Nat.add_assoc n, hcat]
  | loop id res iv l inits iters body ys rest ihb ih =>
    intro n ls
    obtain ⟨a1, a2⟩ := ihb n (ls ++ [l])
    obtain ⟨c1, c2⟩ := ih (number body n).2 ls
    simp only [number, encs, List.map_append, List.length_append, a1, c1, c2]
    rw [a2, hcat]
    exact ⟨rfl, by omega⟩
  | store site ty v one idx rest ih => intro n ls; simpa [number, encs] using ih n ls
  | load site ty res one idx rest ih => intro n ls; simpa [number, encs] using ih n ls

/-- Sites of a module. -/
theorem numberAll_sites : ∀ (m : List Func) (n : Nat),
    (((numberAll m n).flatMap fun f => encs [] f.code).map (·.1)) =
      (List.range (m.flatMap fun f => encs [] f.code).length).map (n + ·) := by
  intro m
  induction m with
  | nil => intro n; simp [numberAll]
  | cons f m ih =>
    intro n
    obtain ⟨h1, h2⟩ := number_encs f.code n []
    simp only [numberAll, List.flatMap_cons, List.map_append, List.length_append, h1, ih, h2]
    rw [List.range_add, List.map_append, List.map_map]
    congr 1
    exact List.map_congr_left fun x _ => by simp [Nat.add_assoc]

theorem number_eval (I : Interp V) : ∀ (c : Code) (n : Nat) (e : Nat → V), eval I (number c n).1 e = eval I c e := by
  intro c
  induction c <;> intro n e <;> simp_all [number, eval]

theorem number_source : ∀ (c : Code) (n : Nat), Source (number c n).1 ↔ Source c := by
  intro c
  induction c <;> intro n <;> simp_all [number, Source]

theorem number_typed (ct : Nat → Bool) : ∀ (c : Code) (n : Nat), Typed ct (number c n).1 ↔ Typed ct c := by
  intro c
  induction c <;> intro n <;> simp_all [number, Typed]

theorem number_defs : ∀ (c : Code) (n : Nat), defs (number c n).1 = defs c := by
  intro c
  induction c <;> intro n <;> simp_all [number, defs]

end Heir.Preproc
