import Verif.Memref.Lemmas
import Mathlib.Tactic.ByContra

/-!
# Erasing a memref that is only written
-/

namespace Heir.Memref

variable {V : Type} {W : World V}

theorem views_mono {x : Nat} : ∀ {ops : List Op} {S : List Nat}, x ∈ S → x ∈ views S ops
  | [], _, h => h
  | .view m s :: ops, S, h => by
    unfold views
    split
    · exact views_mono (by simp [h])
    · exact views_mono h
  | .alloc _ :: ops, S, h => views_mono (ops := ops) h
  | .global _ :: ops, S, h => views_mono (ops := ops) h
  | .store _ _ _ :: ops, S, h => views_mono (ops := ops) h
  | .load _ _ _ :: ops, S, h => views_mono (ops := ops) h
  | .other _ _ _ _ _ :: ops, S, h => views_mono (ops := ops) h

/-- The views of `a` have its buffer. -/
theorem views_buf {b : Nat} : ∀ {ops : List Op} {S : List Nat},
    (∀ m s, .view m s ∈ ops → (W.desc m).buf = (W.desc s).buf) →
    (∀ x ∈ S, (W.desc x).buf = b) → ∀ x ∈ views S ops, (W.desc x).buf = b
  | [], _, _, h => h
  | .view m s :: ops, S, hv, h => by
    have hv' : ∀ m s, .view m s ∈ ops → (W.desc m).buf = (W.desc s).buf :=
      fun m s h => hv m s (by simp [h])
    unfold views
    split
    · next hs =>
      refine views_buf hv' ?_
      intro x hx
      rcases List.mem_cons.1 hx with rfl | hx
      · rw [hv _ s (by simp), h s hs]
      · exact h x hx
    · exact views_buf hv' h
  | .alloc _ :: ops, S, hv, h => views_buf (ops := ops) (fun m s h => hv m s (by simp [h])) h
  | .global _ :: ops, S, hv, h => views_buf (ops := ops) (fun m s h => hv m s (by simp [h])) h
  | .store _ _ _ :: ops, S, hv, h => views_buf (ops := ops) (fun m s h => hv m s (by simp [h])) h
  | .load _ _ _ :: ops, S, hv, h => views_buf (ops := ops) (fun m s h => hv m s (by simp [h])) h
  | .other _ _ _ _ _ :: ops, S, hv, h =>
    views_buf (ops := ops) (fun m s h => hv m s (by simp [h])) h

/-- The other memrefs have other buffers. -/
theorem views_apart {a b : Nat} : ∀ {ops : List Op} {sc mc S : List Nat}, wf sc mc ops →
    (∀ o ∈ ops, ∀ m ∈ o.mdefs, (∀ s, o ≠ .view m s) → m ≠ a → (W.desc m).buf ≠ b) →
    (∀ m s, .view m s ∈ ops → (W.desc m).buf = (W.desc s).buf) → a ∈ S →
    (∀ m ∈ mc, m ∉ S → (W.desc m).buf ≠ b) →
    ∀ m ∈ mscope mc ops, m ∉ views S ops → (W.desc m).buf ≠ b
  | [], _, _, _, _, _, _, _, h => h
  | o :: ops, sc, mc, S, hw, ho, hv, ha, h => by
    obtain ⟨-, -, hmu, -, hw⟩ := hw
    have ho' := fun o' h' => ho o' (List.mem_cons_of_mem o h')
    have hv' : ∀ m s, .view m s ∈ ops → (W.desc m).buf = (W.desc s).buf :=
      fun m s h => hv m s (by simp [h])
    rw [mscope_cons]
    have key : (∀ m s, o ≠ .view m s) → ∀ m ∈ mscope (o.mdefs ++ mc) ops, m ∉ views S ops →
        (W.desc m).buf ≠ b := by
      intro hne
      refine views_apart hw ho' hv' ha ?_
      intro m hm hmS
      rcases List.mem_append.1 hm with hm | hm
      · exact ho o (by simp) m hm (hne m) (by rintro rfl; exact hmS ha)
      · exact h m hm hmS
    cases o with
    | view m s =>
      unfold views
      split
      · refine views_apart hw ho' hv' (by simp [ha]) ?_
        intro x hx hxS
        simp only [List.mem_cons, not_or] at hxS
        simp only [Op.mdefs, List.singleton_append, List.mem_cons, hxS.1, false_or] at hx
        exact h x hx hxS.2
      · next hs =>
        refine views_apart hw ho' hv' ha ?_
        intro x hx hxS
        simp only [Op.mdefs, List.singleton_append, List.mem_cons] at hx
        rcases hx with rfl | hx
        · rw [hv _ s (by simp)]
          exact h s (hmu s (by simp [Op.muses])) hs
        · exact h x hx hxS
    | alloc m => exact key (by simp)
    | global m => exact key (by simp)
    | store v m idx => exact key (by simp)
    | load r m idx => exact key (by simp)
    | other f rs ms args mems => exact key (by simp)

/-- The same scalars and the same memory but for a buffer. -/
structure Off (b : Nat) (s s' : State V) : Prop where
  env : s'.env = s.env
  mem : ∀ c, c ≠ b → s'.mem c = s.mem c

theorem off_addr {b : Nat} {s s' : State V} (h : Off b s s') (m : Nat) (idx : List Idx) :
    addr W s' m idx = addr W s m idx := by
  unfold addr
  congr 1
  refine List.map_congr_left fun i _ => ?_
  cases i with
  | inl _ => rfl
  | inr x => simp [idxVal, h.env]

theorem off_setL {b : Nat} : ∀ (rs : List Nat) (vs : List V) {s s' : State V}, Off b s s' →
    Off b (setL s rs vs) (setL s' rs vs)
  | [], _, _, _, h => by simpa [setL] using h
  | _ :: _, [], _, _, h => by simpa [setL] using h
  | r :: rs, v :: vs, _, _, h =>
    off_setL rs vs ⟨by simp [State.set, h.env], fun c hc => h.mem c hc⟩

theorem off_fillL {b : Nat} : ∀ (bs : List Nat) (fs : List (Int → V)) {s s' : State V},
    Off b s s' → Off b (fillL s bs fs) (fillL s' bs fs)
  | [], _, _, _, h => by simpa [fillL] using h
  | _ :: _, [], _, _, h => by simpa [fillL] using h
  | c :: bs, f :: fs, _, _, h =>
    off_fillL bs fs ⟨h.env, fun d hd => by simp [State.fill, h.mem d hd]⟩

theorem off_run {a b : Nat} {S : List Nat} (hS : ∀ x ∈ S, (W.desc x).buf = b) :
    ∀ {ops : List Op} {s s' s1 : State V},
    (∀ o ∈ ops, reads S o = false ∧ ∀ m ∈ o.muses, m ∉ S → (W.desc m).buf ≠ b) →
    Off b s s' → run W ops s = some s1 →
    ∃ s2, run W (ops.filter fun o => !goes a S o) s' = some s2 ∧ Off b s1 s2
  | [], _, s', _, _, h, hr => by
    simp only [run, Option.some.injEq] at hr
    subst hr
    exact ⟨s', rfl, h⟩
  | o :: ops, s, s', s1, ho, h, hr => by
    simp only [run] at hr
    obtain ⟨t, ht, hr⟩ := Option.bind_eq_some_iff.1 hr
    have ho' := fun o' h' => ho o' (List.mem_cons_of_mem o h')
    obtain ⟨hrd, hap⟩ := ho o (by simp)
    by_cases hg : goes a S o = true
    · rw [List.filter_cons_of_neg (by simp [hg])]
      refine off_run hS ho' ?_ hr
      cases o with
      | store v m idx =>
        simp only [step, Option.map_eq_some_iff] at ht
        obtain ⟨k, -, rfl⟩ := ht
        have : (W.desc m).buf = b := hS m (by simpa [goes] using hg)
        refine ⟨h.env, fun c hc => ?_⟩
        funext j
        simp [State.write, this, hc, h.mem c hc]
      | alloc m => simp only [step, Option.some.injEq] at ht; subst ht; exact h
      | view m s => simp only [step, Option.some.injEq] at ht; subst ht; exact h
      | global m => simp [goes] at hg
      | load r m idx => simp [goes] at hg
      | other f rs ms args mems => simp [goes] at hg
    · rw [List.filter_cons_of_pos (by simp [hg])]
      have : ∃ t', step W s' o = some t' ∧ Off b t t' := by
        cases o with
        | store v m idx =>
          simp only [step, Option.map_eq_some_iff] at ht
          obtain ⟨k, hk, rfl⟩ := ht
          refine ⟨s'.write (W.desc m).buf k (s'.env v),
            by simp only [step, off_addr h, hk, Option.map_some], h.env, fun c hc => ?_⟩
          funext j
          simp [State.write, h.mem c hc, h.env]
        | load r m idx =>
          simp only [step, Option.map_eq_some_iff] at ht
          obtain ⟨k, hk, rfl⟩ := ht
          have hm : (W.desc m).buf ≠ b := hap m (by simp [Op.muses]) (by simpa [reads] using hrd)
          refine ⟨s'.set r (s'.mem (W.desc m).buf k),
            by simp only [step, off_addr h, hk, Option.map_some], ?_, h.mem⟩
          simp [State.set, h.env, h.mem _ hm]
        | other f rs ms args mems =>
          simp only [step, Option.some.injEq] at ht
          subst ht
          refine ⟨_, rfl, ?_⟩
          have e : (mems.map fun m => (W.desc m).buf).map s'.mem =
              (mems.map fun m => (W.desc m).buf).map s.mem := by
            simp only [List.map_map]
            refine List.map_congr_left fun m hm => h.mem _ (hap m (by simpa [Op.muses] using hm) ?_)
            simp only [reads, List.any_eq_false, List.contains_iff_mem] at hrd
            simpa using hrd m hm
          simp only [e, h.env]
          exact off_setL _ _ (off_fillL _ _ h)
        | alloc m => simp only [step, Option.some.injEq] at ht; subst ht; exact ⟨_, rfl, h⟩
        | view m s => simp only [step, Option.some.injEq] at ht; subst ht; exact ⟨_, rfl, h⟩
        | global m => simp only [step, Option.some.injEq] at ht; subst ht; exact ⟨_, rfl, h⟩
      obtain ⟨t', ht', hoff⟩ := this
      obtain ⟨s2, h2, h3⟩ := off_run hS ho' hoff hr
      exact ⟨s2, by rw [run, ht', Option.bind_some, h2], h3⟩

theorem wf_muses : ∀ {ops : List Op} {sc mc : List Nat}, wf sc mc ops →
    ∀ o ∈ ops, ∀ m ∈ o.muses, m ∈ mscope mc ops
  | o :: ops, sc, mc, hw, o', ho, m, hm => by
    obtain ⟨-, -, hmu, -, hw⟩ := hw
    rw [mscope_cons]
    rcases List.mem_cons.1 ho with rfl | ho
    · exact (mscope_mem _ _).2 (.inl (by simp [hmu m hm]))
    · exact wf_muses hw o' ho m hm

/-- What goes defines no scalar. -/
theorem goes_defs {a : Nat} {S : List Nat} {o : Op} (h : goes a S o = true) : o.defs = [] := by
  cases o <;> simp_all [goes, Op.defs]

theorem wf_erase {a : Nat} {S : List Nat} : ∀ {ops : List Op} {sc mc mc' : List Nat},
    wf sc mc ops → (∀ o ∈ ops, reads S o = false) →
    (∀ o ∈ ops, goes a S o = true → ∀ m ∈ o.mdefs, m ∈ S) →
    (∀ m ∈ mc, m ∉ S → m ∈ mc') → (∀ m ∈ mc', m ∈ mc) →
    wf sc mc' (ops.filter fun o => !goes a S o) ∧
      scope sc (ops.filter fun o => !goes a S o) = scope sc ops ∧
      ∀ m ∈ mscope mc ops, m ∉ S → m ∈ mscope mc' (ops.filter fun o => !goes a S o)
  | [], _, _, _, _, _, _, h, _ => ⟨trivial, rfl, h⟩
  | o :: ops, sc, mc, mc', hw, hr, hg, h1, h2 => by
    obtain ⟨hu, hd, hmu, hmd, hw⟩ := hw
    have hr' := fun o' h' => hr o' (List.mem_cons_of_mem o h')
    have hg' := fun o' h' => hg o' (List.mem_cons_of_mem o h')
    by_cases hgo : goes a S o = true
    · rw [List.filter_cons_of_neg (by simp [hgo]), scope_cons, mscope_cons, goes_defs hgo,
        List.nil_append]
      rw [goes_defs hgo, List.nil_append] at hw
      refine wf_erase hw hr' hg' ?_ (fun m hm => by simp [h2 m hm])
      intro m hm hmS
      rcases List.mem_append.1 hm with hm | hm
      · exact absurd (hg o (by simp) hgo m hm) hmS
      · exact h1 m hm hmS
    · rw [List.filter_cons_of_pos (by simp [hgo]), scope_cons, scope_cons, mscope_cons, mscope_cons]
      obtain ⟨i1, i2, i3⟩ := wf_erase (mc' := o.mdefs ++ mc') hw hr' hg'
        (fun m hm hmS => by
          rcases List.mem_append.1 hm with hm | hm
          · simp [hm]
          · simp [h1 m hm hmS])
        (fun m hm => by
          rcases List.mem_append.1 hm with hm | hm
          · simp [hm]
          · simp [h2 m hm])
      refine ⟨⟨hu, hd, ?_, fun x hx hx' => hmd x hx (h2 x hx'), i1⟩, i2, i3⟩
      intro x hx
      refine h1 x (hmu x hx) ?_
      have hro := hr o (by simp)
      cases o with
      | view m s => simp_all [Op.muses, goes]
      | store v m idx => simp_all [Op.muses, goes]
      | load r m idx => simp_all [Op.muses, reads]
      | other f rs ms args mems =>
        simp only [reads, List.any_eq_false, List.contains_iff_mem] at hro
        exact hro x hx
      | alloc m => simp [Op.muses] at hx
      | global m => simp [Op.muses] at hx

theorem erase_good {p q : Prog} {a : Nat} (hw : p.wf) (hO : Own W p a)
    (h : eraseUnused p a = .ok q) : q.wf ∧ SameResult W p q (· = (W.desc a).buf) := by
  unfold eraseUnused at h
  split at h
  · simp at h
  · next hr =>
    split at h
    · simp at h
    · simp only [Res.ok.injEq] at h
      subst h
      simp only [Bool.or_eq_true, not_or, Bool.not_eq_true, List.any_eq_false] at hr
      obtain ⟨hr, hmr⟩ := hr
      have hr' : ∀ o ∈ p.body, reads (views [a] p.body) o = false :=
        fun o ho => by simpa using hr o ho
      have hS := views_buf (W := W) (b := (W.desc a).buf) (S := [a]) hO.view
        (fun x hx => by rw [List.mem_singleton.1 hx])
      have hap := views_apart (W := W) (a := a) (b := (W.desc a).buf) (S := [a]) hw.1 hO.op hO.view
        (by simp) (fun m hm _ => hO.arg m hm)
      have hgo : ∀ o ∈ p.body, goes a (views [a] p.body) o = true →
          ∀ m ∈ o.mdefs, m ∈ views [a] p.body := by
        intro o ho hg m hm
        have hms : m ∈ mscope p.margs p.body := (mscope_mem _ _).2 (.inr ⟨o, ho, hm⟩)
        cases o with
        | alloc x =>
          simp only [Op.mdefs, List.mem_singleton] at hm
          simp only [goes, beq_iff_eq] at hg
          rw [hm, hg]
          exact views_mono (by simp)
        | view x s =>
          simp only [Op.mdefs, List.mem_singleton] at hm
          simp only [goes, List.contains_iff_mem] at hg
          by_contra hc
          refine hap m hms hc ?_
          rw [hm, hO.view x s ho]
          exact hS s hg
        | _ => simp [Op.mdefs] at hm <;> simp [goes] at hg
      obtain ⟨w1, w2, w3⟩ := wf_erase (mc' := p.margs) hw.1 hr' hgo (fun m hm _ => hm)
        (fun m hm => hm)
      refine ⟨⟨w1, fun x hx => ?_, fun x hx => ?_⟩, ?_⟩
      · simp only [w2]
        exact hw.2.1 x hx
      · exact w3 x (hw.2.2 x hx) (by simpa using hmr x hx)
      · intro s s1 hrun
        obtain ⟨s2, h2, h3⟩ := off_run (a := a) hS
          (fun o ho => ⟨hr' o ho, fun m hm => hap m (wf_muses hw.1 o ho m hm)⟩) ⟨rfl, fun _ _ => rfl⟩
          hrun
        exact ⟨s2, h2, by simp [h3.env], fun b hb => h3.mem b hb⟩

end Heir.Memref
