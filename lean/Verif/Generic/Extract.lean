import Verif.Generic.Merge
import Mathlib.Data.List.Range

/-! # Operations moved out of a generic -/

namespace Heir.Generic

variable {K α : Type} {sem : K → List α → List α → List α}

/-! ## Fresh numbers -/

theorem number_fst {β : Type} : ∀ (n : Nat) (l : List β), (number n l).map Prod.fst = List.range' n l.length
  | _, [] => rfl
  | n, x :: l => by simp [number, number_fst (n + 1) l, List.range'_succ]

theorem number_snd {β : Type} : ∀ (n : Nat) (l : List β), (number n l).map Prod.snd = l
  | _, [] => rfl
  | n, x :: l => by simp [number, number_snd (n + 1) l]

theorem number_length {β : Type} (n : Nat) (l : List β) : (number n l).length = l.length := by
  rw [← List.length_map (as := number n l) Prod.snd, number_snd]

theorem number_getElem {β : Type} : ∀ (n : Nat) (l : List β) (j : Nat) (hj : j < l.length),
    (number n l)[j]? = some (n + j, l[j])
  | _, [], j, hj => by simp at hj
  | n, x :: l, 0, _ => by simp [number]
  | n, x :: l, j + 1, hj => by
    have := number_getElem (n + 1) l j (by simpa using hj)
    simp only [number, List.getElem?_cons_succ, List.getElem_cons_succ, this]
    congr 2; omega

theorem mem_number {β : Type} {n : Nat} {l : List β} {p : Nat × β} (h : p ∈ number n l) :
    ∃ j, ∃ hj : j < l.length, p = (n + j, l[j]) := by
  obtain ⟨j, hj, hp⟩ := List.getElem_of_mem h
  have hj' : j < l.length := by rwa [number_length] at hj
  refine ⟨j, hj', ?_⟩
  have := number_getElem n l j hj'
  rw [List.getElem?_eq_getElem hj, hp] at this
  exact Option.some.inj this

theorem number_mem {β : Type} (n : Nat) {l : List β} {j : Nat} (hj : j < l.length) :
    (n + j, l[j]) ∈ number n l := List.mem_of_getElem? (number_getElem n l j hj)

theorem number_nodup {β : Type} (n : Nat) (l : List β) : ((number n l).map Prod.fst).Nodup := by
  rw [number_fst]; exact List.nodup_range'

theorem number_range {β : Type} {n x : Nat} {l : List β} (h : x ∈ (number n l).map Prod.fst) :
    n ≤ x ∧ x < n + l.length := by
  rw [number_fst] at h; exact List.mem_range'_1.mp h

theorem define_get {env : Env α} {rs : List Nat} {vs : List α} (hn : rs.Nodup)
    (hl : rs.length = vs.length) {j : Nat} (hj : j < rs.length) :
    define env rs vs rs[j] = some (vs[j]'(by omega)) := by
  have hm : (rs[j], vs[j]'(by omega)) ∈ rs.zip vs := by
    have : (rs.zip vs)[j]? = some (rs[j], vs[j]'(by omega)) := by
      rw [List.getElem?_zip_eq_some]
      exact ⟨by simp, by simp⟩
    exact List.mem_of_getElem? this
  have hfst : (rs.zip vs).map Prod.fst = rs := List.map_fst_zip (by omega)
  unfold define
  cases hf : (rs.zip vs).find? (fun p => p.1 == rs[j]) with
  | none =>
    have := List.find?_eq_none.mp hf _ hm
    simp at this
  | some p =>
    have hp := List.mem_of_find?_eq_some hf
    have hp1 : p.1 = rs[j] := by simpa using List.find?_some hf
    obtain ⟨i, hi, hpi⟩ := List.getElem_of_mem hp
    simp only [List.length_zip] at hi
    rw [List.getElem_zip] at hpi
    have hij : i = j := by
      have : rs[i]'(by omega) = rs[j] := by rw [← hp1, ← hpi]
      exact (List.Nodup.getElem_inj_iff hn).mp this
    subst hij
    rw [← hpi]

/-! ## Before -/

theorem extractBefore_local {next : Nat} {e e₁ : Env α} {ins outs : List (Nat × Nat)}
    {b₁ b₂ : List (Op K)} {o : Op K} {h g' : Gen K} {n : Nat}
    (hx : extractBefore next ins b₁ o b₂ outs = (h, g', n))
    (hf : Fresh e (⟨ins, b₁ ++ o :: b₂, outs⟩ : Gen K))
    (hlt : ∀ x v, e x = some v → x < next)
    (hb : ∀ b ∈ (Stmt.generic ⟨ins, b₁ ++ o :: b₂, outs⟩ : Stmt K).binders, b < next)
    (hho : ∀ x ∈ o.uses, x ∉ (b₁ ++ o :: b₂).flatMap Op.results)
    (hr : (⟨ins, b₁ ++ o :: b₂, outs⟩ : Gen K).run sem e = some e₁) :
    ∃ e₂ e₃, h.run sem e = some e₂ ∧ g'.run sem e₂ = some e₃ ∧ Sim (fun _ => True) id e₁ e₃ := by
  obtain ⟨eb, hd, hbd, ho, rfl⟩ := gen_run_eq.mp hr
  simp only at hd hbd ho
  rw [runOps_append, Option.bind_eq_some_iff] at hbd
  obtain ⟨eb₁, hb₁, hbd⟩ := hbd
  simp only [runOps, Option.bind_eq_some_iff] at hbd
  obtain ⟨eo, heo, hb₂⟩ := hbd
  obtain ⟨a, c, ha, hc, hl, rfl⟩ := op_run_eq.mp heo
  have hnd := hf.nodup
  simp only [List.flatMap_append, List.flatMap_cons] at hnd hho
  have hrn : o.results.Nodup := by
    simp only [List.nodup_append] at hnd; tauto
  have hro : ∀ r ∈ o.results, r ∉ b₁.flatMap Op.results := fun r hr hc => by
    simp only [List.nodup_append, List.mem_append] at hnd
    exact hnd.1.2.1.2.2 r hc r (Or.inl hr) rfl
  have hri : ∀ r ∈ o.results, r ∉ ins.map Prod.fst := fun r hr hc => by
    simp only [List.nodup_append, List.mem_append] at hnd
    exact hnd.1.2.2 r hc r (Or.inr (Or.inl hr)) rfl
  have hrnone : ∀ r ∈ o.results, e r = none := fun r hr => hf.body_none (by simp [hr])
  have hin := hf.ins_nodup
  simp only at hin
  have hinlt : ∀ x ∈ ins.map Prod.fst, x < next := fun x hx => hb x (by
    simp only [Stmt.binders, Gen.inner, List.mem_append]; exact Or.inl (Or.inl hx))
  have hrlt : ∀ r ∈ o.results, r < next := fun x hx => hb x (by
    simp only [Stmt.binders, Gen.inner, List.mem_append]; exact Or.inl (Or.inr (by simp [hx])))
  simp only [extractBefore, Prod.mk.injEq] at hx
  obtain ⟨rfl, rfl, rfl⟩ := hx
  set used := ins.filter fun p => o.uses.contains p.1 with hused
  set args := number next used with hargs
  set inn := number (next + used.length) o.results with hinn
  set out := number (next + used.length + o.results.length) inn with hout
  have husub : used.Sublist ins := List.filter_sublist
  -- the new generic
  have hhn : ((args.map fun a => (a.1, a.2.2)).map Prod.fst).Nodup := by
    rw [List.map_map]; exact number_nodup next used
  have hkn : ((args.map fun a => (a.2.1, a.1)).map Prod.fst).Nodup := by
    rw [List.map_map, show (Prod.fst ∘ fun a : Nat × Nat × Nat => (a.2.1, a.1)) = Prod.fst ∘ Prod.snd
      from rfl, ← List.map_map, hargs, number_snd]
    exact hin.sublist (husub.map _)
  have hsim : ∀ x ∈ o.uses, ∀ v, eb₁ x = some v → assign e e (args.map fun a => (a.1, a.2.2))
      (sub (args.map fun a => (a.2.1, a.1)) x) = some v := by
    intro x hxu v hv
    have hxb := hho x hxu
    simp only [List.mem_append, not_or] at hxb
    rw [ops_stable hb₁ hxb.1] at hv
    rcases assign_cases e e ins x with ⟨p, hp, rfl, hav⟩ | ⟨hm, hav⟩
    · have hpu : p ∈ used := List.mem_filter.mpr ⟨hp, by simpa using hxu⟩
      obtain ⟨j, hj, hpj⟩ := List.getElem_of_mem hpu
      have hmem : (next + j, p) ∈ args := by
        have := number_mem next hj
        rwa [hpj] at this
      rw [sub_of_mem (p := (p.1, next + j)) hkn (List.mem_map.mpr ⟨_, hmem, rfl⟩),
        assign_of_mem (p := (next + j, p.2)) hhn (List.mem_map.mpr ⟨_, hmem, rfl⟩), ← hav, hv]
    · rw [sub_of_notMem, assign_of_notMem, ← hav, hv]
      · intro hc
        rw [List.map_map] at hc
        have := number_range (n := next) (l := used) hc
        have := hlt x v (hav ▸ hv)
        omega
      · intro hc
        rw [List.map_map, show (Prod.fst ∘ fun a : Nat × Nat × Nat => (a.2.1, a.1)) =
          Prod.fst ∘ Prod.snd from rfl, ← List.map_map, hargs, number_snd] at hc
        exact hm ((husub.map _).subset hc)
  have ha' := readAll_sim (fun x hx => hsim x (by simp [Op.uses, hx])) ha
  have hc' := readAll_sim (fun x hx => hsim x (by simp [Op.uses, hx])) hc
  set eh := assign e e (args.map fun a => (a.1, a.2.2)) with heh
  set vals := sem o.kind a c with hvals
  have hil : (inn.map Prod.fst).length = vals.length := by
    rw [List.length_map, hinn, number_length, hl]
  set eho := define eh (inn.map Prod.fst) vals with heho
  have hinner : ∀ j (hj : j < o.results.length), eho (next + used.length + j) = some (vals[j]'(by omega)) := by
    intro j hj
    have h1 : (inn.map Prod.fst)[j]'(by rw [List.length_map, hinn, number_length]; exact hj) =
        next + used.length + j := by
      have := number_getElem (next + used.length) o.results j hj
      rw [← hinn] at this
      simp only [List.getElem_map]
      rw [List.getElem?_eq_some_iff] at this
      obtain ⟨_, this⟩ := this
      rw [this]
    have := define_get (env := eh) (rs := inn.map Prod.fst) (vs := vals)
      (number_nodup _ _) hil (j := j) (by rw [List.length_map, hinn, number_length]; exact hj)
    rw [h1] at this
    exact this
  have hinl : inn.length = o.results.length := by rw [hinn, number_length]
  have houtmem : ∀ j (hj : j < o.results.length),
      (next + used.length + o.results.length + j, (next + used.length + j, o.results[j])) ∈ out := by
    intro j hj
    have h1 := number_mem (next + used.length + o.results.length) (l := inn) (j := j) (by omega)
    have h2 := number_getElem (next + used.length) o.results j hj
    rw [← hinn, List.getElem?_eq_some_iff] at h2
    obtain ⟨_, h2⟩ := h2
    rw [h2] at h1
    exact h1
  have houtfst : (out.map fun a => (a.1, a.2.1)).map Prod.fst = out.map Prod.fst := by
    rw [List.map_map]; rfl
  have hon : ((out.map fun a => (a.1, a.2.1)).map Prod.fst).Nodup := by
    rw [houtfst]; exact number_nodup _ _
  have houtcase : ∀ p ∈ out, ∃ j, ∃ hj : j < o.results.length,
      p = (next + used.length + o.results.length + j, (next + used.length + j, o.results[j])) := by
    intro p hp
    obtain ⟨j, hj, rfl⟩ := mem_number hp
    have hj' : j < o.results.length := by omega
    refine ⟨j, hj', ?_⟩
    have h2 := number_getElem (next + used.length) o.results j hj'
    rw [← hinn, List.getElem?_eq_some_iff] at h2
    obtain ⟨_, h2⟩ := h2
    rw [h2]
  set e₂ := assign e eho (out.map fun a => (a.1, a.2.1)) with he₂
  have hrunh : (⟨args.map fun a => (a.1, a.2.2), [⟨o.kind, o.args.map (sub (args.map fun a => (a.2.1, a.1))),
      o.captured.map (sub (args.map fun a => (a.2.1, a.1))), inn.map Prod.fst⟩],
      out.map fun a => (a.1, a.2.1)⟩ : Gen K).run sem e = some e₂ := by
    refine gen_run_eq.mpr ⟨eho, ?_, ?_, ?_, rfl⟩
    · intro p hp
      obtain ⟨q, hq, rfl⟩ := List.mem_map.mp hp
      obtain ⟨j, hj, rfl⟩ := mem_number hq
      exact hd used[j] (husub.subset (List.getElem_mem hj))
    · have hrun1 : (⟨o.kind, o.args.map (sub (args.map fun a => (a.2.1, a.1))),
        o.captured.map (sub (args.map fun a => (a.2.1, a.1))), inn.map Prod.fst⟩ : Op K).run sem eh =
          some eho := op_run_eq.mpr ⟨a, c, ha', hc', hil, rfl⟩
      simp only [runOps]
      rw [hrun1]
      rfl
    · intro q hq
      obtain ⟨q', hq', rfl⟩ := List.mem_map.mp hq
      obtain ⟨j, hj, rfl⟩ := houtcase q' hq'
      exact ⟨_, hinner j hj⟩
  have he₂lt : ∀ x, x < next → e₂ x = e x := fun x hx => assign_of_notMem (by
    rw [houtfst]
    intro hc
    have := number_range hc
    omega)
  have he₂out : ∀ j (hj : j < o.results.length),
      e₂ (next + used.length + o.results.length + j) = some (vals[j]'(by omega)) := by
    intro j hj
    rw [he₂, assign_of_mem (p := (next + used.length + o.results.length + j, next + used.length + j)) hon
      (List.mem_map.mpr ⟨_, houtmem j hj, rfl⟩), hinner j hj]
  -- the old generic
  have hoRs : (out.map fun a => (a.2.2, a.1)).map Prod.fst = o.results := by
    rw [List.map_map, show (Prod.fst ∘ fun a : Nat × Nat × Nat => (a.2.2, a.1)) =
      Prod.snd ∘ Prod.snd from rfl, ← List.map_map, hout, number_snd, hinn, number_snd]
  have hn' : ((ins ++ out.map fun a => (a.2.2, a.1)).map Prod.fst).Nodup := by
    rw [List.map_append, hoRs, List.nodup_append]
    refine ⟨hin, hrn, ?_⟩
    rintro x hx y hy rfl
    exact hri x hy hx
  have hs₀ : Sim (fun _ => True) id (assign e e ins)
      (assign e₂ e₂ (ins ++ out.map fun a => (a.2.2, a.1))) := by
    intro x _ v hv
    rcases assign_cases e e ins x with ⟨p, hp, rfl, hav⟩ | ⟨hm, hav⟩
    · rw [id, assign_of_mem hn' (List.mem_append_left _ hp)]
      rw [hav] at hv
      rw [he₂lt _ (hlt _ _ hv), hv]
    · rw [hav] at hv
      rw [id, assign_of_notMem, he₂lt _ (hlt _ _ hv), hv]
      rw [List.map_append, hoRs, List.mem_append]
      rintro (hc | hc)
      · exact hm hc
      · rw [hrnone x hc] at hv; simp at hv
  obtain ⟨eb₁', hb₁', hs₁⟩ := ops_sim hs₀ (fun _ _ => trivial) (fun b _ => ⟨rfl, fun _ _ h => h⟩) hb₁
  rw [op_rename_id, List.map_id] at hb₁'
  have hs₂ : Sim (fun _ => True) id (define eb₁ o.results vals) eb₁' := by
    intro x _ v hv
    by_cases hm : x ∈ o.results
    · obtain ⟨j, hj, rfl⟩ := List.getElem_of_mem hm
      rw [define_get hrn hl hj] at hv
      rw [id, ops_stable hb₁' (hro _ hm),
        assign_of_mem (p := (o.results[j], next + used.length + o.results.length + j)) hn'
          (List.mem_append_right _ (List.mem_map.mpr ⟨_, houtmem j hj, rfl⟩)), he₂out j hj, ← hv]
    · rw [define_of_notMem hm] at hv
      exact hs₁ x trivial v hv
  obtain ⟨eb₂', hb₂', hs₃⟩ := ops_sim hs₂ (fun _ _ => trivial) (fun b _ => ⟨rfl, fun _ _ h => h⟩) hb₂
  rw [op_rename_id, List.map_id] at hb₂'
  refine ⟨e₂, assign e₂ eb₂' outs, hrunh, gen_run_eq.mpr ⟨eb₂', ?_, ?_, ?_, rfl⟩, ?_⟩
  · intro p hp
    simp only [List.mem_append] at hp
    rcases hp with hp | hp
    · obtain ⟨v, hv⟩ := hd p hp
      exact ⟨v, by rw [he₂lt _ (hlt _ _ hv), hv]⟩
    · obtain ⟨q, hq, rfl⟩ := List.mem_map.mp hp
      obtain ⟨j, hj, rfl⟩ := houtcase q hq
      exact ⟨_, he₂out j hj⟩
  · simp only [runOps_append]
    rw [hb₁', Option.bind_some, hb₂']
  · intro q hq
    obtain ⟨v, hv⟩ := ho q hq
    exact ⟨v, hs₃ q.2 trivial v hv⟩
  · intro x _ v hv
    have hon := hf.outs_nodup
    simp only at hon
    rcases assign_cases e eb outs x with ⟨q, hq, rfl, hav⟩ | ⟨hm, hav⟩
    · rw [id, assign_of_mem hon hq]
      exact hs₃ q.2 trivial v (hav ▸ hv)
    · rw [hav] at hv
      rw [id, assign_of_notMem hm, he₂lt _ (hlt _ _ hv), hv]

/-! ## After -/

theorem allSome_eq {β : Type} : ∀ {l : List (Option β)} {xs : List β}, allSome l = some xs →
    l = xs.map some
  | [], xs, h => by simp only [allSome, Option.some.injEq] at h; subst h; rfl
  | none :: l, xs, h => by simp [allSome] at h
  | some v :: l, xs, h => by
    simp only [allSome, Option.bind_some, Option.map_eq_some_iff] at h
    obtain ⟨ys, hy, rfl⟩ := h
    rw [allSome_eq hy]; rfl

theorem extractAfter_local {next : Nat} {e e₁ : Env α} {ins outs : List (Nat × Nat)}
    {b₁ b₂ : List (Op K)} {o : Op K} {h g' : Gen K} {n : Nat}
    (hx : extractAfter next ins b₁ o b₂ outs = some (g', h, n))
    (hf : Fresh e (⟨ins, b₁ ++ o :: b₂, outs⟩ : Gen K))
    (hlt : ∀ x v, e x = some v → x < next)
    (hb : ∀ b ∈ (Stmt.generic ⟨ins, b₁ ++ o :: b₂, outs⟩ : Stmt K).binders, b < next)
    (hho : canHoistAfter (⟨ins, b₁ ++ o :: b₂, outs⟩ : Gen K) o = true)
    (hcap : ∀ x ∈ o.captured, x ∈ o.args ∨ x ∉ (⟨ins, b₁ ++ o :: b₂, outs⟩ : Gen K).inner)
    (honce : ∀ q ∈ outs, ∀ q' ∈ outs, q.2 ∈ o.results → q.2 = q'.2 → q = q')
    (hr : (⟨ins, b₁ ++ o :: b₂, outs⟩ : Gen K).run sem e = some e₁) :
    ∃ e₂ e₃, g'.run sem e = some e₂ ∧ h.run sem e₂ = some e₃ ∧ Sim (fun _ => True) id e₁ e₃ := by
  obtain ⟨eb, hd, hbd, ho, rfl⟩ := gen_run_eq.mp hr
  simp only at hd hbd ho
  rw [runOps_append, Option.bind_eq_some_iff] at hbd
  obtain ⟨eb₁, hb₁, hbd⟩ := hbd
  simp only [runOps, Option.bind_eq_some_iff] at hbd
  obtain ⟨eo, heo, hb₂⟩ := hbd
  obtain ⟨a, c, ha, hc, hl, rfl⟩ := op_run_eq.mp heo
  have hnd := hf.nodup
  simp only [List.flatMap_append, List.flatMap_cons] at hnd
  simp only [canHoistAfter, List.all_eq_true] at hho
  have hho' : ∀ o' ∈ b₁ ++ o :: b₂, ∀ x ∈ o'.uses, x ∉ o.results := fun o' h' x hx' => by
    simpa using hho o' h' x hx'
  have hrn : o.results.Nodup := by
    simp only [List.nodup_append] at hnd; tauto
  have hr2 : ∀ r ∈ o.results, r ∉ b₂.flatMap Op.results := fun r hr hc => by
    simp only [List.nodup_append, List.mem_append] at hnd
    exact hnd.1.2.1.2.1.2.2 r hr r hc rfl
  have h12 : ∀ r ∈ b₁.flatMap Op.results, r ∉ b₂.flatMap Op.results := fun r hr hc => by
    simp only [List.nodup_append, List.mem_append] at hnd
    exact hnd.1.2.1.2.2 r hr r (Or.inr hc) rfl
  have hi2 : ∀ r ∈ ins.map Prod.fst, r ∉ b₂.flatMap Op.results := fun r hr hc => by
    simp only [List.nodup_append, List.mem_append] at hnd
    exact hnd.1.2.2 r hr r (Or.inr (Or.inr hc)) rfl
  have hin := hf.ins_nodup
  have hon := hf.outs_nodup
  simp only at hin hon
  have hoinj : ∀ q ∈ outs, ∀ q' ∈ outs, q.1 = q'.1 → q = q' := by
    intro q hq q' hq' hqq
    have h₁ := find_of_mem hon hq
    rw [hqq, find_of_mem hon hq'] at h₁
    exact (Option.some.inj h₁).symm
  have holt : ∀ x ∈ outs.map Prod.fst, x < next := fun x hx => hb x (by
    simp only [Stmt.binders, List.mem_append]; exact Or.inr hx)
  unfold extractAfter at hx
  simp only [Option.bind_eq_some_iff, Option.map_eq_some_iff] at hx
  obtain ⟨xs, hxs, qs, hqs, hx⟩ := hx
  simp only [Prod.mk.injEq] at hx
  obtain ⟨rfl, rfl, rfl⟩ := hx
  have hxs := allSome_eq hxs
  have hqs := allSome_eq hqs
  set outs' := outs ++ number next o.args with houts'
  set args := number (next + o.args.length) o.args with hargs
  set inn := number (next + o.args.length + o.args.length) o.results with hinn
  set ρ := sub (args.map fun a => (a.2, a.1)).reverse with hρ
  set vals := sem o.kind a c with hvals
  have ho'n : (outs'.map Prod.fst).Nodup := by
    rw [houts', List.map_append, List.nodup_append]
    refine ⟨hon, number_nodup _ _, ?_⟩
    rintro x hx' y hy rfl
    have := holt x hx'
    have := number_range hy
    omega
  have hfn : ((outs'.filter fun q => !o.results.contains q.2).map Prod.fst).Nodup :=
    ho'n.sublist (List.filter_sublist.map _)
  have hflt : ∀ x v, e x = some v → x ∉ (outs'.filter fun q => !o.results.contains q.2).map Prod.fst := by
    intro x v hv hc
    have hc' := (List.filter_sublist.map Prod.fst).subset hc
    rw [houts', List.map_append, List.mem_append] at hc'
    rcases hc' with hc' | hc'
    · rw [hf.outs_none hc'] at hv; simp at hv
    · have := number_range hc'
      have := hlt x v hv
      omega
  -- the first generic
  have hs₁ : Sim (fun x => x ∉ o.results) id (define eb₁ o.results vals) eb₁ := by
    intro x hx' v hv
    rw [define_of_notMem hx'] at hv
    exact hv
  have hu2 : ∀ x ∈ b₂.flatMap Op.uses, x ∉ o.results := fun x hx' => by
    obtain ⟨o', ho', hxo⟩ := List.mem_flatMap.mp hx'
    exact hho' o' (by simp [ho']) x hxo
  obtain ⟨eb', hb', hs₂⟩ := ops_sim hs₁ hu2 (fun b _ => ⟨rfl, fun _ _ h => h⟩) hb₂
  rw [op_rename_id, List.map_id] at hb'
  -- what is defined before the operation is defined at the end
  have hkeep : ∀ x v, eb₁ x = some v → eb' x = some v := by
    intro x v hv
    rw [ops_stable hb', hv]
    intro hc'
    by_cases h1 : x ∈ b₁.flatMap Op.results
    · exact h12 x h1 hc'
    · rw [ops_stable hb₁ h1, assign_of_notMem fun hi => hi2 x hi hc',
        hf.body_none (by simp only [List.flatMap_append, List.flatMap_cons, List.mem_append]; tauto)] at hv
      simp at hv
  have hargsd : ∀ x ∈ o.args, ∃ v, eb₁ x = some v := readAll_defined ha
  have hargr : ∀ x ∈ o.args, x ∉ o.results := fun x hx' => hho' o (by simp) x (by simp [Op.uses, hx'])
  set e₂ := assign e eb' (outs'.filter fun q => !o.results.contains q.2) with he₂
  have hrun₁ : (⟨ins, b₁ ++ b₂, outs'.filter fun q => !o.results.contains q.2⟩ : Gen K).run sem e =
      some e₂ := by
    refine gen_run_eq.mpr ⟨eb', hd, by simp only [runOps_append]; rw [hb₁, Option.bind_some, hb'], ?_, rfl⟩
    intro q hq
    obtain ⟨hq, hqr⟩ := List.mem_filter.mp hq
    rw [houts', List.mem_append] at hq
    rcases hq with hq | hq
    · obtain ⟨v, hv⟩ := ho q hq
      exact ⟨v, hs₂ q.2 (by simpa using hqr) v hv⟩
    · obtain ⟨j, hj, rfl⟩ := mem_number hq
      obtain ⟨v, hv⟩ := hargsd o.args[j] (List.getElem_mem hj)
      exact ⟨v, hkeep _ v hv⟩
  have he₂e : ∀ x v, e x = some v → e₂ x = some v := fun x v hv => by
    rw [he₂, assign_of_notMem (hflt x v hv), hv]
  -- its operands
  have hxl : xs.length = o.args.length := by
    have := congrArg List.length hxs
    simpa using this.symm
  have hxv : ∀ j (hj : j < o.args.length), e₂ (xs[j]'(by omega)) = eb₁ o.args[j] := by
    intro j hj
    obtain ⟨v, hv⟩ := hargsd o.args[j] (List.getElem_mem hj)
    have hop : operandOf ins ((b₁ ++ o :: b₂).flatMap Op.results) outs' o.args[j] =
        some (xs[j]'(by omega)) := by
      have := congrArg (fun l => l[j]?) hxs
      simp only [List.getElem?_map, List.getElem?_eq_getElem hj, List.getElem?_eq_getElem
        (show j < xs.length by omega), Option.map_some] at this
      exact Option.some.inj this
    unfold operandOf at hop
    cases hfi : ins.find? (fun p => p.1 == o.args[j]) with
    | some p =>
      rw [hfi] at hop
      simp only [Option.some.injEq] at hop
      have hp := List.mem_of_find?_eq_some hfi
      have hp1 : p.1 = o.args[j] := by simpa using List.find?_some hfi
      have hpi : o.args[j] ∈ ins.map Prod.fst := List.mem_map.mpr ⟨p, hp, hp1⟩
      have hbn : o.args[j] ∉ b₁.flatMap Op.results := fun hc' => hf.ins_body (x := o.args[j]) hpi (by
        simp only [List.flatMap_append, List.mem_append]
        exact Or.inl hc')
      rw [ops_stable hb₁ hbn, ← hp1, assign_of_mem hin hp, ← hop]
      obtain ⟨w, hw⟩ := hd p hp
      rw [he₂e _ w hw, hw]
    | none =>
      rw [hfi] at hop
      have hni : o.args[j] ∉ ins.map Prod.fst := fun hm => by
        obtain ⟨q, hq, hqa⟩ := List.mem_map.mp hm
        have := List.find?_eq_none.mp hfi q hq
        simp [hqa] at this
      simp only at hop
      split at hop
      · rename_i hnr
        simp only [Option.some.injEq] at hop
        have hnb : o.args[j] ∉ b₁.flatMap Op.results := by
          intro hc'
          simp only [Bool.not_eq_true', List.contains_eq_mem, decide_eq_false_iff_not,
            List.flatMap_append, List.mem_append] at hnr
          exact hnr (Or.inl hc')
        rw [ops_stable hb₁ hnb, assign_of_notMem hni] at hv ⊢
        rw [← hop, he₂e _ v hv, hv]
      · simp only [Option.map_eq_some_iff] at hop
        obtain ⟨q, hq, hqx⟩ := hop
        have hqm := List.mem_of_find?_eq_some hq
        have hq2 : q.2 = o.args[j] := by simpa using List.find?_some hq
        rw [← hqx, he₂, assign_of_mem hfn (List.mem_filter.mpr ⟨hqm, by
          simpa [hq2] using hargr _ (List.getElem_mem hj)⟩), hq2, hkeep _ v hv, hv]
  have hzfst : ((args.map Prod.fst).zip xs).map Prod.fst = args.map Prod.fst :=
    List.map_fst_zip (by rw [List.length_map, hargs, number_length]; omega)
  have hzn : (((args.map Prod.fst).zip xs).map Prod.fst).Nodup := by
    rw [hzfst]; exact number_nodup _ _
  have hzmem : ∀ j (hj : j < o.args.length),
      (next + o.args.length + j, xs[j]'(by omega)) ∈ (args.map Prod.fst).zip xs := by
    intro j hj
    have : ((args.map Prod.fst).zip xs)[j]? = some (next + o.args.length + j, xs[j]'(by omega)) := by
      rw [List.getElem?_zip_eq_some]
      refine ⟨?_, by simp [show j < xs.length by omega]⟩
      rw [List.getElem?_map, hargs, number_getElem _ _ _ hj]; rfl
    exact List.mem_of_getElem? this
  set eh := assign e₂ e₂ ((args.map Prod.fst).zip xs) with heh
  have hargv : ∀ x ∈ o.args, ∀ v, eb₁ x = some v → eh (ρ x) = some v := by
    intro x hx' v hv
    rcases sub_cases (args.map fun a => (a.2, a.1)).reverse x with ⟨p, hp, hpx, hs⟩ | ⟨hn, -⟩
    · rw [List.mem_reverse, List.mem_map] at hp
      obtain ⟨q, hq, rfl⟩ := hp
      obtain ⟨j, hj, rfl⟩ := mem_number hq
      simp only at hpx hs
      rw [hρ, hs, heh, assign_of_mem (p := (next + o.args.length + j, xs[j]'(by omega))) hzn (hzmem j hj),
        hxv j hj, hpx, hv]
    · exfalso
      apply hn
      obtain ⟨j, hj, rfl⟩ := List.getElem_of_mem hx'
      rw [List.mem_map]
      refine ⟨(o.args[j], next + o.args.length + j), ?_, rfl⟩
      rw [List.mem_reverse, List.mem_map]
      exact ⟨_, number_mem _ hj, rfl⟩
  have hcapv : ∀ x ∈ o.captured, ∀ v, eb₁ x = some v → eh (ρ x) = some v := by
    intro x hx' v hv
    by_cases hxa : x ∈ o.args
    · exact hargv x hxa v hv
    · have hxi := (hcap x hx').resolve_left hxa
      simp only [Gen.inner, List.flatMap_append, List.mem_append, not_or] at hxi
      rw [ops_stable hb₁ hxi.2.1, assign_of_notMem hxi.1] at hv
      have hρx : ρ x = x := by
        apply sub_of_notMem
        rw [List.mem_map]
        rintro ⟨p, hp, rfl⟩
        rw [List.mem_reverse, List.mem_map] at hp
        obtain ⟨q, hq, rfl⟩ := hp
        obtain ⟨j, hj, rfl⟩ := mem_number hq
        exact hxa (List.getElem_mem hj)
      rw [hρx, heh, assign_of_notMem, he₂e x v hv]
      rw [hzfst]
      intro hc'
      have := number_range hc'
      have := hlt x v hv
      omega
  have ha' := readAll_sim hargv ha
  have hc' := readAll_sim hcapv hc
  have hil : (inn.map Prod.fst).length = vals.length := by
    rw [List.length_map, hinn, number_length, hl]
  set eho := define eh (inn.map Prod.fst) vals with heho
  have hinner : ∀ j (hj : j < o.results.length),
      eho (next + o.args.length + o.args.length + j) = some (vals[j]'(by omega)) := by
    intro j hj
    have h1 : (inn.map Prod.fst)[j]'(by rw [List.length_map, hinn, number_length]; exact hj) =
        next + o.args.length + o.args.length + j := by
      have := number_getElem (next + o.args.length + o.args.length) o.results j hj
      rw [← hinn] at this
      simp only [List.getElem_map]
      rw [List.getElem?_eq_some_iff] at this
      obtain ⟨_, this⟩ := this
      rw [this]
    have := define_get (env := eh) (rs := inn.map Prod.fst) (vs := vals)
      (number_nodup _ _) hil (j := j) (by rw [List.length_map, hinn, number_length]; exact hj)
    rw [h1] at this
    exact this
  -- its results
  have hql : qs.length = o.results.length := by
    have := congrArg List.length hqs
    simpa using this.symm
  have hqj : ∀ j (hj : j < o.results.length), (qs[j]'(by omega)) ∈ outs ∧
      (qs[j]'(by omega)).2 = o.results[j] := by
    intro j hj
    have hq : outs'.reverse.find? (fun q => q.2 == o.results[j]) = some (qs[j]'(by omega)) := by
      have := congrArg (fun l => l[j]?) hqs
      simp only [List.getElem?_map, List.getElem?_eq_getElem hj, List.getElem?_eq_getElem
        (show j < qs.length by omega), Option.map_some] at this
      exact Option.some.inj this
    have hm := List.mem_of_find?_eq_some hq
    have h2 : (qs[j]'(by omega)).2 = o.results[j] := by simpa using List.find?_some hq
    refine ⟨?_, h2⟩
    rw [List.mem_reverse, houts', List.mem_append] at hm
    rcases hm with hm | hm
    · exact hm
    · exfalso
      obtain ⟨i, hi, hqi⟩ := mem_number hm
      rw [hqi] at h2
      have h2 : o.args[i] = o.results[j] := h2
      exact hargr _ (List.getElem_mem hi) (h2 ▸ List.getElem_mem hj)
  have hqfst : ((qs.map Prod.fst).zip (inn.map Prod.fst)).map Prod.fst = qs.map Prod.fst :=
    List.map_fst_zip (by rw [List.length_map, List.length_map, hinn, number_length]; omega)
  have hqsn : (qs.map Prod.fst).Nodup := by
    have hsnd : qs.map Prod.snd = o.results := by
      apply List.ext_getElem (by simp [hql])
      intro j h1 h2
      rw [List.getElem_map]
      exact (hqj j h2).2
    have : qs.Nodup := List.Nodup.of_map Prod.snd (hsnd ▸ hrn)
    refine this.map_on ?_
    intro x hx' y hy hxy
    obtain ⟨i, hi, rfl⟩ := List.getElem_of_mem hx'
    obtain ⟨j, hj, rfl⟩ := List.getElem_of_mem hy
    exact hoinj _ (hqj i (by omega)).1 _ (hqj j (by omega)).1 hxy
  have hqmem : ∀ j (hj : j < o.results.length), ((qs[j]'(by omega)).1,
      next + o.args.length + o.args.length + j) ∈ (qs.map Prod.fst).zip (inn.map Prod.fst) := by
    intro j hj
    have : ((qs.map Prod.fst).zip (inn.map Prod.fst))[j]? = some ((qs[j]'(by omega)).1,
        next + o.args.length + o.args.length + j) := by
      rw [List.getElem?_zip_eq_some]
      refine ⟨by simp [show j < qs.length by omega], ?_⟩
      rw [List.getElem?_map, hinn, number_getElem _ _ _ hj]; rfl
    exact List.mem_of_getElem? this
  refine ⟨e₂, assign e₂ eho ((qs.map Prod.fst).zip (inn.map Prod.fst)), hrun₁,
    gen_run_eq.mpr ⟨eho, ?_, ?_, ?_, rfl⟩, ?_⟩
  · intro p hp
    obtain ⟨j, hj, rfl⟩ := List.getElem_of_mem hp
    have hj' : j < o.args.length := by
      simp only [List.length_zip, List.length_map, hargs, number_length] at hj; omega
    rw [List.getElem_zip]
    obtain ⟨v, hv⟩ := hargsd o.args[j] (List.getElem_mem hj')
    exact ⟨v, by rw [← hv]; exact hxv j hj'⟩
  · have hrun1 : (⟨o.kind, o.args.map ρ, o.captured.map ρ, inn.map Prod.fst⟩ : Op K).run sem eh =
        some eho := op_run_eq.mpr ⟨a, c, ha', hc', hil, rfl⟩
    simp only [runOps]
    rw [hrun1]
    rfl
  · intro q hq
    obtain ⟨j, hj, rfl⟩ := List.getElem_of_mem hq
    have hj' : j < o.results.length := by
      simp only [List.length_zip, List.length_map, hinn, number_length] at hj; omega
    have : (((qs.map Prod.fst).zip (inn.map Prod.fst))[j]).2 =
        next + o.args.length + o.args.length + j := by
      rw [List.getElem_zip]
      have := number_getElem (next + o.args.length + o.args.length) o.results j hj'
      rw [← hinn, List.getElem?_eq_some_iff] at this
      obtain ⟨_, this⟩ := this
      simp only [List.getElem_map, this]
    rw [this]
    exact ⟨_, hinner j hj'⟩
  · intro x _ v hv
    rcases assign_cases e eb outs x with ⟨q, hq, rfl, hav⟩ | ⟨hm, hav⟩
    · rw [hav] at hv
      by_cases hqr : q.2 ∈ o.results
      · obtain ⟨j, hj, hjr⟩ := List.getElem_of_mem hqr
        have hqq : q = qs[j]'(by omega) := honce q hq _ (hqj j hj).1 hqr (by rw [(hqj j hj).2, hjr])
        rw [ops_stable hb₂ (hr2 _ hqr), ← hjr, define_get hrn hl hj] at hv
        rw [id, hqq, assign_of_mem (p := ((qs[j]'(by omega)).1, next + o.args.length + o.args.length + j))
          (by rw [hqfst]; exact hqsn) (hqmem j hj), hinner j hj, ← hv]
      · have hqn : q.1 ∉ qs.map Prod.fst := by
          intro hc''
          obtain ⟨q', hq', hqq⟩ := List.mem_map.mp hc''
          obtain ⟨j, hj, rfl⟩ := List.getElem_of_mem hq'
          have := hoinj _ (hqj j (by omega)).1 q hq hqq
          rw [← this, (hqj j (by omega)).2] at hqr
          exact hqr (List.getElem_mem _)
        rw [id, assign_of_notMem (by rw [hqfst]; exact hqn), he₂, assign_of_mem (p := q) hfn
          (List.mem_filter.mpr ⟨by rw [houts']; exact List.mem_append_left _ hq, by simpa using hqr⟩)]
        exact hs₂ q.2 hqr v hv
    · rw [hav] at hv
      rw [id, assign_of_notMem, he₂e x v hv]
      rw [hqfst]
      intro hc''
      obtain ⟨q', hq', rfl⟩ := List.mem_map.mp hc''
      obtain ⟨j, hj, rfl⟩ := List.getElem_of_mem hq'
      exact hm (List.mem_map_of_mem (hqj j (by omega)).1)

end Heir.Generic
