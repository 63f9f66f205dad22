/- Helper lemmas: rolls are one-to-one and onto. -/
import Verif.Rotom.Lemmas3

namespace Heir.Rotom

theorem replIndex_lt {ds : List Dim} {k : Nat} {dk : Dim} (h : ds[k]? = some dk)
    (hr : dk.isReplicate = true) : replIndex ds k < (ds.filter Dim.isReplicate).length := by
  induction ds generalizing k with
  | nil => simp at h
  | cons x ds ih =>
    cases k with
    | zero =>
      rw [List.getElem?_cons_zero, Option.some.injEq] at h
      subst h
      simp [replIndex, hr]
    | succ k =>
      rw [List.getElem?_cons_succ] at h
      have := ih h
      unfold replIndex at *
      rw [List.take_succ_cons]
      by_cases hx : x.isReplicate = true
      · rw [List.filter_cons_of_pos hx, List.filter_cons_of_pos hx, List.length_cons, List.length_cons]
        omega
      · rw [List.filter_cons_of_neg hx, List.filter_cons_of_neg hx]
        exact this

theorem gapIndex_lt {ds : List Dim} {k : Nat} {dk : Dim} (h : ds[k]? = some dk)
    (hr : dk.isGap = true) : gapIndex ds k < (ds.filter Dim.isGap).length := by
  induction ds generalizing k with
  | nil => simp at h
  | cons x ds ih =>
    cases k with
    | zero =>
      rw [List.getElem?_cons_zero, Option.some.injEq] at h
      subst h
      simp [gapIndex, hr]
    | succ k =>
      rw [List.getElem?_cons_succ] at h
      have := ih h
      unfold gapIndex at *
      rw [List.take_succ_cons]
      by_cases hx : x.isGap = true
      · rw [List.filter_cons_of_pos hx, List.filter_cons_of_pos hx, List.length_cons, List.length_cons]
        omega
      · rw [List.filter_cons_of_neg hx, List.filter_cons_of_neg hx]
        exact this

/-- The block indices used by the rolls agree. -/
def Agree (ds : List Dim) (rolls : List Int) (d g d' g' : Nat → Int) : Prop :=
  (∀ k, k < (ds.filter Dim.isReplicate).length → d k = d' k) ∧
  (∀ o, rolledGap ds rolls o = true → g o = g' o)

theorem rolledGap_head {ds : List Dim} {i j : Int} {rest : List Int} {dj : Dim} (h0 : 0 ≤ j)
    (hj : ds[j.toNat]? = some dj) (hg : dj.isGap = true) :
    rolledGap ds (i :: j :: rest) (gapIndex ds j.toNat) = true := by
  unfold rolledGap
  rw [if_neg (by omega), hj]
  simp [hg]

theorem rolledGap_tail {ds : List Dim} {i j : Int} {rest : List Int} {o : Nat}
    (h : rolledGap ds rest o = true) : rolledGap ds (i :: j :: rest) o = true := by
  unfold rolledGap
  rw [h, Bool.or_true]

theorem step_inj {ds : List Dim} {d g d' g' : Nat → Int} {vs ws u : List Int} {i j : Int}
    {rest : List Int} (hp : Pos ds) (hok : rollOk ds i j = true)
    (ha : Agree ds (i :: j :: rest) d g d' g')
    (hv : rollStepV (axesOf ds) ds d g vs i j = some u)
    (hw : rollStepV (axesOf ds) ds d' g' ws i j = some u)
    (iv : InAx (axesOf ds) vs) (iw : InAx (axesOf ds) ws) : vs = ws := by
  obtain ⟨h0, di, dj, f, b, x, hi, hj, hf, hb, hx, hu⟩ := rollStepV_iff.mp hv
  obtain ⟨_, di', dj', f', b', y, hi', hj', hf', hb', hy, hu'⟩ := rollStepV_iff.mp hw
  rw [hi, Option.some.injEq] at hi'
  rw [hj, Option.some.injEq] at hj'
  subst hi'; subst hj'
  rw [hf, Option.some.injEq] at hf'
  subst hf'
  have haxis := varIndex_some hf
  obtain ⟨hne, htrav⟩ := rollOk_ne hok
  have bx := iv.2 f di x haxis hx
  have by' := iw.2 f di y haxis hy
  have hlen : vs.length = ws.length := by rw [iv.1, iw.1]
  -- the other axes agree
  have hother : ∀ k, k ≠ f → vs[k]? = ws[k]? := by
    intro k hk
    have e1 : u[k]? = vs[k]? := by rw [hu, List.getElem?_set, if_neg (Ne.symm hk)]
    have e2 : u[k]? = ws[k]? := by rw [hu', List.getElem?_set, if_neg (Ne.symm hk)]
    rw [← e1, e2]
  have hfl : f < vs.length := (List.getElem?_eq_some_iff.mp hx).1
  have hmod : (x - b) % (di.size : Int) = (y - b') % (di.size : Int) := by
    have e1 : u[f]? = some ((x - b) % (di.size : Int)) := by
      rw [hu, List.getElem?_set, if_pos rfl, if_pos hfl]
    have e2 : u[f]? = some ((y - b') % (di.size : Int)) := by
      rw [hu', List.getElem?_set, if_pos rfl, if_pos (hlen ▸ hfl)]
    rw [e1, Option.some.injEq] at e2
    exact e2
  have hxy : x = y := by
    cases hb with
    | gap hg =>
      cases hb' with
      | gap _ =>
        rw [ha.2 _ (rolledGap_head h0.2 hj hg)] at hmod
        exact emod_sub_inj hmod bx.1 bx.2 by'.1 by'.2
      | repl _ hn => rw [hg] at hn; simp at hn
      | trav _ _ hn _ _ => have := (trav_flags hn).1; rw [hg] at this; simp at this
    | repl hr hn =>
      cases hb' with
      | gap hg => rw [hg] at hn; simp at hn
      | repl _ _ =>
        rw [ha.1 _ (replIndex_lt hj hr)] at hmod
        exact emod_sub_inj hmod bx.1 bx.2 by'.1 by'.2
      | trav _ _ hn' _ _ => have := (trav_flags hn').2; rw [hr] at this; simp at this
    | trav t _ ht hvt hb1 =>
      cases hb' with
      | gap hg => have := (trav_flags ht).1; rw [hg] at this; simp at this
      | repl hr _ => have := (trav_flags ht).2; rw [hr] at this; simp at this
      | trav t' _ _ hvt' hb2 =>
        rw [hvt, Option.some.injEq] at hvt'
        subst hvt'
        by_cases htf : t = f
        · subst htf
          have h2 := varIndex_some hvt
          rw [haxis, Option.some.injEq] at h2
          subst h2
          have h1 := self_size hp (i := i.toNat) (j := j.toNat) (by omega) hi hj ht haxis
          rw [h1] at bx by'
          have := bx; have := by'
          push_cast at *
          omega
        · have := hother t htf
          rw [hb1, hb2, Option.some.injEq] at this
          subst this
          exact emod_sub_inj hmod bx.1 bx.2 by'.1 by'.2
  apply List.ext_getElem?
  intro k
  by_cases hk : k = f
  · subst hk; rw [hx, hy, hxy]
  · exact hother k hk

theorem step_onto {ds : List Dim} {d g : Nat → Int} {vs0 u0 u : List Int} {i j : Int}
    (hp : Pos ds) (hok : rollOk ds i j = true)
    (h : rollStepV (axesOf ds) ds d g vs0 i j = some u0)
    (hu : InAx (axesOf ds) u) :
    ∃ vs, InAx (axesOf ds) vs ∧ rollStepV (axesOf ds) ds d g vs i j = some u := by
  obtain ⟨h0, di, dj, f, b0, x0, hi, hj, hf, hb, hx, _⟩ := rollStepV_iff.mp h
  have haxis := varIndex_some hf
  obtain ⟨hne, htrav⟩ := rollOk_ne hok
  have hfl : f < u.length := by rw [hu.1]; exact (List.getElem?_eq_some_iff.mp haxis).1
  have hm : 0 < di.size := axes_size_pos hp haxis
  have huf : u[f]? = some u[f] := List.getElem?_eq_getElem hfl
  obtain ⟨hu0, hu1⟩ := hu.2 f di _ haxis huf
  -- undoing a roll by a known amount
  have undo : ∀ b : Int, (∀ vs, vs = u.set f ((u[f] + b) % (di.size : Int)) →
      By (axesOf ds) ds d g j.toNat dj vs b) →
      ∃ vs, InAx (axesOf ds) vs ∧ rollStepV (axesOf ds) ds d g vs i j = some u := by
    intro b hby
    refine ⟨u.set f ((u[f] + b) % (di.size : Int)), ?_, ?_⟩
    · refine ⟨by rw [List.length_set]; exact hu.1, ?_⟩
      intro k a v hk hkv
      rw [List.getElem?_set] at hkv
      by_cases hfk : f = k
      · subst hfk
        rw [hk, Option.some.injEq] at haxis
        subst haxis
        rw [if_pos rfl, if_pos hfl, Option.some.injEq] at hkv
        subst hkv
        exact ⟨Int.emod_nonneg _ (by omega), Int.emod_lt_of_pos _ (by omega)⟩
      · rw [if_neg hfk] at hkv
        exact hu.2 k a v hk hkv
    · rw [rollStepV_iff]
      refine ⟨h0, di, dj, f, b, (u[f] + b) % (di.size : Int), hi, hj, hf, hby _ rfl, ?_, ?_⟩
      · rw [List.getElem?_set, if_pos rfl, if_pos hfl]
      · rw [List.set_set]
        have : ((u[f] + b) % (di.size : Int) - b) % (di.size : Int) = u[f] := by
          rw [Int.emod_sub_emod]
          rw [Int.add_sub_cancel]
          exact Int.emod_eq_of_lt hu0 hu1
        rw [this, List.set_getElem_self]
  cases hb with
  | gap hg => exact undo _ (fun vs _ => By.gap hg)
  | repl hr hn => exact undo _ (fun vs _ => By.repl hr hn)
  | trav t _ ht hvt hb1 =>
    have htl : t < u.length := by
      rw [hu.1]; exact (List.getElem?_eq_some_iff.mp (varIndex_some hvt)).1
    by_cases htf : t = f
    · subst htf
      have h2 := varIndex_some hvt
      rw [haxis, Option.some.injEq] at h2
      subst h2
      have h1 := self_size hp (i := i.toNat) (j := j.toNat) (by omega) hi hj ht haxis
      refine ⟨u, hu, ?_⟩
      rw [rollStepV_iff]
      refine ⟨h0, di, di, t, u[t], u[t], hi, hj, hf,
        By.trav t _ ht hvt huf, huf, ?_⟩
      rw [h1] at hu1 ⊢
      have : u[t] = 0 := by push_cast at hu1; omega
      have e : (u[t] - u[t]) % ((1 : Nat) : Int) = u[t] := by rw [this]; rfl
      rw [e, List.set_getElem_self]
    · apply undo u[t]
      intro vs hvs
      refine By.trav t _ ht hvt ?_
      rw [hvs, List.getElem?_set, if_neg (Ne.symm htf)]
      exact List.getElem?_eq_getElem htl

theorem all_inAx {ds : List Dim} {d g : Nat → Int} (hp : Pos ds) :
    ∀ (rolls : List Int) (vs u : List Int), rollAllV (axesOf ds) ds d g rolls vs = some u →
      InAx (axesOf ds) vs → InAx (axesOf ds) u
  | [], vs, u, h, hv => by
    simp only [rollAllV, Option.some.injEq] at h
    subst h; exact hv
  | [_], vs, u, h, hv => by simp [rollAllV] at h
  | i :: j :: rest, vs, u, h, hv => by
    simp only [rollAllV] at h
    obtain ⟨w, h1, h2⟩ := Option.bind_eq_some_iff.mp h
    exact all_inAx hp rest w u h2 (step_inAx hp h1 hv)

theorem all_inj {ds : List Dim} {d g d' g' : Nat → Int} (hp : Pos ds) :
    ∀ (rolls : List Int) (vs ws u : List Int), rollsOk ds rolls = true →
      Agree ds rolls d g d' g' →
      rollAllV (axesOf ds) ds d g rolls vs = some u →
      rollAllV (axesOf ds) ds d' g' rolls ws = some u →
      InAx (axesOf ds) vs → InAx (axesOf ds) ws → vs = ws
  | [], vs, ws, u, _, _, h, h', _, _ => by
    simp only [rollAllV, Option.some.injEq] at h h'
    rw [h, h']
  | [_], vs, ws, u, _, _, h, _, _, _ => by simp [rollAllV] at h
  | i :: j :: rest, vs, ws, u, hok, ha, h, h', hv, hw => by
    simp only [rollsOk, Bool.and_eq_true] at hok
    simp only [rollAllV] at h h'
    obtain ⟨a, h1, h2⟩ := Option.bind_eq_some_iff.mp h
    obtain ⟨b, h3, h4⟩ := Option.bind_eq_some_iff.mp h'
    have hab := all_inj hp rest a b u hok.2 ⟨ha.1, fun o ho => ha.2 o (rolledGap_tail ho)⟩ h2 h4
      (step_inAx hp h1 hv) (step_inAx hp h3 hw)
    subst hab
    exact step_inj hp hok.1 ha h1 h3 hv hw

theorem all_onto {ds : List Dim} {d g : Nat → Int} (hp : Pos ds) :
    ∀ (rolls : List Int) (vs0 u0 u : List Int), rollsOk ds rolls = true →
      rollAllV (axesOf ds) ds d g rolls vs0 = some u0 → InAx (axesOf ds) u →
      ∃ vs, InAx (axesOf ds) vs ∧ rollAllV (axesOf ds) ds d g rolls vs = some u
  | [], vs0, u0, u, _, _, hu => ⟨u, hu, rfl⟩
  | [_], vs0, u0, u, _, h, _ => by simp [rollAllV] at h
  | i :: j :: rest, vs0, u0, u, hok, h, hu => by
    simp only [rollsOk, Bool.and_eq_true] at hok
    simp only [rollAllV] at h
    obtain ⟨a, h1, h2⟩ := Option.bind_eq_some_iff.mp h
    obtain ⟨w, hw1, hw2⟩ := all_onto hp rest a u0 u hok.2 h2 hu
    obtain ⟨vs, hv1, hv2⟩ := step_onto hp hok.1 h1 hw1
    refine ⟨vs, hv1, ?_⟩
    simp only [rollAllV, hv2, Option.bind_some, hw2]

end Heir.Rotom
