import Verif.Scale.Populate

/-! # Multiplications, modulus reductions and the whole walk -/

namespace Heir.Scale

variable {M : Type} [CommRing M]

section
variable {cfg : Cfg} {I : Kind → List M → M} {p : Prog} {rs : List Op} {S : Nat → Option Nat}
  {T1 T2 : Nat → Fact} {m1 m2 : Nat → M}

theorem half_ge (s t : Int) (h : s + s < t) : s ≤ (t + 1).tdiv 2 := by
  by_cases h0 : 0 ≤ t + 1
  · rw [Int.tdiv_eq_ediv_of_nonneg h0]; omega
  · have : (t + 1).tdiv 2 = - ((-(t + 1)) / 2) := by
      rw [← Int.tdiv_eq_ediv_of_nonneg (by omega : 0 ≤ -(t + 1)), Int.neg_tdiv, neg_neg]
    rw [this]; omega

/-- Replacing the uses of a raised operand. -/
theorem rel_use {l : List Nat} {v n : Nat} (h : ∀ a ∈ l, Inv cfg p S T1 T2 m1 m2 a) (hr : Rel T1 T2 m1 m2 v n) :
    List.Forall₂ (Rel T1 T2 m1 m2) l (replaceUses l v n) := by
  unfold replaceUses
  induction l with
  | nil => exact .nil
  | cons a l ih =>
    refine .cons ?_ (ih fun b hb => h b (by simp [hb]))
    simp only
    split
    · rename_i e; rw [e]; exact hr
    · exact (h a (by simp)).rel

theorem scales_pair (f : Nat → Fact) (a b : Nat) (x y : Int) (ha : (f a).scaled = true) (hb : (f b).scaled = true)
    (hx : (f a).scale = some x) (hy : (f b).scale = some y) : operandScales f [a, b] = some [x, y] := by
  simp [operandScales, ha, hb, hx, hy]

theorem attr_of {f : Nat → Fact} {v : Nat} {x : Int} (h : (f v).scaled = true) (hx : (f v).scale = some x) :
    attrScale f v = some x := by simp [attrScale, h, hx]

theorem step_mul (C : Ctx cfg I p rs S T1 T2 m1 m2) {op : Op} (hop : op ∈ p.ops)
    (hk : op.kind = .mul) (ih : ∀ a ∈ op.args, Inv cfg p S T1 T2 m1 m2 a) {n n' : Nat} {l : List Op}
    (h : raiseMul cfg T1 op n = some (l, n')) (hl : ∀ o ∈ l, o ∈ rs) : Step cfg p S T1 T2 m1 m2 op l := by
  have hna := (C.plain op hop).1
  have hni : op.kind ≠ .init := by simp [hk]
  have hlen := (C.arity op hop).1 (by simp [hk])
  obtain ⟨a, b, hab⟩ : ∃ a b, op.args = [a, b] := by
    match op.args, hlen with
    | [a, b], _ => exact ⟨a, b, rfl⟩
  have one := C.one op hop
  have iha := ih a (by simp [hab])
  have ihb := ih b (by simp [hab])
  unfold raiseMul at h
  simp only [hab, List.getD_cons_zero, List.getD_cons_succ] at h
  -- the case without change
  have keep : l = [op] → ((T1 op.res).scaled = true → (T2 op.res).scale = (T1 op.res).scale) →
      ((T2 op.res).scaled = true → ∃ x y, (T2 a).scale = some x ∧ (T2 b).scale = some y ∧
        (T2 op.res).scale = some (x + y)) → Step cfg p S T1 T2 m1 m2 op l := by
    rintro rfl h1 h2
    refine ⟨inv_res C hop (args' := op.args) (hl _ (by simp)) (rel_self ih) (fun hc => absurd hc hni)
      fun hs => Or.inl (h1 hs), ?_⟩
    intro o ho
    rw [List.mem_singleton] at ho
    subst ho
    rw [mergeOp_ne _ _ hna]
    simp only [validOp, hk, hab, List.getD_cons_zero, List.getD_cons_succ]
    split
    · rename_i x y z hx hy hz
      obtain ⟨x', y', e1, e2, e3⟩ := h2 (attr_le hz).1
      rw [(attr_le hx).2] at e1
      rw [(attr_le hy).2] at e2
      rw [(attr_le hz).2] at e3
      cases e1; cases e2; cases e3
      simp
    · rfl
  have hsres : (T1 op.res).sec = ((T1 a).sec || (T1 b).sec) := by
    rw [one]; simp [step, hab]
  split at h
  · rename_i hsec
    have hsec' : (T1 op.res).sec = true := by rw [hsres]; exact hsec
    have hsa := (C.enc op hop).1 hsec' (by simp [hk]) a (by simp [hab])
    have hsb := (C.enc op hop).1 hsec' (by simp [hk]) b (by simp [hab])
    split at h
    · rename_i sl sr hsl hsr
      have ha2 := iha.scaled.trans hsa
      have hb2 := ihb.scaled.trans hsb
      have h1 : (T1 op.res).scale = mulScale true cfg op [sl, sr] := by
        rw [one]
        simp only [step, scaleStep, hk, hab]
        rw [scales_pair T1 a b sl sr hsa hsb hsl hsr]
        rfl
      have h2 : ∀ a' b' x y, { op with args := [a', b'] } ∈ rs → (T2 a').scaled = true → (T2 b').scaled = true →
          (T2 a').scale = some x → (T2 b').scale = some y → (T2 op.res).scale = some (x + y) := by
        intro a' b' x y hr e1 e2 e3 e4
        have := C.two _ hr
        rw [mergeOp_ne S { op with args := [a', b'] } hna] at this
        simp only at this
        rw [this]
        simp only [step, scaleStep, hk]
        rw [scales_pair T2 a' b' x y e1 e2 e3 e4]
        simp [mulScale]
      -- a raised operand
      have raise : ∀ v m, v ∈ op.args → (T1 v).scaled = true → l = (raiseUse T1 op v m n).1 →
          (∀ s, (T2 v).scale = some s → s ≤ m) →
          (∀ x y, (T2 ((replaceUses [a, b] v n).getD 0 0)).scale = some x →
            (T2 ((replaceUses [a, b] v n).getD 1 0)).scale = some y → (T1 op.res).scale = some (x + y)) →
          (∃ x, (T2 ((replaceUses [a, b] v n).getD 0 0)).scale = some x) →
          (∃ y, (T2 ((replaceUses [a, b] v n).getD 1 0)).scale = some y) → Step cfg p S T1 T2 m1 m2 op l := by
        rintro v m hv hsv rfl hle hsum ⟨x, hx⟩ ⟨y, hy⟩
        have hadj : adjustOp T1 v m n ∈ rs := hl _ (by simp [raiseUse])
        obtain ⟨g1, g2, g3, g4⟩ := adjust_fact C (ih v hv) hsv hadj
        have hop' : { op with args := replaceUses op.args v n } ∈ rs := hl _ (by simp [raiseUse])
        have hrel := rel_use ih g1
        have hsc : ∀ c ∈ replaceUses [a, b] v n, (T2 c).scaled = true := by
          intro c hc
          rw [← hab] at hc
          obtain ⟨d, hd, hR⟩ := forall₂_mem hrel c hc
          rw [hR.2.1]
          rw [hab] at hd
          simp only [List.mem_cons, List.not_mem_nil, or_false] at hd
          rcases hd with rfl | rfl
          · exact hsa
          · exact hsb
        rw [hab] at hop'
        have h2' := h2 _ _ x y hop' (hsc _ (by simp [replaceUses])) (hsc _ (by simp [replaceUses])) hx hy
        have h1' := hsum x y hx hy
        rw [← hab] at hop'
        refine ⟨inv_res C hop hop' hrel (fun hc => absurd hc hni) fun _ => Or.inl (by rw [h1', h2']), ?_⟩
        intro o ho
        simp only [raiseUse, List.mem_cons, List.not_mem_nil, or_false] at ho
        rcases ho with rfl | rfl
        · exact g4 hle
        · rw [mergeOp_ne S { op with args := replaceUses op.args v n } hna]
          simp only [validOp, hk, hab]
          split
          · rename_i x' y' z hx' hy' hz
            have q1 := (attr_le hx').2
            have q2 := (attr_le hy').2
            have q3 := (attr_le hz).2
            rw [q1] at hx; rw [q2] at hy; rw [q3] at h2'
            cases hx; cases hy; cases h2'
            simp
          · rfl
      have lowA : Lowered cfg T1 p a → (cfg.dflt ≤ sr ∧ sr ≤ cfg.qAt op.lvl) ∧ sl < cfg.dflt := by
        intro hlow
        obtain ⟨s', hs', hlt⟩ := hlow.2.2
        rw [hsl] at hs'; cases hs'
        refine ⟨?_, hlt⟩
        rcases C.cov op hop a (by simp [hab]) hlow with ⟨hc, -⟩ | ⟨-, c, hc, s, hs, hle, hle'⟩
        · simp [hk, Kind.additive] at hc
        · rw [hab] at hc
          simp only [List.cons.injEq, and_true, true_and] at hc
          rcases hc with hc | ⟨rfl, rfl⟩
          · subst hc
            rw [hsr] at hs; cases hs
            exact ⟨hle, hle'⟩
          · rw [hsl] at hs; cases hs; omega
      have lowB : Lowered cfg T1 p b → (cfg.dflt ≤ sl ∧ sl ≤ cfg.qAt op.lvl) ∧ sr < cfg.dflt := by
        intro hlow
        obtain ⟨s', hs', hlt⟩ := hlow.2.2
        rw [hsr] at hs'; cases hs'
        refine ⟨?_, hlt⟩
        rcases C.cov op hop b (by simp [hab]) hlow with ⟨hc, -⟩ | ⟨-, c, hc, s, hs, hle, hle'⟩
        · simp [hk, Kind.additive] at hc
        · rw [hab] at hc
          simp only [List.cons.injEq, and_true] at hc
          rcases hc with ⟨rfl, rfl⟩ | hc
          · rw [hsr] at hs; cases hs; omega
          · subst hc
            rw [hsl] at hs; cases hs
            exact ⟨hle, hle'⟩
      have keepA : ¬ Lowered cfg T1 p a → (T2 a).scale = some sl := fun hn => (iha.keeps hn hsa).trans hsl
      have keepB : ¬ Lowered cfg T1 p b → (T2 b).scale = some sr := fun hn => (ihb.keeps hn hsb).trans hsr
      have valA : ∀ s, (T2 a).scale = some s → s = sl ∨ (Lowered cfg T1 p a ∧ s = cfg.dflt) := by
        intro s hs
        rcases iha.scale hsa with h | ⟨h, h'⟩
        · rw [hs, hsl] at h; cases h; exact Or.inl rfl
        · rw [hs] at h'; cases h'; exact Or.inr ⟨h, rfl⟩
      have valB : ∀ s, (T2 b).scale = some s → s = sr ∨ (Lowered cfg T1 p b ∧ s = cfg.dflt) := by
        intro s hs
        rcases ihb.scale hsb with h | ⟨h, h'⟩
        · rw [hs, hsr] at h; cases h; exact Or.inl rfl
        · rw [hs] at h'; cases h'; exact Or.inr ⟨h, rfl⟩
      split at h
      · rename_i hlt
        split at h
        · -- a square
          rename_i heq
          subst heq
          cases h
          rw [hsl] at hsr; cases hsr
          have hnl : ¬ Lowered cfg T1 p a := by
            intro hlow
            have := lowA hlow
            omega
          have hadj : adjustOp T1 a ((cfg.target op.lvl + 1).tdiv 2) n ∈ rs := hl _ (by simp [raiseUse])
          have g2 := (adjust_fact C iha hsa hadj).2.1
          refine raise a _ (by simp [hab]) hsa rfl ?_ ?_ ⟨_, by simpa [replaceUses] using g2⟩
            ⟨_, by simpa [replaceUses] using g2⟩
          · intro s hs
            rw [keepA hnl] at hs; cases hs
            exact half_ge sl _ hlt
          · intro x y hx hy
            simp only [replaceUses, List.map_cons, List.map_nil, if_true, List.getD_cons_zero,
              List.getD_cons_succ] at hx hy
            rw [g2] at hx hy
            cases hx; cases hy
            rw [h1]
            simp only [mulScale, List.headD_cons, Bool.true_and, hlt, decide_true, if_true, hab,
              List.getD_cons_zero, List.getD_cons_succ]
            congr 1
            omega
        · rename_i hne
          have hres : (T1 op.res).scale = some (cfg.target op.lvl) := by
            rw [h1]
            simp [mulScale, hlt, hab, hne]
          split at h
          · rename_i hlt'
            cases h
            have hnb : ¬ Lowered cfg T1 p b := fun hlow => by have := lowB hlow; omega
            have hadj : adjustOp T1 a (cfg.target op.lvl - sr) n ∈ rs := hl _ (by simp [raiseUse])
            have g2 := (adjust_fact C iha hsa hadj).2.1
            have r0 : (replaceUses [a, b] a n).getD 0 0 = n := by simp [replaceUses]
            have r1 : (replaceUses [a, b] a n).getD 1 0 = b := by simp [replaceUses, Ne.symm hne]
            refine raise a _ (by simp [hab]) hsa rfl ?_ ?_ ⟨_, by rw [r0]; exact g2⟩
              ⟨_, by rw [r1]; exact keepB hnb⟩
            · intro s hs
              rcases valA s hs with rfl | ⟨hlow, rfl⟩
              · omega
              · have := lowA hlow
                unfold Cfg.target
                omega
            · intro x y hx hy
              rw [r0, g2] at hx
              rw [r1, keepB hnb] at hy
              cases hx; cases hy
              rw [hres]; congr 1; omega
          · rename_i hlt'
            cases h
            have hnb : ¬ Lowered cfg T1 p a := fun hlow => by have := lowA hlow; omega
            have hadj : adjustOp T1 b (cfg.target op.lvl - sl) n ∈ rs := hl _ (by simp [raiseUse])
            have g2 := (adjust_fact C ihb hsb hadj).2.1
            have r0 : (replaceUses [a, b] b n).getD 0 0 = a := by simp [replaceUses, hne]
            have r1 : (replaceUses [a, b] b n).getD 1 0 = n := by simp [replaceUses]
            refine raise b _ (by simp [hab]) hsb rfl ?_ ?_ ⟨_, by rw [r0]; exact keepA hnb⟩
              ⟨_, by rw [r1]; exact g2⟩
            · intro s hs
              rcases valB s hs with rfl | ⟨hlow, rfl⟩
              · omega
              · have := lowB hlow
                unfold Cfg.target
                omega
            · intro x y hx hy
              rw [r0, keepA hnb] at hx
              rw [r1, g2] at hy
              cases hx; cases hy
              rw [hres]; congr 1; omega
      · rename_i hge
        cases h
        have hna' : ¬ Lowered cfg T1 p a := fun hlow => by have := lowA hlow; unfold Cfg.target at hge; omega
        have hnb' : ¬ Lowered cfg T1 p b := fun hlow => by have := lowB hlow; unfold Cfg.target at hge; omega
        have hr : { op with args := [a, b] } ∈ rs := by rw [← hab]; exact hl _ (by simp)
        have h2' := h2 a b sl sr hr ha2 hb2 (keepA hna') (keepB hnb')
        refine keep rfl (fun _ => ?_) fun _ => ⟨sl, sr, keepA hna', keepB hnb', h2'⟩
        rw [h1, h2']
        simp [mulScale, hge]
    · cases h
  · rename_i hsec
    cases h
    have hns : (T1 op.res).scaled = false := by
      unfold Fact.scaled
      rw [hsres, one]
      simp only [Bool.not_eq_true] at hsec
      rw [hsec]
      simp [step, hk]
    refine keep rfl (fun hc => by simp [hns] at hc) fun hc => ?_
    have hsec2 : (T2 op.res).sec = ((T2 a).sec || (T2 b).sec) := by
      rw [C.two op (hl _ (by simp)), mergeOp_ne _ _ hna]
      simp [step, hab]
    have : (T2 op.res).scaled = false := by
      unfold Fact.scaled
      rw [hsec2, iha.sec, ihb.sec]
      simp only [Bool.not_eq_true] at hsec
      rw [hsec, C.two op (hl _ (by simp)), mergeOp_ne _ _ hna]
      simp [step, hk]
    simp [this] at hc

theorem step_modReduce (C : Ctx cfg I p rs S T1 T2 m1 m2) {op : Op} (hop : op ∈ p.ops)
    (hk : op.kind = .modReduce) (ih : ∀ a ∈ op.args, Inv cfg p S T1 T2 m1 m2 a) {n n' : Nat} {l : List Op}
    (h : raiseModReduce cfg T1 op n = some (l, n')) (hl : ∀ o ∈ l, o ∈ rs) : Step cfg p S T1 T2 m1 m2 op l := by
  have hna := (C.plain op hop).1
  have hni : op.kind ≠ .init := by simp [hk]
  have hlen := (C.arity op hop).2 (by simp [hk])
  obtain ⟨a, hab⟩ : ∃ a, op.args = [a] := by
    match op.args, hlen with
    | [a], _ => exact ⟨a, rfl⟩
  have one := C.one op hop
  have iha := ih a (by simp [hab])
  have hnl : ¬ Lowered cfg T1 p a := by
    intro hlow
    rcases C.cov op hop a (by simp [hab]) hlow with ⟨hc, -⟩ | ⟨hc, -⟩
    · simp [hk, Kind.additive] at hc
    · simp [hk] at hc
  unfold raiseModReduce at h
  simp only [hab, List.headD_cons] at h
  have hsres : (T1 op.res).sec = (T1 a).sec := by rw [one]; simp [step, hab]
  have h2 : ∀ a' x, { op with args := [a'] } ∈ rs → (T2 a').scaled = true → (T2 a').scale = some x →
      (T2 op.res).scale = some (x - cfg.qAt (T2 a').lvl) := by
    intro a' x hr e1 e2
    have := C.two _ hr
    rw [mergeOp_ne S { op with args := [a'] } hna] at this
    simp only at this
    rw [this]
    simp [step, scaleStep, hk, operandScales, e1, e2]
  split at h
  · rename_i hsec
    have hsa : (T1 a).scaled = true := by unfold Fact.scaled; rw [hsec]; rfl
    simp only [Option.map_eq_some_iff] at h
    obtain ⟨s, hs, h⟩ := h
    have h1 : (T1 op.res).scale = some (s - cfg.qAt (T1 a).lvl) := by
      rw [one]
      simp [step, scaleStep, hk, hab, operandScales, hsa, hs]
    have ks := (iha.keeps hnl hsa).trans hs
    split at h
    · rename_i hlt
      cases h
      have hadj : adjustOp T1 a (cfg.target (T1 a).lvl) n ∈ rs := hl _ (by simp [raiseUse])
      obtain ⟨g1, g2, g3, g4⟩ := adjust_fact C iha hsa hadj
      have e : replaceUses op.args a n = [n] := by simp [hab, replaceUses]
      have hop' : { op with args := replaceUses op.args a n } ∈ rs := hl _ (by simp [raiseUse])
      have hsn : (T2 n).scaled = true := g1.2.1.trans hsa
      have h2' : (T2 op.res).scale = some cfg.dflt := by
        rw [e] at hop'
        rw [h2 n _ hop' hsn g2, g3]
        congr 1
        unfold Cfg.target
        omega
      refine ⟨inv_res C hop hop' (rel_use ih g1) (fun hc => absurd hc hni) fun _ => Or.inr ⟨?_, h2'⟩, ?_⟩
      · exact ⟨⟨op, hop, rfl, hk⟩, by rw [hsres]; exact hsec, _, h1, hlt⟩
      · intro o ho
        simp only [raiseUse, List.mem_cons, List.not_mem_nil, or_false] at ho
        rcases ho with rfl | rfl
        · refine g4 fun s' hs' => ?_
          rw [ks] at hs'; cases hs'
          unfold Cfg.target
          omega
        · rw [mergeOp_ne S { op with args := replaceUses op.args a n } hna]
          simp only [validOp, hk, e, List.headD_cons]
          split
          · rename_i x y hx hy
            have q1 := (attr_le hx).2
            have q2 := (attr_le hy).2
            rw [q1] at g2; rw [q2] at h2'
            cases g2; cases h2'
            rw [g3]
            simp [Cfg.target]
          · rfl
    · cases h
      have hr : { op with args := [a] } ∈ rs := by rw [← hab]; exact hl _ (by simp)
      have h2' := h2 a s hr (iha.scaled.trans hsa) ks
      refine ⟨inv_res C hop (args' := op.args) (hl _ (by simp)) (rel_self ih) (fun hc => absurd hc hni)
        fun _ => Or.inl (by rw [h1, h2', iha.lvl]), ?_⟩
      intro o ho
      rw [List.mem_singleton] at ho
      subst ho
      rw [mergeOp_ne _ _ hna]
      simp only [validOp, hk, hab, List.headD_cons]
      split
      · rename_i x y hx hy
        have q1 := (attr_le hx).2
        have q2 := (attr_le hy).2
        rw [q1] at ks; rw [q2] at h2'
        cases ks; cases h2'
        simp
      · rfl
  · rename_i hsec
    cases h
    have hr : op ∈ rs := hl _ (by simp)
    simp only [Bool.not_eq_true] at hsec
    have hns : (T1 op.res).scaled = false := by
      unfold Fact.scaled
      rw [hsres, hsec, one]
      simp [step, hk]
    refine ⟨inv_res C hop (args' := op.args) hr (rel_self ih) (fun hc => absurd hc hni)
      fun hc => by simp [hns] at hc, ?_⟩
    intro o ho
    rw [List.mem_singleton] at ho
    subst ho
    rw [mergeOp_ne _ _ hna]
    have : attrScale T2 o.res = none := by
      have hsc : (T2 o.res).scaled = false := by
        unfold Fact.scaled
        rw [C.two o hr, mergeOp_ne _ _ hna]
        simp [step, hk, hab, iha.sec, hsec]
      simp [attrScale, hsc]
    simp only [validOp, hk]
    split
    · rename_i hc; rw [this] at hc; cases hc
    · rfl

theorem step_keep (C : Ctx cfg I p rs S T1 T2 m1 m2) {op : Op} (hop : op ∈ p.ops)
    (hk : op.kind = .init ∨ ∃ g, op.kind = .other g) (ih : ∀ a ∈ op.args, Inv cfg p S T1 T2 m1 m2 a)
    (hl : op ∈ rs) : Step cfg p S T1 T2 m1 m2 op [op] := by
  have hna := (C.plain op hop).1
  have two := C.two op hl
  rw [mergeOp_ne _ _ hna] at two
  have hany : (op.args.any fun a => (T2 a).sec) = op.args.any fun a => (T1 a).sec :=
    forall₂_any (rel_self ih) fun a a' hr => hr.1
  refine ⟨inv_res C hop (args' := op.args) hl (rel_self ih) (fun _ => rfl) fun _ => Or.inl ?_, ?_⟩
  · rw [two, C.one op hop]
    rcases hk with hk | ⟨g, hk⟩
    · simp [step, scaleStep, hk]
    · have hnl : NotLow cfg T1 p op := by
        intro a ha hlow
        rcases C.cov op hop a ha hlow with ⟨hc, -⟩ | ⟨hc, -⟩ <;> simp [hk, Kind.additive] at hc
      simp only [step, scaleStep, hk]
      rw [hany, operandScales_keep hnl ih]
  · intro o ho
    rw [List.mem_singleton] at ho
    subst ho
    rw [mergeOp_ne _ _ hna]
    rcases hk with hk | ⟨g, hk⟩ <;> simp [validOp, hk]

theorem step_op (C : Ctx cfg I p rs S T1 T2 m1 m2) {op : Op} (hop : op ∈ p.ops)
    (ih : ∀ a ∈ op.args, Inv cfg p S T1 T2 m1 m2 a) {n n' : Nat} {l : List Op}
    (h : raiseOp cfg T1 op n = some (l, n')) (hl : ∀ o ∈ l, o ∈ rs) : Step cfg p S T1 T2 m1 m2 op l := by
  unfold raiseOp at h
  split at h
  · exact step_additive C hop (by assumption) ih h hl
  · split at h
    · exact step_mul C hop (by assumption) ih h hl
    · split at h
      · exact step_modReduce C hop (by assumption) ih h hl
      · rename_i h1 h2 h3
        cases h
        refine step_keep C hop ?_ ih (hl _ (by simp))
        have := C.plain op hop
        cases hk : op.kind <;> simp_all [Kind.additive]

theorem walk (C : Ctx cfg I p rs S T1 T2 m1 m2) (N : Nat) (ops : List Op) (P : Nat → Prop) (hs : SSA N P ops)
    (hsub : ∀ o ∈ ops, o ∈ p.ops) (hP : ∀ v, P v → Inv cfg p S T1 T2 m1 m2 v) (n n' : Nat) (l : List Op)
    (h : raiseAll cfg T1 ops n = some (l, n')) (hl : ∀ o ∈ l, o ∈ rs) :
    (∀ op ∈ ops, Inv cfg p S T1 T2 m1 m2 op.res) ∧
      ∀ o ∈ l, validOp cfg (attrScale T2) (fun v => (T2 v).lvl) (mergeOp S o) = true := by
  induction ops generalizing P n l n' with
  | nil => cases h; simp
  | cons op ops ih =>
    rw [raiseAll, Option.bind_eq_some_iff] at h
    obtain ⟨⟨l₁, n₁⟩, h1, h⟩ := h
    simp only [Option.map_eq_some_iff, Prod.mk.injEq, Prod.exists] at h
    obtain ⟨l₂, n₂, h2, rfl, rfl⟩ := h
    obtain ⟨s1, s2⟩ := step_op C (hsub op (by simp)) (fun a ha => hP a (hs.1 a ha)) h1
      fun o ho => hl o (List.mem_append.2 (Or.inl ho))
    obtain ⟨r1, r2⟩ := ih _ hs.2.2.2.2.2 (fun o ho => hsub o (by simp [ho]))
      (by
        rintro v (hv | rfl)
        · exact hP v hv
        · exact s1) _ _ _ h2 fun o ho => hl o (List.mem_append.2 (Or.inr ho))
    refine ⟨?_, ?_⟩
    · intro o ho
      rcases List.mem_cons.1 ho with rfl | ho
      · exact s1
      · exact r1 o ho
    · intro o ho
      rcases List.mem_append.1 ho with ho | ho
      · exact s2 o ho
      · exact r2 o ho

end

/-- The populated program: its operations are valid, and its values are those of the input. -/
theorem populate_inv (cfg : Cfg) (I : Kind → List M → M) (p p' : Prog) (hp : p.WF) (inp : Nat → M)
    (henc : Encoded (facts true cfg p) p) (hcov : Covered cfg (facts true cfg p) p)
    (hplain : ∀ op ∈ p.ops, op.kind ≠ .adjust ∧ op.kind ≠ .bootstrap) (h : populate cfg p = some p') :
    ∃ S, (∀ v, p.Value v → Inv cfg p S (facts true cfg p) (facts false cfg p') (messages I p inp)
        (messages I p' inp) v) ∧
      validate cfg (attrScale (facts false cfg p')) (fun v => (facts false cfg p' v).lvl) p'.ops = true := by
  have hwf := populate_wf cfg p p' hp h
  have h' := h
  unfold populate at h'
  simp only [Option.map_eq_some_iff, Prod.exists] at h'
  obtain ⟨rs, n', hr, hp'⟩ := h'
  have hssa := (raiseAll_ssa n' p.next cfg _ p.ops p.next rs n' hr (· < p.nargs) (· < p.nargs) hp.ssa
    (fun v => by omega) (fun v hv => lt_of_lt_of_le hv hp.nargs) le_rfl le_rfl).1
  have hops : p'.ops = rs.map (mergeOp (sources rs)) := by
    rw [← hp']
    exact mergeAll_eq _ _ _ _ hssa
  have hn : p'.nargs = p.nargs := by rw [← hp']
  have C : Ctx cfg I p rs (sources rs) (facts true cfg p) (facts false cfg p') (messages I p inp)
      (messages I p' inp) := by
    refine ⟨ssa_mem _ _ _ hp.ssa, facts_fix true cfg p hp, ?_, ?_, ?_, ?_, henc, hcov, hplain⟩
    · intro o ho
      have hm : mergeOp (sources rs) o ∈ p'.ops := by rw [hops]; exact List.mem_map_of_mem ho
      have := facts_fix false cfg p' hwf _ hm
      rwa [mergeOp_res] at this
    · exact run_fix _ _ _ initSource_local _ _ hssa
    · exact run_fix _ _ _ (msgOp_local I) _ _ hp.ssa
    · intro o ho
      have hm : mergeOp (sources rs) o ∈ p'.ops := by rw [hops]; exact List.mem_map_of_mem ho
      have := run_fix _ _ _ (msgOp_local I) p'.ops inp hwf.ssa _ hm
      rwa [mergeOp_res] at this
  have h0 : ∀ v, v < p.nargs → Inv cfg p (sources rs) (facts true cfg p) (facts false cfg p') (messages I p inp)
      (messages I p' inp) v := by
    intro v hv
    have hv' : v < p'.nargs := by rw [hn]; exact hv
    have e1 : facts true cfg p v = entry cfg p v := run_of_defined _ _ _ _ _ hp.ssa v hv
    have e2 : facts false cfg p' v = entry cfg p v := by
      have : facts false cfg p' v = entry cfg p' v := run_of_defined _ _ _ _ _ hwf.ssa v hv'
      rw [this, ← hp']
      rfl
    have e3 : sources rs v = none := run_of_defined _ _ _ _ _ hssa v hv
    have e4 : messages I p inp v = inp v := run_of_defined _ _ _ _ _ hp.ssa v hv
    have e5 : messages I p' inp v = inp v := run_of_defined _ _ _ _ _ hwf.ssa v hv'
    refine ⟨by rw [e1, e2], by rw [e1, e2], by rw [e1, e2], fun _ => Or.inl (by rw [e1, e2]), ?_, ?_, ?_⟩
    · rw [e3, e1]; simp [entry, hv]
    · intro c hc; rw [e3] at hc; cases hc
    · rw [e4, e5]
  obtain ⟨w1, w2⟩ := walk C _ p.ops _ hp.ssa (fun o ho => ho) h0 _ _ _ hr fun o ho => ho
  refine ⟨sources rs, ?_, ?_⟩
  · rintro v (hv | ⟨op, hop, rfl⟩)
    · exact h0 v hv
    · exact w1 op hop
  · unfold validate
    rw [List.all_eq_true, hops]
    intro o ho
    obtain ⟨o', ho', rfl⟩ := List.mem_map.1 ho
    exact w2 o' ho'

end Heir.Scale
