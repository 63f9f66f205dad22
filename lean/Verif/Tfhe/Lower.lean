import Verif.Tfhe.Lemmas

/-! # The conversion to tfhe-rs and the text in Rust -/

namespace Heir.Tfhe

/-! ## Conversion to tfhe-rs -/

section
variable {B : Backend} {args : List Val}

/-- Values of the source stand at the numbers the state says. -/
structure TInv (B : Backend) (args : List Val) (st : TSt) (env cenv : List CVal) : Prop where
  run : runWith (evalTOp B) st.ops (args.map .ct) = some env
  argc : args.length = st.args
  len : st.vals.length = cenv.length
  vals : ∀ (i : Nat) (x : CVal), cenv[i]? = some x → ∃ j : Nat, st.vals[i]? = some j ∧ env[j]? = some x

theorem TInv.envLen {st : TSt} {env cenv : List CVal} (h : TInv B args st env cenv) :
    st.args + st.ops.length = env.length := by
  have := runWith_length h.run
  rw [List.length_map, h.argc] at this
  exact this.symm

theorem TInv.emit {st : TSt} {env cenv : List CVal} (h : TInv B args st env cenv) {o : TOp} {y : CVal}
    (ho : evalTOp B env o = some y) : TInv B args (st.emit o).2 (env ++ [y]) cenv :=
  ⟨runWith_append h.run ho, h.argc, h.len, fun i x hx => by
    obtain ⟨j, h1, h2⟩ := h.vals i x hx
    exact ⟨j, h1, grows_append _ _ _ _ h2⟩⟩

theorem TInv.put {st : TSt} {env cenv : List CVal} (h : TInv B args st env cenv) {o : TOp} {y : CVal}
    (ho : evalTOp B env o = some y) : TInv B args (st.put o) (env ++ [y]) (cenv ++ [y]) := by
  refine ⟨runWith_append h.run ho, h.argc, by simp [TSt.put, h.len], fun i x hx => ?_⟩
  by_cases hlt : i < cenv.length
  · rw [List.getElem?_append_left hlt] at hx
    obtain ⟨j, h1, h2⟩ := h.vals i x hx
    exact ⟨j, by simp only [TSt.put]; exact grows_append _ _ _ _ h1, grows_append _ _ _ _ h2⟩
  · have hi : i = cenv.length := by
      have := (List.getElem?_eq_some_iff.1 hx).1
      simp only [List.length_append, List.length_singleton] at this
      omega
    subst hi
    simp only [List.getElem?_concat_length, Option.some.injEq] at hx
    subst hx
    refine ⟨st.args + st.ops.length, ?_, ?_⟩
    · simp only [TSt.put, ← h.len]
      simp
    · rw [h.envLen]
      exact at_new

theorem ctAt_some {env : List CVal} {i : Nat} {v : Val} (h : ctAt env i = some v) :
    env[i]? = some (.ct v) := by
  unfold ctAt at h
  split at h
  · next u hu => rw [hu]; simp_all
  · simp at h

theorem plainAt_some {env : List CVal} {i : Nat} {v : Val} (h : plainAt env i = some v) :
    env[i]? = some (.plain v) := by
  unfold plainAt at h
  split at h
  · next u hu => rw [hu]; simp_all
  · simp at h

theorem TInv.ctAt {st : TSt} {env cenv : List CVal} (h : TInv B args st env cenv) {i : Nat} {v : Val}
    (hi : ctAt cenv i = some v) : ∃ j : Nat, st.vals[i]? = some j ∧ Tfhe.ctAt env j = some v := by
  obtain ⟨j, h1, h2⟩ := h.vals i _ (ctAt_some hi)
  exact ⟨j, h1, ctAt_of h2⟩

theorem TInv.plainAt {st : TSt} {env cenv : List CVal} (h : TInv B args st env cenv) {i : Nat} {v : Val}
    (hi : plainAt cenv i = some v) : ∃ j : Nat, st.vals[i]? = some j ∧ Tfhe.plainAt env j = some v := by
  obtain ⟨j, h1, h2⟩ := h.vals i _ (plainAt_some hi)
  exact ⟨j, h1, plainAt_of h2⟩

theorem TInv.rightAt {st : TSt} {env cenv : List CVal} (h : TInv B args st env cenv) {s : Bool} {i : Nat}
    {v : Val} (hi : rightAt cenv s i = some v) :
    ∃ j : Nat, st.vals[i]? = some j ∧ Tfhe.rightAt env s j = some v := by
  cases s with
  | true => exact h.plainAt hi
  | false => exact h.ctAt hi

theorem bind_some' {α β : Type} {a : Option α} {f : α → Option β} {y : β} (h : a.bind f = some y) :
    ∃ x, a = some x ∧ f x = some y := Option.bind_eq_some_iff.1 h

theorem not_bit {w : Nat} (hw : w ≤ 1) (b : BitVec w) : (1 : BitVec w) - b = ~~~b := by
  have : w = 0 ∨ w = 1 := by omega
  rcases this with rfl | rfl
  · exact Subsingleton.elim _ _
  · revert b; decide

theorem lowerBin_ok {st : TSt} {env cenv : List CVal} (h : TInv B args st env cenv) {k : CBin} {s : Bool}
    {l r : Nat} {x y z : Val} (hl : ctAt env l = some x) (hr : rightAt env s r = some y)
    (hz : zip (cbinSem B k) x y = some z) :
    ∃ env', TInv B args (lowerBin k s l r st) env' (cenv ++ [.ct z]) := by
  have direct : ∀ s, rightAt env s r = some y → evalTOp B env (.bin k s l r) = some (.ct z) := by
    intro s hr
    simp [evalTOp, hl, hr, hz]
  have both : ∃ env', TInv B args (if s then (st.emit (.encode r)).2.put
      (.bin k false l (st.emit (.encode r)).1) else st.put (.bin k false l r)) env'
      (cenv ++ [.ct z]) := by
    cases s with
    | false => exact ⟨_, h.put (direct false hr)⟩
    | true =>
      have h1 : evalTOp B env (.encode r) = some (.ct y) := by
        have : plainAt env r = some y := hr
        simp [evalTOp, this]
      refine ⟨_, (h.emit h1).put ?_⟩
      have h2 : ctAt (env ++ [.ct y]) (st.emit (.encode r)).1 = some y :=
        ctAt_of (by simp only [TSt.emit, h.envLen]; exact at_new)
      simp [evalTOp, ctAt_grows (grows_append _ _) hl, rightAt, h2, hz]
  cases k with
  | add => exact ⟨_, h.put (direct s hr)⟩
  | sub => exact ⟨_, h.put (direct s hr)⟩
  | mul => exact ⟨_, h.put (direct s hr)⟩
  | max => exact both
  | min => exact both
  | and => exact both
  | or => exact both
  | xor => exact both

theorem lowerOp_ok {st : TSt} {env cenv : List CVal} (h : TInv B args st env cenv) {o : COp} {y : CVal}
    (hn : LoweredOp o) (hy : evalCOp B cenv o = some y) :
    ∃ st' env', lowerOp o st = some st' ∧ TInv B args st' env' (cenv ++ [y]) := by
  cases o with
  | const c => exact ⟨_, _, rfl, h.put hy⟩
  | trivial c =>
    have hc : fits64 c = true := by simpa [fits64, LoweredOp] using hn
    exact ⟨_, _, by simp only [lowerOp, hc, if_true], h.put (o := .trivial c) hy⟩
  | arith k l r =>
    obtain ⟨a, ha, hy⟩ := bind_some' hy
    obtain ⟨b, hb, hy⟩ := bind_some' hy
    obtain ⟨i, h1, h2⟩ := h.plainAt ha
    obtain ⟨j, g1, g2⟩ := h.plainAt hb
    refine ⟨_, _, by simp only [lowerOp, h1, g1]; rfl, h.put (o := .arith k i j) ?_⟩
    simp only [evalTOp, h2, g2, Option.bind_some]; exact hy
  | extui w x =>
    obtain ⟨a, ha, hy⟩ := bind_some' hy
    obtain ⟨i, h1, h2⟩ := h.plainAt ha
    refine ⟨_, _, by simp only [lowerOp, h1]; rfl, h.put (o := .extui w i) ?_⟩
    simp only [evalTOp, h2, Option.bind_some]; exact hy
  | extsi w x =>
    obtain ⟨a, ha, hy⟩ := bind_some' hy
    obtain ⟨i, h1, h2⟩ := h.plainAt ha
    refine ⟨_, _, by simp only [lowerOp, h1]; rfl, h.put (o := .extsi w i) ?_⟩
    simp only [evalTOp, h2, Option.bind_some]; exact hy
  | encode x =>
    obtain ⟨a, ha, hy⟩ := Option.map_eq_some_iff.1 hy
    obtain ⟨i, h1, h2⟩ := h.plainAt ha
    refine ⟨_, _, by simp only [lowerOp, h1]; rfl, h.put (o := .encode i) ?_⟩
    simp only [evalTOp, h2, Option.map_some, hy]
  | bin k s l r =>
    obtain ⟨a, ha, hy⟩ := bind_some' hy
    obtain ⟨b, hb, hy⟩ := bind_some' hy
    obtain ⟨z, hz, rfl⟩ := Option.map_eq_some_iff.1 hy
    obtain ⟨i, h1, h2⟩ := h.ctAt ha
    obtain ⟨j, g1, g2⟩ := h.rightAt hb
    obtain ⟨env', h'⟩ := lowerBin_ok h h2 g2 hz
    exact ⟨_, env', by simp only [lowerOp, h1, g1]; rfl, h'⟩
  | not w x =>
    obtain ⟨a, ha, hy⟩ := bind_some' hy
    obtain ⟨i, h1, h2⟩ := h.ctAt ha
    split at hy
    swap
    · simp at hy
    next hw =>
    simp only [Option.some.injEq] at hy
    subst hy
    obtain ⟨wa, a⟩ := a
    simp only at hw
    subst hw
    refine ⟨_, _, by simp only [lowerOp, h1]; rfl,
      (h.emit (o := .trivial ⟨wa, 1⟩) (y := .ct ⟨wa, 1⟩) rfl).put ?_⟩
    have h3 : ctAt (env ++ [.ct ⟨wa, 1⟩]) (st.emit (.trivial ⟨wa, 1⟩)).1 = some ⟨wa, 1⟩ :=
      ctAt_of (by simp only [TSt.emit, h.envLen]; exact at_new)
    simp only
    rw [← not_bit hn a]
    simp only [evalTOp, h3, rightAt, ctAt_grows (grows_append _ _) h2, Option.bind_some,
      Bool.false_eq_true, if_false]
    simp [zip, cbinSem]
  | cmp p s l r =>
    obtain ⟨a, ha, hy⟩ := bind_some' hy
    obtain ⟨b, hb, hy⟩ := bind_some' hy
    obtain ⟨i, h1, h2⟩ := h.ctAt ha
    obtain ⟨j, g1, g2⟩ := h.rightAt hb
    refine ⟨_, _, by simp only [lowerOp, h1, g1]; rfl, h.put (o := .cmp p s i j) ?_⟩
    simp only [evalTOp, h2, g2, Option.bind_some]; exact hy
  | select c t f =>
    obtain ⟨a, ha, hy⟩ := bind_some' hy
    obtain ⟨b, hb, hy⟩ := bind_some' hy
    obtain ⟨d, hd, hy⟩ := bind_some' hy
    obtain ⟨i, h1, h2⟩ := h.ctAt ha
    obtain ⟨j, g1, g2⟩ := h.ctAt hb
    obtain ⟨k, f1, f2⟩ := h.ctAt hd
    refine ⟨_, _, by simp only [lowerOp, h1, g1, f1]; rfl, h.put (o := .select i j k) ?_⟩
    simp only [evalTOp, h2, g2, f2, Option.bind_some]; exact hy
  | shl x n =>
    obtain ⟨a, ha, hy⟩ := bind_some' hy
    obtain ⟨i, h1, h2⟩ := h.ctAt ha
    refine ⟨_, _, by simp only [lowerOp, h1]; rfl, h.put (o := .shl i n) ?_⟩
    simp only [evalTOp, h2, Option.bind_some]; exact hy
  | shr x n =>
    obtain ⟨a, ha, hy⟩ := bind_some' hy
    obtain ⟨i, h1, h2⟩ := h.ctAt ha
    refine ⟨_, _, by simp only [lowerOp, h1]; rfl, h.put (o := .shr i n) ?_⟩
    simp only [evalTOp, h2, Option.bind_some]; exact hy
  | cast w x =>
    obtain ⟨a, ha, hy⟩ := Option.map_eq_some_iff.1 hy
    obtain ⟨i, h1, h2⟩ := h.ctAt ha
    refine ⟨_, _, by simp only [lowerOp, h1]; rfl, h.put (o := .cast w i) ?_⟩
    simp only [evalTOp, h2, Option.map_some, hy]

theorem lowerOps_ok : ∀ {os : List COp} {st : TSt} {env cenv cenv' : List CVal},
    TInv B args st env cenv → (∀ o ∈ os, LoweredOp o) →
    runWith (evalCOp B) os cenv = some cenv' →
    ∃ st' env', lowerOps os st = some st' ∧ TInv B args st' env' cenv'
  | [], st, env, cenv, cenv', h, _, hz => by
    simp only [runWith, Option.some.injEq] at hz
    subst hz
    exact ⟨st, env, rfl, h⟩
  | o :: os, st, env, cenv, cenv', h, hn, hz => by
    simp only [runWith] at hz
    obtain ⟨y, hy, hz⟩ := bind_some' hz
    obtain ⟨st1, env1, e1, e2⟩ := lowerOp_ok h (hn o (by simp)) hy
    obtain ⟨st2, env2, f1, f2⟩ := lowerOps_ok (os := os) e2
      (fun o ho => hn o (List.mem_cons_of_mem _ ho)) hz
    exact ⟨st2, env2, by simp [lowerOps, e1, f1], f2⟩

theorem messages_ok {st : TSt} {env cenv : List CVal} (h : TInv B args st env cenv) :
    ∀ {rs : List Nat} {zs : List Val}, messages cenv rs = some zs →
    ∃ xs, lookupAll st.vals rs = some xs ∧ messages env xs = some zs
  | [], zs, hz => by
    simp only [messages, Option.some.injEq] at hz
    subst hz
    exact ⟨[], rfl, rfl⟩
  | r :: rs, zs, hz => by
    simp only [messages] at hz
    split at hz
    · next x xs hx hxs =>
      obtain ⟨j, h1, h2⟩ := h.ctAt hx
      obtain ⟨js, g1, g2⟩ := messages_ok h (rs := rs) hxs
      refine ⟨j :: js, by simp [lookupAll, h1, g1], ?_⟩
      simp only [messages, h2, g2, hz]
    · simp at hz

theorem toTfhe_ok {p : CProg} (hn : p.Lowered) {zs : List Val} (hz : p.call B args = some zs) :
    ∃ t, toTfhe p = some t ∧ t.call B args = some zs := by
  unfold CProg.call at hz
  split at hz
  swap
  · simp at hz
  next hlen =>
  obtain ⟨cenv, hr, hz⟩ := bind_some' hz
  have hI : TInv B args ⟨p.args, [], List.range p.args⟩ (args.map .ct) (args.map .ct) := by
    refine ⟨rfl, hlen, by simp [hlen], fun i x hx => ⟨i, ?_, hx⟩⟩
    have := (List.getElem?_eq_some_iff.1 hx).1
    rw [List.length_map, hlen] at this
    exact List.getElem?_range this
  obtain ⟨st, env, e1, e2⟩ := lowerOps_ok hI hn hr
  obtain ⟨xs, f1, f2⟩ := messages_ok e2 hz
  refine ⟨⟨p.args, st.ops, xs⟩, by simp [toTfhe, e1, f1], ?_⟩
  have hst : runWith (evalTOp B) st.ops (args.map .ct) = some env := e2.run
  simp [TProg.call, hlen, hst, f2]

end

/-! ## Rust -/

/-- What the variable holds for a value; `c` is the constant that defines it. -/
def RRep (c : Option Val) : CVal → RVal → Prop
  | .ct v, r => r = .fhe v ∧ v.w ∈ fheWidths
  | .plain v, r => c = some v ∧ v.w ∈ uintWidths ∧ (0 ≤ v.bits.toInt → r = .uint v)

structure RInv (cs : List (Option Val)) (env : List CVal) (renv : List RVal) : Prop where
  len : renv.length = env.length
  clen : cs.length = env.length
  vals : ∀ (i : Nat) (x : CVal), env[i]? = some x →
    ∃ c r, cs[i]? = some c ∧ renv[i]? = some r ∧ RRep c x r

theorem RInv.push {cs : List (Option Val)} {env : List CVal} {renv : List RVal} (h : RInv cs env renv)
    {c : Option Val} {x : CVal} {r : RVal} (hr : RRep c x r) :
    RInv (cs ++ [c]) (env ++ [x]) (renv ++ [r]) := by
  refine ⟨by simp [h.len], by simp [h.clen], fun i y hy => ?_⟩
  by_cases hlt : i < env.length
  · rw [List.getElem?_append_left hlt] at hy
    obtain ⟨c', r', h1, h2, h3⟩ := h.vals i y hy
    exact ⟨c', r', grows_append _ _ _ _ h1, grows_append _ _ _ _ h2, h3⟩
  · have hi : i = env.length := by
      have := (List.getElem?_eq_some_iff.1 hy).1
      simp only [List.length_append, List.length_singleton] at this
      omega
    subst hi
    simp only [List.getElem?_concat_length, Option.some.injEq] at hy
    subst hy
    refine ⟨c, r, ?_, ?_, hr⟩
    · rw [← h.clen]; simp
    · rw [← h.len]; simp

theorem RInv.ct {cs : List (Option Val)} {env : List CVal} {renv : List RVal} (h : RInv cs env renv)
    {i : Nat} {v : Val} (hi : ctAt env i = some v) :
    fheAt renv i = some v ∧ renv[i]? = some (.fhe v) ∧ v.w ∈ fheWidths := by
  obtain ⟨c, r, -, h2, rfl, h3⟩ := h.vals i _ (ctAt_some hi)
  exact ⟨by simp [fheAt, h2], h2, h3⟩

theorem uint_fhe {w : Nat} (h : w ∈ uintWidths) : w ∈ fheWidths := by
  simp only [uintWidths, fheWidths, List.mem_cons, List.not_mem_nil, or_false] at h ⊢
  omega

theorem rustInt_uint {w : Nat} (h : w ∈ uintWidths) : rustInt w = some w := by
  simp only [uintWidths, List.mem_cons, List.not_mem_nil, or_false] at h
  rcases h with rfl | rfl | rfl | rfl | rfl <;> rfl

theorem rustInt_fhe {w : Nat} (h : w ∈ fheWidths) (h' : w ≤ 128) :
    ∃ u, rustInt w = some u ∧ u ∈ uintWidths ∧ w ≤ u := by
  simp only [fheWidths, List.mem_cons, List.not_mem_nil, or_false] at h
  rcases h with rfl | rfl | rfl | rfl | rfl | rfl | rfl | rfl | rfl | rfl | rfl | rfl | rfl
  all_goals first
    | exact absurd h' (by decide)
    | exact ⟨_, rfl, by decide, by decide⟩

theorem lit_nonneg {w u : Nat} {b : BitVec w} (hu : u ∈ uintWidths) (hw : w ≤ u) (h : 0 ≤ b.toInt) :
    litSem b.toInt u = some ⟨u, b.setWidth u⟩ := by
  have h1 : b.toInt = b.toNat := by
    rw [BitVec.toInt_eq_toNat_cond] at h ⊢
    split
    · rfl
    · next h' =>
      rw [if_neg h'] at h
      have := b.isLt
      omega
  have h2 : b.toNat < 2 ^ u := Nat.lt_of_lt_of_le b.isLt (Nat.pow_le_pow_right (by omega) hw)
  unfold litSem
  rw [h1, if_pos ⟨hu, by omega, by exact_mod_cast h2⟩]
  congr 2
  apply BitVec.eq_of_toNat_eq
  rw [BitVec.toNat_setWidth, BitVec.ofInt_natCast, BitVec.toNat_ofNat]

theorem lit_nat {u : Nat} {b : BitVec u} (hu : u ∈ uintWidths) : litSem b.toNat u = some ⟨u, b⟩ := by
  unfold litSem
  rw [if_pos ⟨hu, by omega, by exact_mod_cast b.isLt⟩, BitVec.ofInt_natCast]
  simp

theorem abs_nonneg' {w : Nat} {b : BitVec w} (h : b ≠ BitVec.intMin w) :
    0 ≤ absSigned b := by
  unfold absSigned
  split
  · next hb =>
    rw [BitVec.toInt_neg_of_ne_intMin h]
    omega
  · omega

theorem printOp_ok {cs : List (Option Val)} {env : List CVal} {renv : List RVal}
    (h : RInv cs env renv) {o : TOp} {y : CVal} (hp : PrintedOp cs o)
    (hy : evalTOp unsigned env o = some y) :
    ∃ e r, printOp cs o = some e ∧ evalR renv e = some r ∧ RRep (defConst o) y r := by
  cases o with
  | const v =>
    simp only [evalTOp, Option.some.injEq] at hy
    subst hy
    obtain ⟨hw, hm⟩ := hp
    have hw1 : v.w ≠ 1 ∧ v.w ≠ 0 := by
      simp only [uintWidths, List.mem_cons, List.not_mem_nil, or_false] at hw
      omega
    have h0 := abs_nonneg' hm
    have hlit : litSem (absSigned v.bits) v.w =
        some ⟨v.w, if v.bits.toInt < 0 then -v.bits else v.bits⟩ := by
      unfold absSigned at h0 ⊢
      rw [lit_nonneg hw (Nat.le_refl _) h0, BitVec.setWidth_eq]
    refine ⟨.lit (absSigned v.bits) v.w, .uint ⟨v.w, if v.bits.toInt < 0 then -v.bits else v.bits⟩,
      ?_, ?_, rfl, hw, fun h => ?_⟩
    · simp [printOp, printConst, hw1.1, rustInt_uint hw]
    · simp only [evalR, hlit, Option.map_some]
    · rw [if_neg (by omega)]
  | trivial v =>
    simp only [evalTOp, Option.some.injEq] at hy
    subst hy
    obtain ⟨hw, h128, h0⟩ := hp
    obtain ⟨u, h1, h2, h3⟩ := rustInt_fhe hw h128
    refine ⟨.trivialLit v.w v.bits.toInt u, .fhe v, by simp [printOp, h1], ?_, rfl, hw⟩
    simp only [evalR, lit_nonneg h2 h3 h0, Option.bind_some, if_pos hw]
    congr 3
    rw [BitVec.setWidth_setWidth_of_le _ h3, BitVec.setWidth_eq]
  | encode x =>
    obtain ⟨v, hv, rfl⟩ := Option.map_eq_some_iff.1 hy
    obtain ⟨u, hu, h0⟩ := hp
    obtain ⟨c, r, h1, h2, h3, h4, h5⟩ := h.vals x _ (plainAt_some hv)
    rw [hu, Option.some.injEq] at h1
    rw [← h1, Option.some.injEq] at h3
    subst h3
    rw [h5 h0] at h2
    refine ⟨.trivialVar x, .fhe u, rfl, ?_, rfl, uint_fhe h4⟩
    simp [evalR, h2, uint_fhe h4]
  | bin k s l r =>
    obtain ⟨a, ha, hy⟩ := bind_some' hy
    obtain ⟨b, hb, hy⟩ := bind_some' hy
    obtain ⟨z, hz, rfl⟩ := Option.map_eq_some_iff.1 hy
    obtain ⟨h1, h2, h3⟩ := h.ct ha
    obtain ⟨hmax, hmin, hs⟩ := hp
    have hw : z.w ∈ fheWidths := by
      obtain ⟨w, _, _, _, rfl, rfl, rfl, -⟩ := zip_iff.1 hz
      exact h3
    have hpr : printOp cs (.bin k s l r) = printBin k s cs l r := by
      cases k <;> first | rfl | exact absurd rfl hmax | exact absurd rfl hmin
    rw [hpr]
    cases s with
    | false =>
      obtain ⟨-, g2, -⟩ := h.ct (i := r) hb
      exact ⟨.bin k l r, .fhe z, rfl, by simp [evalR, h1, g2, rbinSem, h3, hz], rfl, hw⟩
    | true =>
      obtain ⟨v, hv, hlt⟩ := hs rfl
      have hb' : plainAt env r = some b := hb
      obtain ⟨c, rv, g1, g2, g3, g4, -⟩ := h.vals r _ (plainAt_some hb')
      rw [hv, Option.some.injEq] at g1
      rw [← g1, Option.some.injEq] at g3
      subst g3
      refine ⟨.binLit k l v.bits.toNat v.w, .fhe z, by simp [printBin, hv, hlt], ?_, rfl, hw⟩
      simp [evalR, h1, lit_nat g4, rbinSem, h3, hz]
  | shr x n =>
    obtain ⟨a, ha, hy⟩ := bind_some' hy
    obtain ⟨z, hz, rfl⟩ := Option.map_eq_some_iff.1 hy
    obtain ⟨h1, h2, h3⟩ := h.ct ha
    have hz' := hz
    unfold shSem at hz'
    split at hz'
    swap
    · simp at hz'
    next hn =>
    have h256 : a.w ≤ 256 := by
      simp only [fheWidths, List.mem_cons, List.not_mem_nil, or_false] at h3
      omega
    have hlit : ∃ v, litSem n 8 = some v := by
      unfold litSem
      rw [if_pos ⟨by decide, hn.1, by omega⟩]
      exact ⟨_, rfl⟩
    obtain ⟨v, hlit⟩ := hlit
    refine ⟨.shr x n, .fhe z, rfl, ?_, rfl, ?_⟩
    · simp only [evalR, h1, hlit, Option.bind_some]
      have : shSem (fun _ a n => a >>> n) a n = some z := hz
      rw [this]; rfl
    · simp only [Option.some.injEq] at hz'
      rw [← hz']
      exact h3
  | cast w x =>
    obtain ⟨a, ha, rfl⟩ := Option.map_eq_some_iff.1 hy
    obtain ⟨h1, h2, h3⟩ := h.ct ha
    have hw : w ∈ fheWidths := hp
    exact ⟨.castFrom w x, _, rfl, by
      simp only [evalR, h1, Option.bind_some, if_pos hw]; rfl, rfl, hw⟩
  | arith => exact absurd hp (fun h => h)
  | extui => exact absurd hp (fun h => h)
  | extsi => exact absurd hp (fun h => h)
  | cmp => exact absurd hp (fun h => h)
  | select => exact absurd hp (fun h => h)
  | shl => exact absurd hp (fun h => h)

theorem constOf_eq (o : TOp) : constOf o = defConst o := by cases o <;> rfl

theorem printOps_ok : ∀ {os : List TOp} {cs : List (Option Val)} {env env' : List CVal}
    {renv : List RVal}, RInv cs env renv → PrintedOps cs os →
    runWith (evalTOp unsigned) os env = some env' →
    ∃ es cs' renv', printOps cs os = some es ∧ runWith evalR es renv = some renv' ∧
      RInv cs' env' renv'
  | [], cs, env, env', renv, h, _, hz => by
    simp only [runWith, Option.some.injEq] at hz
    subst hz
    exact ⟨[], cs, renv, rfl, rfl, h⟩
  | o :: os, cs, env, env', renv, h, hp, hz => by
    simp only [runWith] at hz
    obtain ⟨y, hy, hz⟩ := bind_some' hz
    obtain ⟨e, r, e1, e2, e3⟩ := printOp_ok h hp.1 hy
    have hp2 := hp.2
    rw [constOf_eq] at hp2
    obtain ⟨es, cs', renv', f1, f2, f3⟩ := printOps_ok (os := os) (h.push e3) hp2 hz
    exact ⟨e :: es, cs', renv', by simp [printOps, e1, f1], by simp [runWith, e2, f2], f3⟩

theorem fheAll_ok {cs : List (Option Val)} {env : List CVal} {renv : List RVal}
    (h : RInv cs env renv) : ∀ {rs : List Nat} {zs : List Val}, messages env rs = some zs →
    fheAll renv rs = some zs
  | [], zs, hz => hz
  | r :: rs, zs, hz => by
    simp only [messages] at hz
    split at hz
    · next x xs hx hxs =>
      simp only [fheAll, (h.ct hx).1, fheAll_ok h hxs, hz]
    · simp at hz

theorem printHL_ok {p : TProg} {args zs : List Val} (hp : p.Printed)
    (hw : ∀ x ∈ args, x.w ∈ fheWidths) (hz : p.call unsigned args = some zs) :
    ∃ r, printHL p = some r ∧ r.call args = some zs := by
  unfold TProg.call at hz
  split at hz
  swap
  · simp at hz
  next hlen =>
  obtain ⟨env, hr, hz⟩ := bind_some' hz
  have hI : RInv (List.replicate p.args none) (args.map .ct) (args.map .fhe) := by
    refine ⟨by simp, by simp [hlen], fun i x hx => ?_⟩
    rw [List.getElem?_map] at hx
    obtain ⟨v, hv, rfl⟩ := Option.map_eq_some_iff.1 hx
    have hi := (List.getElem?_eq_some_iff.1 hv).1
    refine ⟨none, .fhe v, ?_, by simp [hv], rfl, hw v (List.mem_of_getElem? hv)⟩
    rw [List.getElem?_replicate, if_pos (by rw [← hlen]; exact hi)]
  obtain ⟨es, cs', renv', e1, e2, e3⟩ := printOps_ok hI hp hr
  refine ⟨⟨p.args, es, p.rets⟩, by simp [printHL, e1], ?_⟩
  unfold RProg.call
  rw [if_pos ⟨hlen, hw⟩, e2]
  exact fheAll_ok e3 hz

end Heir.Tfhe
