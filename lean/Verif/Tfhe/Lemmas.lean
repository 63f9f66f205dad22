import Verif.Tfhe.Spec
import Mathlib.Tactic.NormNum

/-! # The conversion to CGGI simulates the program -/

namespace Heir.Tfhe

/-! ## Runs -/

theorem runWith_append {α β : Type} {eval : List β → α → Option β} : ∀ {os : List α} {o : α}
    {env env' : List β} {x : β}, runWith eval os env = some env' → eval env' o = some x →
    runWith eval (os ++ [o]) env = some (env' ++ [x])
  | [], o, env, env', x, h, hx => by
    simp only [runWith, Option.some.injEq] at h
    subst h
    simp [runWith, hx]
  | p :: os, o, env, env', x, h, hx => by
    simp only [List.cons_append, runWith] at h ⊢
    cases hp : eval env p with
    | none => rw [hp] at h; simp at h
    | some y =>
      rw [hp] at h
      exact runWith_append (os := os) h hx

theorem runWith_length {α β : Type} {eval : List β → α → Option β} : ∀ {os : List α}
    {env env' : List β}, runWith eval os env = some env' → env'.length = env.length + os.length
  | [], env, env', h => by simp only [runWith, Option.some.injEq] at h; simp [h]
  | p :: os, env, env', h => by
    simp only [runWith] at h
    cases hp : eval env p with
    | none => rw [hp] at h; simp at h
    | some y =>
      rw [hp] at h
      have := runWith_length (os := os) h
      simp only [List.length_append, List.length_cons, List.length_nil] at this ⊢
      omega

/-- Values keep their numbers. -/
def Grows {β : Type} (env env' : List β) : Prop := ∀ (i : Nat) (x : β), env[i]? = some x → env'[i]? = some x

theorem Grows.refl {β : Type} (env : List β) : Grows env env := fun _ _ h => h

theorem Grows.trans {β : Type} {a b c : List β} (h : Grows a b) (h' : Grows b c) : Grows a c :=
  fun i x hx => h' i x (h i x hx)

theorem grows_append {β : Type} (env more : List β) : Grows env (env ++ more) := by
  intro i x h
  rw [List.getElem?_append_left (List.getElem?_eq_some_iff.1 h).1, h]

theorem ctAt_grows {env env' : List CVal} (h : Grows env env') {i : Nat} {v : Val}
    (hi : ctAt env i = some v) : ctAt env' i = some v := by
  unfold ctAt at hi ⊢
  split at hi
  · next u hu => rw [h _ _ hu]; exact hi
  · simp at hi

theorem plainAt_grows {env env' : List CVal} (h : Grows env env') {i : Nat} {v : Val}
    (hi : plainAt env i = some v) : plainAt env' i = some v := by
  unfold plainAt at hi ⊢
  split at hi
  · next u hu => rw [h _ _ hu]; exact hi
  · simp at hi

theorem ctAt_of {env : List CVal} {i : Nat} {v : Val} (h : env[i]? = some (.ct v)) :
    ctAt env i = some v := by simp [ctAt, h]

theorem plainAt_of {env : List CVal} {i : Nat} {v : Val} (h : env[i]? = some (.plain v)) :
    plainAt env i = some v := by simp [plainAt, h]

/-! ## Integers -/

theorem zip_iff {f : (w : Nat) → BitVec w → BitVec w → Option (BitVec w)} {x y z : Val} :
    zip f x y = some z ↔ ∃ w a b c, x = ⟨w, a⟩ ∧ y = ⟨w, b⟩ ∧ z = ⟨w, c⟩ ∧ f w a b = some c := by
  constructor
  · intro h
    obtain ⟨wx, a⟩ := x
    obtain ⟨wy, b⟩ := y
    unfold zip at h
    simp only at h
    split at h
    · next he =>
      subst he
      cases hf : f wy a b with
      | none => simp [hf] at h
      | some c =>
        simp only [BitVec.cast_eq, hf, Option.map_some, Option.some.injEq] at h
        exact ⟨wy, a, b, c, rfl, rfl, h.symm, hf⟩
    · simp at h
  · rintro ⟨w, a, b, c, rfl, rfl, rfl, h⟩
    simp [zip, h]

theorem zip_mono {f g : (w : Nat) → BitVec w → BitVec w → Option (BitVec w)} {x y z : Val}
    (hfg : ∀ w a b c, f w a b = some c → g w a b = some c) (h : zip f x y = some z) :
    zip g x y = some z := by
  obtain ⟨w, a, b, c, rfl, rfl, rfl, hc⟩ := zip_iff.1 h
  exact zip_iff.2 ⟨w, a, b, c, rfl, rfl, rfl, hfg _ _ _ _ hc⟩

theorem zip_swap {f g : (w : Nat) → BitVec w → BitVec w → Option (BitVec w)} {x y z : Val}
    (hfg : ∀ w a b c, f w a b = some c → g w b a = some c) (h : zip f x y = some z) :
    zip g y x = some z := by
  obtain ⟨w, a, b, c, rfl, rfl, rfl, hc⟩ := zip_iff.1 h
  exact zip_iff.2 ⟨w, b, a, c, rfl, rfl, rfl, hfg _ _ _ _ hc⟩

theorem cmp_iff {p : Pred} {x y z : Val} : cmpSem p x y = some z ↔
    ∃ w a b, x = ⟨w, a⟩ ∧ y = ⟨w, b⟩ ∧ z = bit (predSem p w a b) := by
  constructor
  · intro h
    obtain ⟨wx, a⟩ := x
    obtain ⟨wy, b⟩ := y
    unfold cmpSem at h
    simp only at h
    split at h
    · next he =>
      subst he
      simp only [BitVec.cast_eq, Option.some.injEq] at h
      exact ⟨wy, a, b, rfl, rfl, h.symm⟩
    · simp at h
  · rintro ⟨w, a, b, rfl, rfl, rfl⟩
    simp [cmpSem]

theorem cmp_swap {p : Pred} (hp : p = .eq ∨ p = .ne) {x y z : Val} (h : cmpSem p x y = some z) :
    cmpSem p y x = some z := by
  obtain ⟨w, a, b, rfl, rfl, rfl⟩ := cmp_iff.1 h
  refine cmp_iff.2 ⟨w, b, a, rfl, rfl, ?_⟩
  rcases hp with rfl | rfl <;> simp [predSem, eq_comm]

/-! ## The state -/

variable {B : Backend} {args : List Val}

structure Run (B : Backend) (args : List Val) (st : CSt) (env : List CVal) : Prop where
  run : runWith (evalCOp B) st.ops (args.map .ct) = some env
  len : args.length = st.args

theorem Run.envLen {st : CSt} {env : List CVal} (h : Run B args st env) :
    st.args + st.ops.length = env.length := by
  have := runWith_length h.run
  rw [List.length_map, h.len] at this
  exact this.symm

theorem Run.emit {st : CSt} {env : List CVal} (h : Run B args st env) {o : COp} {y : CVal}
    (ho : evalCOp B env o = some y) : Run B args (st.emit o).2 (env ++ [y]) :=
  ⟨runWith_append h.run ho, h.len⟩

theorem at_new {env : List CVal} {y : CVal} : (env ++ [y])[env.length]? = some y := by simp

/-- The value `x` of the source is what the entry says. -/
def Rep (env : List CVal) : Entry → Val → Prop
  | .ct i, x => env[i]? = some (.ct x)
  | .plain i c, x => env[i]? = some (.plain x) ∧ ∀ v, c = some v → v = x

theorem Rep.grows {env env' : List CVal} (h : Grows env env') {e : Entry} {x : Val}
    (hr : Rep env e x) : Rep env' e x := by
  cases e with
  | ct i => exact h _ _ hr
  | plain i c => exact ⟨h _ _ hr.1, hr.2⟩

def KindRep : Kind → Entry → Prop
  | .secret, .ct _ => True
  | .plain, .plain _ none => True
  | .const v, .plain _ (some u) => u = v
  | _, _ => False

theorem enc_ok {st : CSt} {env : List CVal} (hr : Run B args st env) {e : Entry} {x : Val}
    (he : Rep env e x) : ∃ env', Run B args (enc e st).2 env' ∧ Grows env env' ∧
      ctAt env' (enc e st).1 = some x ∧ (enc e st).2.vals = st.vals := by
  have hnew : ∀ o, evalCOp B env o = some (.ct x) → ∃ env', Run B args (st.emit o).2 env' ∧
      Grows env env' ∧ ctAt env' (st.emit o).1 = some x ∧ (st.emit o).2.vals = st.vals := by
    intro o ho
    refine ⟨_, hr.emit ho, grows_append _ _, ?_, rfl⟩
    refine ctAt_of ?_
    simp only [CSt.emit, hr.envLen]
    exact at_new
  cases e with
  | ct i => exact ⟨env, hr, .refl _, ctAt_of he, rfl⟩
  | plain i c =>
    cases c with
    | none => exact hnew (.encode i) (by simp [evalCOp, plainAt_of he.1])
    | some v => exact hnew (.trivial v) (by simp [evalCOp, he.2 v rfl])

/-- The step of one operation of the source, with the result `y` of kind `k`. -/
def Step (B : Backend) (args : List Val) (st : CSt) (env : List CVal) (st' : CSt) (k : Kind)
    (y : Val) : Prop :=
  ∃ env' e, Run B args st' env' ∧ Grows env env' ∧ st'.vals = st.vals ++ [e] ∧ Rep env' e y ∧
    KindRep k e

theorem ct_ok {st st0 : CSt} {env env0 : List CVal} (hr : Run B args st env) (hg : Grows env0 env)
    (hv : st.vals = st0.vals) {o : COp} {y : Val} (ho : evalCOp B env o = some (.ct y)) :
    Step B args st0 env0 (st.ct o) .secret y := by
  refine ⟨env ++ [.ct y], .ct (st.emit o).1, ?_, hg.trans (grows_append _ _), ?_, ?_, trivial⟩
  · exact ⟨(hr.emit ho).run, (hr.emit ho).len⟩
  · simp [CSt.ct, CSt.push, CSt.emit, hv]
  · simp only [Rep, CSt.emit, hr.envLen]
    exact at_new

theorem plain_ok {st : CSt} {env : List CVal} (hr : Run B args st env) {o : COp} {y : Val}
    (ho : evalCOp B env o = some (.plain y)) {c : Option Val} (hc : ∀ v, c = some v → v = y)
    {k : Kind} (hk : KindRep k (.plain (st.emit o).1 c)) :
    Step B args st env (st.plain o c) k y := by
  refine ⟨env ++ [.plain y], .plain (st.emit o).1 c, ?_, grows_append _ _, ?_, ⟨?_, hc⟩, hk⟩
  · exact ⟨(hr.emit ho).run, (hr.emit ho).len⟩
  · simp [CSt.plain, CSt.push, CSt.emit]
  · simp only [CSt.emit, hr.envLen]
    exact at_new

section
variable {st : CSt} {env : List CVal} (hr : Run B args st env)
include hr

theorem convComm_ok {k : CBin} {f : (w : Nat) → BitVec w → BitVec w → Option (BitVec w)}
    (h1 : ∀ w a b c, f w a b = some c → cbinSem B k w a b = some c)
    (h2 : ∀ w a b c, f w a b = some c → cbinSem B k w b a = some c) {l r : Entry} {x y z : Val}
    (hl : Rep env l x) (hy : Rep env r y) (hz : zip f x y = some z) :
    Step B args st env (convComm k l r st) .secret z := by
  cases l with
  | plain a c =>
    obtain ⟨env', e1, e2, e3, e4⟩ := enc_ok hr hy
    refine ct_ok e1 e2 e4 ?_
    have := plainAt_of (e2 _ _ hl.1)
    simp [evalCOp, e3, rightAt, this, zip_swap h2 hz]
  | ct a =>
    cases r with
    | plain b c =>
      refine ct_ok hr (.refl _) rfl ?_
      simp [evalCOp, ctAt_of hl, rightAt, plainAt_of hy.1, zip_mono h1 hz]
    | ct b =>
      refine ct_ok hr (.refl _) rfl ?_
      simp [evalCOp, ctAt_of hl, rightAt, ctAt_of hy, zip_mono h1 hz]

theorem convBoth_ok {o : Nat → Nat → COp} {l r : Entry} {x y z : Val}
    (hl : Rep env l x) (hy : Rep env r y)
    (hz : ∀ env' i j, Grows env env' → ctAt env' i = some x → ctAt env' j = some y →
      evalCOp B env' (o i j) = some (.ct z)) :
    Step B args st env (convBoth l r o st) .secret z := by
  obtain ⟨env1, e1, e2, e3, e4⟩ := enc_ok hr hl
  obtain ⟨env2, f1, f2, f3, f4⟩ := enc_ok e1 (hy.grows e2)
  exact ct_ok f1 (e2.trans f2) (f4.trans e4) (hz env2 _ _ (e2.trans f2) (ctAt_grows f2 e3) f3)

theorem convSub_ok {l r : Entry} {x y z : Val} (hl : Rep env l x) (hy : Rep env r y)
    (hz : zip (binSem .sub) x y = some z) : Step B args st env (convSub l r st) .secret z := by
  have hz' : zip (cbinSem B .sub) x y = some z := zip_mono (fun w a b c h => h) hz
  cases r with
  | plain b c =>
    obtain ⟨env', e1, e2, e3, e4⟩ := enc_ok hr hl
    refine ct_ok e1 e2 e4 ?_
    simp [evalCOp, e3, rightAt, plainAt_of (e2 _ _ hy.1), hz']
  | ct b =>
    refine convBoth_ok hr hl hy fun env' i j _ hi hj => ?_
    simp [evalCOp, hi, rightAt, hj, hz']

theorem convCmp_ok {p : Pred} {l r : Entry} {x y z : Val} (hl : Rep env l x) (hy : Rep env r y)
    (hp : p = .eq ∨ p = .ne ∨ ∃ i, l = .ct i) (hz : cmpSem p x y = some z) :
    Step B args st env (convCmp p l r st) .secret z := by
  cases l with
  | plain a c =>
    obtain ⟨env', e1, e2, e3, e4⟩ := enc_ok hr hy
    refine ct_ok e1 e2 e4 ?_
    have hp' : p = .eq ∨ p = .ne := by
      rcases hp with h | h | ⟨i, h⟩
      · exact .inl h
      · exact .inr h
      · simp at h
    simp [evalCOp, e3, rightAt, plainAt_of (e2 _ _ hl.1), cmp_swap hp' hz]
  | ct a =>
    cases r with
    | plain b c =>
      refine ct_ok hr (.refl _) rfl ?_
      simp [evalCOp, ctAt_of hl, rightAt, plainAt_of hy.1, hz]
    | ct b =>
      refine ct_ok hr (.refl _) rfl ?_
      simp [evalCOp, ctAt_of hl, rightAt, ctAt_of hy, hz]

end

theorem int8_small {n : Int} (h : 0 ≤ n) (h' : n < 128) : int8 n = n := by
  unfold int8
  rw [BitVec.toInt_ofInt]
  simp only [Int.bmod]
  norm_num
  rw [if_pos (by omega)]
  omega

theorem lt_pow_pred : ∀ {n w : Nat}, n < w → 2 * n < 2 ^ w
  | n, 0, h => by omega
  | 0, w + 1, _ => by
    have := Nat.two_pow_pos (w + 1)
    omega
  | n + 1, w + 1, h => by
    have h1 := lt_pow_pred (n := n) (w := w) (by omega)
    have h2 : 1 < w + 1 := by omega
    have h3 : 2 ≤ 2 ^ w := by
      calc 2 = 2 ^ 1 := rfl
        _ ≤ 2 ^ w := Nat.pow_le_pow_right (by omega) (by omega)
    rw [Nat.pow_succ]
    omega

/-- The amount of a shift within the width is not negative. -/
theorem amount_ok {w : Nat} {b : BitVec w} (h : b.toNat < w) (h' : b.toNat < 128) :
    int8 b.toInt = b.toNat ∧ fits64 ⟨w, b⟩ = true := by
  have : b.toInt = b.toNat := by
    rw [BitVec.toInt_eq_toNat_cond, if_pos (lt_pow_pred h)]
  refine ⟨?_, ?_⟩
  · rw [this]
    exact int8_small (by omega) (by omega)
  · simp only [fits64, this, Bool.and_eq_true, decide_eq_true_eq]
    omega

theorem convSh_ok {st : CSt} {env : List CVal} (hr : Run B args st env) {k : Bin}
    {o : Nat → Int → COp} {f : (w : Nat) → BitVec w → Nat → BitVec w}
    (hk : ∀ w (a b : BitVec w), binSem k w a b = if b.toNat < w then some (f w a b.toNat) else none)
    (ho : ∀ env i x n, ctAt env i = some x → evalCOp B env (o i n) = (shSem f x n).map .ct)
    {l r : Entry} {x y z : Val} (hl : Rep env l x) (hy : Rep env r y)
    (hc : ∃ b, r = .plain b (some y)) (hs : y.bits.toNat < 128)
    (hz : zip (binSem k) x y = some z) :
    ∃ st', convSh o l r st = some st' ∧ Step B args st env st' .secret z := by
  obtain ⟨b, rfl⟩ := hc
  obtain ⟨w, a, b', c, rfl, rfl, rfl, h⟩ := zip_iff.1 hz
  rw [hk] at h
  split at h
  · next hlt =>
    simp only [Option.some.injEq] at h
    obtain ⟨env', e1, e2, e3, e4⟩ := enc_ok hr hl
    refine ⟨(enc l st).2.ct (o (enc l st).1 (int8 b'.toInt)),
      by simp only [convSh, (amount_ok hlt hs).2, if_true], ct_ok e1 e2 e4 ?_⟩
    rw [ho _ _ _ _ e3]
    simp only at hs ⊢
    rw [(amount_ok hlt hs).1]
    simp only [shSem]
    rw [if_pos ⟨by omega, by omega⟩]
    simp [h]
  · simp at h

/-! ## Programs -/

/-- The state agrees with the values and kinds of the source. -/
structure Inv (B : Backend) (args : List Val) (st : CSt) (cenv : List CVal) (env : List Val)
    (ks : List Kind) : Prop where
  run : Run B args st cenv
  len : st.vals.length = env.length
  klen : ks.length = env.length
  vals : ∀ (i : Nat) (e : Entry) (x : Val), st.vals[i]? = some e → env[i]? = some x → Rep cenv e x
  kinds : ∀ (i : Nat) (e : Entry) (k : Kind), st.vals[i]? = some e → ks[i]? = some k → KindRep k e

theorem Inv.get {st : CSt} {cenv : List CVal} {env : List Val} {ks : List Kind}
    (h : Inv B args st cenv env ks) {i : Nat} {x : Val} (hx : env[i]? = some x) :
    ∃ e k, st.vals[i]? = some e ∧ Rep cenv e x ∧ ks[i]? = some k ∧ KindRep k e := by
  have hi := (List.getElem?_eq_some_iff.1 hx).1
  have he : st.vals[i]? = some (st.vals[i]'(by rw [h.len]; exact hi)) :=
    List.getElem?_eq_getElem _
  have hk : ks[i]? = some (ks[i]'(by rw [h.klen]; exact hi)) := List.getElem?_eq_getElem _
  exact ⟨_, _, he, h.vals i _ x he hx, hk, h.kinds i _ _ he hk⟩

theorem Inv.step {st st' : CSt} {cenv : List CVal} {env : List Val} {ks : List Kind}
    (h : Inv B args st cenv env ks) {k : Kind} {y : Val} (hs : Step B args st cenv st' k y) :
    ∃ cenv', Inv B args st' cenv' (env ++ [y]) (ks ++ [k]) ∧ Grows cenv cenv' := by
  obtain ⟨cenv', e, h1, h2, h3, h4, h5⟩ := hs
  refine ⟨cenv', ⟨h1, ?_, ?_, ?_, ?_⟩, h2⟩
  · rw [h3]; simp [h.len]
  · simp [h.klen]
  · intro i e' x hi hx
    rw [h3] at hi
    by_cases hlt : i < env.length
    · rw [List.getElem?_append_left (by rw [h.len]; exact hlt)] at hi
      rw [List.getElem?_append_left hlt] at hx
      exact (h.vals i e' x hi hx).grows h2
    · have hi' : i = env.length := by
        have := (List.getElem?_eq_some_iff.1 hx).1
        simp only [List.length_append, List.length_singleton] at this
        omega
      subst hi'
      rw [← h.len] at hi
      simp only [List.getElem?_concat_length, Option.some.injEq] at hi hx
      subst hi; subst hx
      exact h4
  · intro i e' k' hi hk
    rw [h3] at hi
    by_cases hlt : i < env.length
    · rw [List.getElem?_append_left (by rw [h.len]; exact hlt)] at hi
      rw [List.getElem?_append_left (by rw [h.klen]; exact hlt)] at hk
      exact h.kinds i e' k' hi hk
    · have hi' : i = env.length := by
        have := (List.getElem?_eq_some_iff.1 hk).1
        simp only [List.length_append, List.length_singleton, h.klen] at this
        omega
      subst hi'
      rw [← h.len] at hi
      rw [← h.klen] at hk
      simp only [List.getElem?_concat_length, Option.some.injEq] at hi hk
      subst hi; subst hk
      exact h5

theorem plain_entry {k : Kind} {e : Entry} (h : KindRep k e) :
    k.isPlain = true ↔ ∃ i c, e = .plain i c := by
  cases k <;> cases e <;> simp_all [KindRep, Kind.isPlain]

theorem any_some {ks : List Kind} {i : Nat} {k : Kind} (h : ks[i]? = some k) :
    (ks[i]?.any Kind.isPlain) = k.isPlain := by rw [h]; rfl

theorem secret_entry {e : Entry} (h : KindRep .secret e) : ∃ i, e = .ct i := by
  cases e <;> simp_all [KindRep]

theorem bothPlain_none {l r : Entry} (h : bothPlain l r = none) :
    ¬ ((∃ i c, l = .plain i c) ∧ ∃ i c, r = .plain i c) := by
  rintro ⟨⟨i, c, rfl⟩, ⟨j, d, rfl⟩⟩
  simp [bothPlain] at h

theorem binSem_comm {k : Bin} (hk : k = .add ∨ k = .mul) {w : Nat} {a b c : BitVec w}
    (h : binSem k w a b = some c) : binSem k w b a = some c := by
  rcases hk with rfl | rfl
  · simpa [binSem, BitVec.add_comm] using h
  · simpa [binSem, BitVec.mul_comm] using h

theorem maxu_swap {w : Nat} (a b : BitVec w) :
    (if a.toNat < b.toNat then b else a) = if b.toNat < a.toNat then a else b := by
  by_cases h : a.toNat < b.toNat
  · rw [if_pos h, if_neg (by omega)]
  · by_cases h' : b.toNat < a.toNat
    · rw [if_neg h, if_pos h']
    · rw [if_neg h, if_neg h']
      exact BitVec.eq_of_toNat_eq (by omega)

theorem minu_swap {w : Nat} (a b : BitVec w) :
    (if a.toNat < b.toNat then a else b) = if b.toNat < a.toNat then b else a := by
  by_cases h : a.toNat < b.toNat
  · rw [if_pos h, if_neg (by omega)]
  · by_cases h' : b.toNat < a.toNat
    · rw [if_neg h, if_pos h']
    · rw [if_neg h, if_neg h']
      exact BitVec.eq_of_toNat_eq (by omega)

theorem convBin_ok {st : CSt} {cenv : List CVal} {env : List Val} {ks : List Kind}
    (h : Inv unsigned args st cenv env ks) {k : Bin} {l r : Nat} {z : Val}
    (hs : ServedOp ks (.bin k l r)) (hz : evalOp env (.bin k l r) = some z) :
    ∃ st', convOp (.bin k l r) st = some st' ∧
      Step unsigned args st cenv st' (kindOf ks (.bin k l r)) z := by
  simp only [evalOp] at hz
  obtain ⟨x, hx⟩ : ∃ x, env[l]? = some x := by
    cases hx : env[l]? with
    | none => simp [hx] at hz
    | some x => exact ⟨x, rfl⟩
  obtain ⟨y, hy⟩ : ∃ y, env[r]? = some y := by
    cases hy : env[r]? with
    | none => simp [hx, hy] at hz
    | some y => exact ⟨y, rfl⟩
  rw [hx, hy] at hz
  simp only [Option.bind_some] at hz
  obtain ⟨el, kl, h1, h2, h3, h4⟩ := h.get hx
  obtain ⟨er, kr, g1, g2, g3, g4⟩ := h.get hy
  have hconv : convOp (.bin k l r) st = convBin k el er st := by simp [convOp, h1, g1]
  rw [hconv]
  have arith : ∀ k, (k = .add ∨ k = .sub ∨ k = .mul) → zip (binSem k) x y = some z →
      convBin k el er st = (match bothPlain el er with
        | some (a, b) => some (st.plain (.arith k a b) none)
        | none => some (match k with
          | .add => convComm .add el er st
          | .mul => convComm .mul el er st
          | _ => convSub el er st)) → ∃ st', convBin k el er st = some st' ∧
      Step unsigned args st cenv st' (kindOf ks (.bin k l r)) z := by
    intro k hk hz he
    rw [he]
    cases hb : bothPlain el er with
    | some p =>
      obtain ⟨a, b⟩ := p
      obtain ⟨ca, rfl⟩ : ∃ ca, el = .plain a ca := by
        cases el <;> cases er <;> simp_all [bothPlain]
      obtain ⟨cb, rfl⟩ : ∃ cb, er = .plain b cb := by
        cases er <;> simp_all [bothPlain]
      refine ⟨_, rfl, plain_ok h.run ?_ (by simp) ?_⟩
      · simp [evalCOp, plainAt_of h2.1, plainAt_of g2.1, hz]
      · have e1 := (plain_entry h4).2 ⟨_, _, rfl⟩
        have e2 := (plain_entry g4).2 ⟨_, _, rfl⟩
        simp only [kindOf]
        rw [if_pos ⟨hk, by rw [any_some h3]; exact e1, by rw [any_some g3]; exact e2⟩]
        trivial
    | none =>
      have hkind : kindOf ks (.bin k l r) = .secret := by
        simp only [kindOf]
        rw [if_neg]
        rintro ⟨-, e1, e2⟩
        rw [any_some h3] at e1
        rw [any_some g3] at e2
        exact bothPlain_none hb ⟨(plain_entry h4).1 e1, (plain_entry g4).1 e2⟩
      rw [hkind]
      refine ⟨_, rfl, ?_⟩
      rcases hk with rfl | rfl | rfl
      · exact convComm_ok h.run (k := .add) (f := binSem .add) (fun w a b c h => h)
          (fun w a b c h => binSem_comm (.inl rfl) h) h2 g2 hz
      · exact convSub_ok h.run h2 g2 hz
      · exact convComm_ok h.run (k := .mul) (f := binSem .mul) (fun w a b c h => h)
          (fun w a b c h => binSem_comm (.inr rfl) h) h2 g2 hz
  have hsh : (∃ v, ks[r]? = some (.const v) ∧ v.bits.toNat < 128) →
      (∃ b, er = .plain b (some y)) ∧ y.bits.toNat < 128 := by
    rintro ⟨v, hv, hlt⟩
    rw [g3, Option.some.injEq] at hv
    subst hv
    cases er with
    | ct i => exact absurd g4 (fun h => h)
    | plain i c =>
      cases c with
      | none => exact absurd g4 (fun h => h)
      | some u =>
        have huv : u = v := g4
        have huy := g2.2 u rfl
        subst huv; subst huy
        exact ⟨⟨i, rfl⟩, hlt⟩
  cases k with
  | add => exact arith _ (.inl rfl) hz rfl
  | sub => exact arith _ (.inr (.inl rfl)) hz rfl
  | mul => exact arith _ (.inr (.inr rfl)) hz rfl
  | and => exact absurd hs (fun h => h)
  | or => exact absurd hs (fun h => h)
  | maxs => exact absurd hs (fun h => h)
  | mins => exact absurd hs (fun h => h)
  | shrs => exact absurd hs (fun h => h)
  | xor =>
    refine ⟨_, rfl, convBoth_ok h.run h2 g2 fun env' i j _ hi hj => ?_⟩
    have : zip (cbinSem unsigned .xor) x y = some z := zip_mono (fun w a b c h => h) hz
    simp [evalCOp, hi, hj, rightAt, this]
  | maxu =>
    refine ⟨_, rfl, convComm_ok h.run (k := .max) (f := binSem .maxu) (fun w a b c h => h) (fun w a b c h => ?_)
      h2 g2 hz⟩
    simp only [cbinSem, unsigned, binSem] at h ⊢
    rw [← h, maxu_swap]
  | minu =>
    refine ⟨_, rfl, convComm_ok h.run (k := .min) (f := binSem .minu) (fun w a b c h => h) (fun w a b c h => ?_)
      h2 g2 hz⟩
    simp only [cbinSem, unsigned, binSem] at h ⊢
    rw [← h, minu_swap]
  | shl =>
    obtain ⟨hc, hlt⟩ := hsh hs
    exact convSh_ok h.run (k := .shl) (f := fun _ a n => a <<< n) (fun w a b => rfl)
      (fun env i x n hi => by simp [evalCOp, hi]) h2 g2 hc hlt hz
  | shru =>
    obtain ⟨hc, hlt⟩ := hsh hs
    exact convSh_ok h.run (k := .shru) (f := fun _ a n => a >>> n) (fun w a b => rfl)
      (fun env i x n hi => by simp [evalCOp, hi, unsigned]) h2 g2 hc hlt hz

theorem get_of_bind {env : List Val} {i : Nat} {z : Val} {f : Val → Option Val}
    (h : (env[i]?).bind f = some z) : ∃ x, env[i]? = some x ∧ f x = some z := by
  cases hx : env[i]? with
  | none => simp [hx] at h
  | some x => exact ⟨x, rfl, by simpa [hx] using h⟩

theorem convOp_ok {st : CSt} {cenv : List CVal} {env : List Val} {ks : List Kind}
    (h : Inv unsigned args st cenv env ks) {o : Op} {z : Val} (hs : ServedOp ks o)
    (hz : evalOp env o = some z) :
    ∃ st', convOp o st = some st' ∧ Step unsigned args st cenv st' (kindOf ks o) z := by
  cases o with
  | const v =>
    simp only [evalOp, Option.some.injEq] at hz
    subst hz
    exact ⟨_, rfl, plain_ok h.run rfl (by simp) rfl⟩
  | bin k l r => exact convBin_ok h hs hz
  | cmp p l r =>
    obtain ⟨x, hx, hz⟩ := get_of_bind hz
    obtain ⟨y, hy, hz⟩ := get_of_bind hz
    obtain ⟨el, kl, h1, h2, h3, h4⟩ := h.get hx
    obtain ⟨er, kr, g1, g2, g3, g4⟩ := h.get hy
    refine ⟨convCmp p el er st, by simp [convOp, h1, g1], convCmp_ok h.run h2 g2 ?_ hz⟩
    rcases hs with hs | hs | hs
    · exact .inl hs
    · exact .inr (.inl hs)
    · rw [h3, Option.some.injEq] at hs
      subst hs
      exact .inr (.inr (secret_entry h4))
  | select c t f =>
    obtain ⟨x, hx, hz⟩ := get_of_bind hz
    obtain ⟨y, hy, hz⟩ := get_of_bind hz
    obtain ⟨u, hu, hz⟩ := get_of_bind hz
    obtain ⟨ec, kc, h1, h2, h3, h4⟩ := h.get hx
    obtain ⟨et, kt, g1, g2, g3, g4⟩ := h.get hy
    obtain ⟨ef, kf, f1, f2, f3, f4⟩ := h.get hu
    obtain ⟨env1, e1, e2, e3, e4⟩ := enc_ok h.run h2
    refine ⟨convBoth et ef (.select (enc ec st).1) (enc ec st).2, by simp [convOp, h1, g1, f1], ?_⟩
    obtain ⟨env2, e, s1, s2, s3, s4, s5⟩ := convBoth_ok (o := .select (enc ec st).1) (z := z) e1
      (g2.grows e2) (f2.grows e2) (fun env' i j hg hi hj => by
        simp [evalCOp, ctAt_grows hg e3, hi, hj, hz])
    exact ⟨env2, e, s1, e2.trans s2, by rw [s3, e4], s4, s5⟩
  | extui w a =>
    obtain ⟨x, hx, hz⟩ := get_of_bind hz
    obtain ⟨e, k, h1, h2, h3, h4⟩ := h.get hx
    split at hz
    swap
    · simp at hz
    next hlt =>
    simp only [Option.some.injEq] at hz
    cases e with
    | plain i c =>
      refine ⟨st.plain (.extui w i) none, by simp [convOp, h1], plain_ok h.run ?_ (by simp) ?_⟩
      · simp [evalCOp, plainAt_of h2.1, hlt, hz]
      · have := (plain_entry h4).2 ⟨_, _, rfl⟩
        simp only [kindOf, any_some h3, this, if_true]
        trivial
    | ct i =>
      have hk : kindOf ks (.extui w a) = .secret := by
        simp only [kindOf, any_some h3]
        rw [if_neg]
        intro hp
        obtain ⟨i', c', h'⟩ := (plain_entry h4).1 hp
        simp at h'
      rw [hk]
      refine ⟨st.ct (.cast w i), by simp [convOp, h1], ct_ok h.run (.refl _) rfl ?_⟩
      simp [evalCOp, ctAt_of h2, unsigned, ← hz]
  | extsi w a =>
    obtain ⟨x, hx, hz⟩ := get_of_bind hz
    obtain ⟨e, k, h1, h2, h3, h4⟩ := h.get hx
    split at hz
    swap
    · simp at hz
    next hlt =>
    simp only [Option.some.injEq] at hz
    have hp : k.isPlain = true := by rw [← any_some h3]; exact hs
    obtain ⟨i, c, rfl⟩ := (plain_entry h4).1 hp
    refine ⟨st.plain (.extsi w i) none, by simp [convOp, h1], plain_ok h.run ?_ (by simp) ?_⟩
    · simp [evalCOp, plainAt_of h2.1, hlt, hz]
    · simp only [kindOf, any_some h3, hp, if_true]
      trivial
  | trunci w a =>
    obtain ⟨x, hx, hz⟩ := get_of_bind hz
    obtain ⟨e, k, h1, h2, h3, h4⟩ := h.get hx
    split at hz
    swap
    · simp at hz
    next hlt =>
    simp only [Option.some.injEq] at hz
    have hk : k = .secret := by
      have hs' : ks[a]? = some .secret := hs
      rw [h3, Option.some.injEq] at hs'
      exact hs'
    subst hk
    obtain ⟨i, rfl⟩ := secret_entry h4
    refine ⟨st.ct (.cast w i), by simp [convOp, h1], ct_ok h.run (.refl _) rfl ?_⟩
    simp [evalCOp, ctAt_of h2, unsigned, ← hz]

theorem convOps_ok : ∀ {os : List Op} {st : CSt} {cenv : List CVal} {env env' : List Val}
    {ks : List Kind}, Inv unsigned args st cenv env ks → ServedOps ks os →
    runWith evalOp os env = some env' →
    ∃ st' cenv' ks', convOps os st = some st' ∧ Inv unsigned args st' cenv' env' ks'
  | [], st, cenv, env, env', ks, h, _, hz => by
    simp only [runWith, Option.some.injEq] at hz
    subst hz
    exact ⟨st, cenv, ks, rfl, h⟩
  | o :: os, st, cenv, env, env', ks, h, hs, hz => by
    simp only [runWith] at hz
    cases ho : evalOp env o with
    | none => rw [ho] at hz; simp at hz
    | some z =>
      rw [ho] at hz
      simp only [Option.bind_some] at hz
      obtain ⟨st1, e1, e2⟩ := convOp_ok h hs.1 ho
      obtain ⟨cenv1, f1, -⟩ := h.step e2
      obtain ⟨st2, cenv2, ks2, g1, g2⟩ := convOps_ok f1 hs.2 hz
      exact ⟨st2, cenv2, ks2, by simp [convOps, e1, g1], g2⟩

theorem convRets_ok : ∀ {rs : List Nat} {st : CSt} {cenv : List CVal} {env zs : List Val}
    {ks : List Kind}, Inv B args st cenv env ks → select env rs = some zs →
    ∃ xs st' cenv', convRets rs st = some (xs, st') ∧ Run B args st' cenv' ∧ Grows cenv cenv' ∧
      messages cenv' xs = some zs
  | [], st, cenv, env, zs, ks, h, hz => by
    simp only [select, Option.some.injEq] at hz
    subst hz
    exact ⟨[], st, cenv, rfl, h.run, .refl _, rfl⟩
  | r :: rs, st, cenv, env, zs, ks, h, hz => by
    simp only [select] at hz
    split at hz
    · next x xs hx hxs =>
      simp only [Option.some.injEq] at hz
      subst hz
      obtain ⟨e, k, h1, h2, h3, h4⟩ := h.get hx
      obtain ⟨cenv1, e1, e2, e3, e4⟩ := enc_ok h.run h2
      have hI : Inv B args (enc e st).2 cenv1 env ks :=
        ⟨e1, by rw [e4]; exact h.len, h.klen,
          fun i e' x' hi hx' => (h.vals i e' x' (by rw [← e4]; exact hi) hx').grows e2,
          fun i e' k' hi hk => h.kinds i e' k' (by rw [← e4]; exact hi) hk⟩
      obtain ⟨ys, st2, cenv2, g1, g2, g3, g4⟩ := convRets_ok hI hxs
      refine ⟨(enc e st).1 :: ys, st2, cenv2, by simp [convRets, h1, g1], g2, e2.trans g3, ?_⟩
      simp [messages, ctAt_grows g3 e3, g4]
    · simp at hz

theorem toCGGI_ok {p : Prog} (hs : p.Served) {zs : List Val} (hz : p.call args = some zs) :
    ∃ c, toCGGI p = some c ∧ c.call unsigned args = some zs := by
  unfold Prog.call at hz
  split at hz
  swap
  · simp at hz
  next hlen =>
  cases hr : runWith evalOp p.ops args with
  | none => rw [hr] at hz; simp at hz
  | some env =>
    rw [hr] at hz
    simp only [Option.bind_some] at hz
    have hI : Inv unsigned args ⟨p.args, [], (List.range p.args).map .ct⟩ (args.map .ct) args
        (List.replicate p.args .secret) := by
      refine ⟨⟨rfl, hlen⟩, by simp [hlen], by simp [hlen], ?_, ?_⟩
      · intro i e x he hx
        have hi := (List.getElem?_eq_some_iff.1 hx).1
        rw [List.getElem?_map, List.getElem?_range (by rw [← hlen]; exact hi)] at he
        simp only [Option.map_some, Option.some.injEq] at he
        subst he
        simp [Rep, hx]
      · intro i e k he hk
        rw [List.getElem?_map] at he
        cases hi : (List.range p.args)[i]? with
        | none => simp [hi] at he
        | some j =>
          simp only [hi, Option.map_some, Option.some.injEq] at he
          subst he
          have := List.mem_of_getElem? hk
          rw [List.mem_replicate] at this
          rw [this.2]
          trivial
    obtain ⟨st, cenv, ks, e1, e2⟩ := convOps_ok hI hs hr
    obtain ⟨xs, st', cenv', f1, f2, f3, f4⟩ := convRets_ok e2 hz
    refine ⟨⟨p.args, st'.ops, xs⟩, by simp [toCGGI, e1, f1], ?_⟩
    simp [CProg.call, hlen, f2.run, f4]

end Heir.Tfhe
