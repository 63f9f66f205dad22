import Verif.PolyFold.Reduce

/-! # Properties of the folding of polynomial constants (C195, C196, C197) -/

namespace Heir.PolyFold

open Heir.NTT Finset

variable {S : Type} [CommRing S]

/-- The polynomial modulus `X^n + 1`. -/
def xn1 (n : Nat) : Terms := [(0, 1#64), (n, 1#64)]

theorem val_xn1 (x : S) (n : Nat) : val x (xn1 n) = 1 + x ^ n := by
  simp [val, xn1, show (1#64).toInt = 1 by decide]

theorem point_xn1 {q n : Nat} {x : S} (h : Point q (xn1 n) x) : x ^ n = -1 := by
  have := h.2
  rw [val_xn1] at this
  linear_combination this

theorem isNegacyclic_iff (f : Terms) : isNegacyclic f = true ↔ ∃ n, f = xn1 n := by
  constructor
  · intro h
    match f, h with
    | [(a, b), (c, d)], h =>
      simp [isNegacyclic] at h
      obtain ⟨⟨rfl, rfl⟩, rfl⟩ := h
      exact ⟨c, rfl⟩
    | [], h => simp [isNegacyclic] at h
    | [_], h => simp [isNegacyclic] at h
    | _ :: _ :: _ :: _, h => simp [isNegacyclic] at h
  · rintro ⟨n, rfl⟩; simp [isNegacyclic, xn1]

/-! ## C195 -/

/-- C195: folding the product of a constant with `X^e` gives a constant that is `x^e` times the
operand wherever `q = 0` and `x^n + 1 = 0`. -/
theorem C195_monomial_mul_partial {w : Nat} {q : BitVec w} (hq : 0 < q.toInt) (h63 : q.toNat < 2 ^ 63)
    {n : Nat} (hn : 0 < n) {a : Terms} (ha : Readable w n a) (e : Nat) (other : Option Terms) :
    ∃ r, foldMonomialMul other q (xn1 n) e a = some r ∧
      ∀ (S : Type) [CommRing S] (x : S), Point q.toNat (xn1 n) x → val x r = x ^ e * val x a := by
  have hqm : q.msb = false := by rw [BitVec.msb_eq_toInt]; simpa using hq.le
  have hqn : q.toInt = (q.toNat : Int) := BitVec.toInt_eq_toNat_of_msb hqm
  obtain ⟨l, h1, h2, h3, h4⟩ := singleLimb_ok hq (by omega) (f := xn1 n) (ts := a) ha
  obtain ⟨o, g1, g2, g3, g4⟩ := monomialMulLimb_ok (e := e) (m := q.toNat)
    (n := n) ((isNegacyclic_iff _).2 ⟨n, rfl⟩) rfl hn (by omega) h63 l h2
    (fun v hv => lt_trans (h3 v hv) h63)
  refine ⟨writeFrom 0 o, by simp [foldMonomialMul, h1, monomialMulCoeff, mapLimbs, g1], ?_⟩
  intro S _ x hx
  rw [writeFrom_ok x o 0 (fun v hv => lt_trans (g3 v hv) h63), pow_zero, one_mul,
    shift_lval hn x (point_xn1 hx) l o h2 g2 (fun p hp => ?_), h4 x hx.1]
  obtain ⟨v, hv, hv'⟩ := g4 p hp
  rw [hv, Option.getD_some]
  exact hv' hx.1

example : Readable 8 4 [(1, -3#64), (3, 5#64)] ∧ 0 < (17#8).toInt ∧
    foldMonomialMul none (17#8) (xn1 4) 2 [(1, -3#64), (3, 5#64)] = some [(1, 12#64), (3, 14#64)] :=
  ⟨⟨by unfold Fits; decide, by decide, by decide⟩, by decide, by decide +kernel⟩

/-- C195, RNS constants: in every limb the coefficients are canonical and stand for `x^e` times the
operand. -/
theorem C195_rns_partial {n : Nat} (hn : 0 < n) (p : RNSPoly) (hp : p.WF n) (hf : p.form = .coeff)
    (hm : ∀ m ∈ p.moduli, 0 < m ∧ m < 2 ^ 63) (hb : ∀ l ∈ p.limbs, ∀ v ∈ l, v < 2 ^ 63) (e : Nat) :
    ∃ r, monomialMulCoeff p e (xn1 n) = some r ∧ r.moduli = p.moduli ∧ r.form = .coeff ∧
      r.limbs.length = p.moduli.length ∧
      ∀ (i m : Nat) (a : List Nat), p.moduli[i]? = some m → p.limbs[i]? = some a →
        ∃ l, r.limbs[i]? = some l ∧ l.length = n ∧ (∀ v ∈ l, v < m) ∧
          ∀ (S : Type) [CommRing S] (x : S), (m : S) = 0 → x ^ n = -1 →
            evalAt n (fun j => ((l[j]?.getD 0 : Nat) : S)) x
              = x ^ e * evalAt n (fun j => ((a[j]?.getD 0 : Nat) : S)) x := by
  obtain ⟨ls, ms, fm⟩ := p
  simp only at hf hm hb
  subst hf
  have key : ∀ (ms : List Nat) (ls : List (List Nat)), ls.length = ms.length → (∀ l ∈ ls, l.length = n) →
      (∀ m ∈ ms, 0 < m ∧ m < 2 ^ 63) → (∀ l ∈ ls, ∀ v ∈ l, v < 2 ^ 63) →
      ∃ rs, mapLimbs (fun ml : Nat × List Nat => monomialMulLimb ml.1 e ml.2 (xn1 n)) (List.zip ms ls)
          = some rs ∧ rs.length = ms.length ∧
        ∀ (i m : Nat) (a : List Nat), ms[i]? = some m → ls[i]? = some a →
          ∃ l, rs[i]? = some l ∧ l.length = n ∧ (∀ v ∈ l, v < m) ∧
            ∀ (S : Type) [CommRing S] (x : S), (m : S) = 0 → x ^ n = -1 →
              evalAt n (fun j => ((l[j]?.getD 0 : Nat) : S)) x
                = x ^ e * evalAt n (fun j => ((a[j]?.getD 0 : Nat) : S)) x := by
    intro ms
    induction ms with
    | nil => intro ls _ _ _ _; exact ⟨[], by simp [mapLimbs], rfl, by intro i m a h; simp at h⟩
    | cons m ms ih =>
      intro ls hl hn' hm hb
      cases ls with
      | nil => simp at hl
      | cons a ls =>
        obtain ⟨rs, h1, h2, h3⟩ := ih ls (by simpa using hl) (fun l h => hn' l (by simp [h]))
          (fun m h => hm m (by simp [h])) (fun l h => hb l (by simp [h]))
        have hal := hn' a (by simp)
        obtain ⟨o, g1, g2, g3, g4⟩ := monomialMulLimb_ok (e := e) (m := m)
          (n := n) ((isNegacyclic_iff _).2 ⟨n, rfl⟩) rfl hn (hm m (by simp)).1
          (hm m (by simp)).2 a hal (hb a (by simp))
        refine ⟨o :: rs, by simp [mapLimbs, g1, h1], by simp [h2], ?_⟩
        intro i m0 a0 hm0 ha0
        cases i with
        | zero =>
          simp only [List.getElem?_cons_zero, Option.some.injEq] at hm0 ha0
          subst hm0 ha0
          refine ⟨o, by simp, g2, g3, fun S _ x hS hx => ?_⟩
          have := shift_lval (e := e) hn x hx a o hal g2 (fun p hp => by
            obtain ⟨v, hv, hv'⟩ := g4 p hp
            rw [hv, Option.getD_some]
            exact hv' hS)
          unfold lval at this
          rwa [hal, g2] at this
        | succ i => simpa using h3 i m0 a0 (by simpa using hm0) (by simpa using ha0)
  obtain ⟨rs, h1, h2, h3⟩ := key ms ls hp.2.1 hp.2.2 hm hb
  exact ⟨⟨rs, ms, .coeff⟩, by simp [monomialMulCoeff, h1], rfl, rfl, h2, h3⟩

example : monomialMulCoeff ⟨[[1, 2], [3, 4]], [5, 13], .coeff⟩ 3 (xn1 2)
    = some ⟨[[2, 4], [4, 10]], [5, 13], .coeff⟩ := by decide +kernel

/-- C195, integer coefficients of at most 64 bits: the reduction of any dense polynomial modulo
`X^n + 1` stands for the same element wherever `2^64 = 0` (so also modulo `2^8`, `2^16`, `2^32`) and
`x^n + 1 = 0`. -/
theorem C195_reduce_int {n : Nat} (hn : 0 < n) (c : List (BitVec 64)) :
    ∃ r, reduceModuloPolynomial c (xn1 n) = some r ∧ r.length = n ∧
      ∀ (S : Type) [CommRing S] (x : S), ((2 ^ 64 : Nat) : S) = 0 → x ^ n = -1 →
        evalAt n (fun i => (((r[i]?.getD 0).toNat : Nat) : S)) x
          = evalAt c.length (fun i => (((c[i]?.getD 0).toNat : Nat) : S)) x :=
  reduce_val ((isNegacyclic_iff _).2 ⟨n, rfl⟩) rfl hn c

example : reduceModuloPolynomial [1, 2, 3, 4, 5] (xn1 2) = some [3#64, -2#64] := by decide +kernel

/-- C195: with any other polynomial modulus the operation is left alone. -/
theorem C195_refuses {w : Nat} {q : BitVec w} (hq : 0 < q.toInt) (h64 : q.toNat < 2 ^ 64) {f : Terms}
    (hf : ∀ n, f ≠ xn1 n) {a : Terms} (ha : Readable w (degree f) a) (e : Nat) (other : Option Terms) :
    foldMonomialMul other q f e a = none := by
  obtain ⟨l, h1, _⟩ := singleLimb_ok hq h64 (f := f) (ts := a) ha
  have hneg : isNegacyclic f = false := by
    cases h : isNegacyclic f with
    | false => rfl
    | true => obtain ⟨n, hn⟩ := (isNegacyclic_iff f).1 h; exact absurd hn (hf n)
  simp [foldMonomialMul, h1, monomialMulCoeff, mapLimbs, monomialMulLimb, reduceModuloPolynomial, hneg]

example : (∀ n, ([(0, 1#64), (1, 1#64), (2, 1#64)] : Terms) ≠ xn1 n) ∧
    Readable 8 (degree [(0, 1#64), (1, 1#64), (2, 1#64)]) [(1, 3#64)] :=
  ⟨by intro n h; simp [xn1] at h, ⟨by unfold Fits; decide, by decide, by decide⟩⟩

/-- C195 fails for limb moduli of 64 bits, which are read as negative numbers: `1 · X^0` folds to
zero modulo `2^64 - 1`. -/
theorem C195_violated_wide_modulus : ∃ (p r : RNSPoly), p.WF 1 ∧ p.moduli = [2 ^ 64 - 1] ∧
    p.limbs = [[1]] ∧ monomialMulCoeff p 0 (xn1 1) = some r ∧ r.limbs = [[0]] :=
  ⟨⟨[[1]], [2 ^ 64 - 1], .coeff⟩, ⟨[[0]], [2 ^ 64 - 1], .coeff⟩,
    ⟨by simp, rfl, by simp⟩, rfl, rfl, by decide +kernel, rfl⟩

/-! ## C196 -/

/-- C196: folding the product of a constant with a scalar multiplies the constant by the scalar,
whatever the polynomial modulus. -/
theorem C196_scalar_partial {w ws : Nat} {q : BitVec w} (hq : 0 < q.toInt) (h63 : q.toNat < 2 ^ 63)
    {f a : Terms} (ha : Readable w (degree f) a) {s : BitVec ws} (hs : s.toNat < 2 ^ 64) :
    ∃ r, foldMulScalar q f a s = some (some r) ∧
      ∀ (S : Type) [CommRing S] (x : S), Point q.toNat f x → val x r = (s.toNat : S) * val x a := by
  have hqm : q.msb = false := by rw [BitVec.msb_eq_toInt]; simpa using hq.le
  have hqn : q.toInt = (q.toNat : Int) := BitVec.toInt_eq_toNat_of_msb hqm
  have hq0 : 0 < q.toNat := by omega
  obtain ⟨l, h1, h2, h3, h4⟩ := singleLimb_ok hq (by omega) (f := f) (ts := a) ha
  refine ⟨writeFrom 0 (l.map fun v => v * (s.toNat % q.toNat) % q.toNat), ?_, ?_⟩
  · rw [foldMulScalar, if_neg (by omega), h1]
    simp only [RNSPoly.scalarMul]
    rw [if_neg (by simp), if_neg (by simp; omega)]
    simp
  · intro S _ x hx
    have hmod : ∀ v : Nat, ((v % q.toNat : Nat) : S) = v := by
      intro v
      have := congrArg (fun t : Nat => (t : S)) (Nat.mod_add_div v q.toNat)
      push_cast at this
      rw [hx.1, zero_mul, add_zero] at this
      exact this
    have hl : ∀ l : List Nat, lval x (l.map fun v => v * (s.toNat % q.toNat) % q.toNat)
        = (s.toNat : S) * lval x l := by
      intro l
      induction l with
      | nil => simp [lval_nil]
      | cons v l ih =>
        rw [List.map_cons, lval_cons, lval_cons, ih, hmod]
        push_cast
        rw [hmod]; ring
    rw [writeFrom_ok x _ 0, pow_zero, one_mul, hl, h4 x hx.1]
    intro v hv
    obtain ⟨u, _, rfl⟩ := List.mem_map.1 hv
    exact lt_trans (Nat.mod_lt _ hq0) h63

example : Readable 8 (degree (xn1 4)) [(1, -3#64), (3, 5#64)] ∧
    foldMulScalar (17#8) (xn1 4) [(1, -3#64), (3, 5#64)] (6#8) = some (some [(1, 16#64), (3, 13#64)]) :=
  ⟨⟨by unfold Fits; decide, by decide, by decide⟩, by decide +kernel⟩

/-- C196 fails for a coefficient beyond the storage width of the modulus: it is truncated before it
is reduced, so that `1 · 300` folds to `10` modulo `17 : i8` (`300 = 11`). -/
theorem C196_violated_truncated : ∃ (r : Terms) (x : ZMod 17), Point 17 (xn1 2) x ∧
    foldMulScalar (17#8) (xn1 2) [(0, 300#64)] (1#8) = some (some r) ∧
    val x r ≠ ((1#8).toNat : ZMod 17) * val x [(0, 300#64)] :=
  ⟨[(0, 10#64)], 4, ⟨by decide, by decide +kernel⟩, by decide +kernel, by decide +kernel⟩

/-! ## C197 -/

theorem addElem_ok {m a b : Nat} (h63 : m ≤ 2 ^ 63) (ha : a < m) (hb : b < m) :
    addElem m a b < m ∧ (addElem m a b = a + b ∨ addElem m a b + m = a + b) := by
  unfold addElem
  have : (a + b) % 2 ^ 64 = a + b := Nat.mod_eq_of_lt (by omega)
  simp only [this]
  split <;> omega

theorem subElem_ok {m a b : Nat} (h63 : m ≤ 2 ^ 63) (ha : a < m) (hb : b < m) :
    subElem m a b < m ∧ (subElem m a b + b = a ∨ subElem m a b + b = a + m) := by
  unfold subElem
  by_cases h : a < b
  · simp only [if_pos h]
    omega
  · simp only [if_neg h]
    omega

/-- Elementwise addition and subtraction of limbs. -/
theorem zip_lval {m : Nat} (op : Nat → Nat → Nat) (sign : Int) (x : S)
    (hop : ∀ a b, a < m → b < m → ((op a b : Nat) : S) = a + (sign : S) * b) :
    ∀ l r : List Nat, l.length = r.length → (∀ v ∈ l, v < m) → (∀ v ∈ r, v < m) →
      lval x (List.zipWith op l r) = lval x l + (sign : S) * lval x r := by
  intro l
  induction l with
  | nil => intro r hr _ _; cases r with
    | nil => simp [lval_nil]
    | cons _ _ => simp at hr
  | cons a l ih =>
    intro r hr hl hr'
    cases r with
    | nil => simp at hr
    | cons b r =>
      rw [List.zipWith_cons_cons, lval_cons, lval_cons, lval_cons,
        ih r (by simpa using hr) (fun v h => hl v (by simp [h])) (fun v h => hr' v (by simp [h])),
        hop a b (hl a (by simp)) (hr' b (by simp))]
      ring

theorem mem_zipWith {op : Nat → Nat → Nat} {l r : List Nat} {v : Nat} (h : v ∈ List.zipWith op l r) :
    ∃ a ∈ l, ∃ b ∈ r, v = op a b := by
  obtain ⟨i, hi, rfl⟩ := List.mem_iff_getElem.1 h
  rw [List.getElem_zipWith]
  exact ⟨_, List.getElem_mem _, _, List.getElem_mem _, rfl⟩

/-- A term outside the ring is not read. -/
theorem readTerms_none {w : Nat} (q : BitVec w) (n : Nat) (ts : Terms) (h : ∃ t ∈ ts, n ≤ t.1) :
    ∀ data, readTerms q n data ts = none := by
  induction ts with
  | nil => obtain ⟨t, ht, _⟩ := h; simp at ht
  | cons t ts ih =>
    intro data
    obtain ⟨e, c⟩ := t
    rw [readTerms]
    split
    · rfl
    · rename_i hne
      refine ih ?_ _
      obtain ⟨u, hu, hle⟩ := h
      rcases List.mem_cons.1 hu with rfl | hu
      · exact absurd hle hne
      · exact ⟨u, hu, hle⟩

/-- C197: constants with a degree outside the ring, or with moduli of more than 64 bits, are still folded, to
what the addition or subtraction of terms gives. -/
theorem C197_fallback {w : Nat} {q : BitVec w} {f a b : Terms}
    (h : 2 ^ 64 ≤ q.toNat ∨ (∃ t ∈ a, degree f ≤ t.1) ∨ ∃ t ∈ b, degree f ≤ t.1) (form : Form)
    (rnsFn : RNSPoly → RNSPoly → Option RNSPoly) (intFn : Terms → Terms → Terms) :
    ∃ r, foldBinary rnsFn intFn q f form a b = some r ∧
      ∀ (S : Type) [CommRing S] (x y : S), val x (intFn a b) = y → val x r = y := by
  refine ⟨intFn a b, ?_, fun S _ x y hy => hy⟩
  have hs : singleLimb q f a = none ∨ singleLimb q f b = none := by
    unfold singleLimb
    rcases h with h | h | h
    · exact .inl (if_pos h)
    · left; split
      · rfl
      · exact readTerms_none q _ a h _
    · right; split
      · rfl
      · exact readTerms_none q _ b h _
  unfold foldBinary
  rcases hs with hs | hs <;> rw [hs]
  cases singleLimb q f a <;> rfl

example : ∃ t ∈ ([(0, 1#64), (2, 3#64)] : Terms), degree (xn1 2) ≤ t.1 := ⟨(2, 3#64), by decide, by decide⟩

/-- C197: folding a sum, in coefficient or evaluation form, adds the constants. -/
theorem C197_add_partial {w : Nat} {q : BitVec w} (hq : 0 < q.toInt) (h63 : q.toNat ≤ 2 ^ 63)
    {f a b : Terms} (ha : Readable w (degree f) a) (hb : Readable w (degree f) b) (form : Form)
    (intFn : Terms → Terms → Terms) :
    ∃ r, foldBinary RNSPoly.add intFn q f form a b = some r ∧
      ∀ (S : Type) [CommRing S] (x : S), Point q.toNat f x → val x r = val x a + val x b := by
  obtain ⟨l, h1, h2, h3, h4⟩ := singleLimb_ok hq (by omega) (f := f) (ts := a) ha
  obtain ⟨l', g1, g2, g3, g4⟩ := singleLimb_ok hq (by omega) (f := f) (ts := b) hb
  refine ⟨writeFrom 0 (List.zipWith (addElem q.toNat) l l'), ?_, ?_⟩
  · simp [foldBinary, h1, g1, RNSPoly.add, h2, g2]
  · intro S _ x hx
    rw [writeFrom_ok x _ 0, pow_zero, one_mul, zip_lval (m := q.toNat) _ 1 x ?_ l l' (by omega) h3 g3,
      h4 x hx.1, g4 x hx.1]
    · simp
    · intro u v hu hv
      rcases (addElem_ok h63 hu hv).2 with h | h
      · rw [h]; push_cast; ring
      · have := congrArg (fun t : Nat => (t : S)) h
        push_cast at this
        rw [hx.1, add_zero] at this
        rw [this]; push_cast; ring
    · intro v hv
      obtain ⟨u, hu, u', hu', rfl⟩ := mem_zipWith hv
      exact lt_of_lt_of_le (addElem_ok h63 (h3 u hu) (g3 u' hu')).1 h63

example : foldBinary RNSPoly.add (fun a _ => a) (17#8) (xn1 4) .eval [(1, -3#64), (3, 5#64)] [(1, 4#64), (2, 16#64)]
    = some [(1, 1#64), (2, 16#64), (3, 5#64)] := by decide +kernel

/-- C197: folding a difference subtracts the constants. -/
theorem C197_sub_partial {w : Nat} {q : BitVec w} (hq : 0 < q.toInt) (h63 : q.toNat ≤ 2 ^ 63)
    {f a b : Terms} (ha : Readable w (degree f) a) (hb : Readable w (degree f) b) (form : Form)
    (intFn : Terms → Terms → Terms) :
    ∃ r, foldBinary RNSPoly.sub intFn q f form a b = some r ∧
      ∀ (S : Type) [CommRing S] (x : S), Point q.toNat f x → val x r = val x a - val x b := by
  obtain ⟨l, h1, h2, h3, h4⟩ := singleLimb_ok hq (by omega) (f := f) (ts := a) ha
  obtain ⟨l', g1, g2, g3, g4⟩ := singleLimb_ok hq (by omega) (f := f) (ts := b) hb
  refine ⟨writeFrom 0 (List.zipWith (subElem q.toNat) l l'), ?_, ?_⟩
  · simp [foldBinary, h1, g1, RNSPoly.sub, h2, g2]
  · intro S _ x hx
    rw [writeFrom_ok x _ 0, pow_zero, one_mul, zip_lval (m := q.toNat) _ (-1) x ?_ l l' (by omega) h3 g3,
      h4 x hx.1, g4 x hx.1]
    · push_cast; ring
    · intro u v hu hv
      rcases (subElem_ok h63 hu hv).2 with h | h
      · have := congrArg (fun t : Nat => (t : S)) h
        push_cast at this
        push_cast
        linear_combination this
      · have := congrArg (fun t : Nat => (t : S)) h
        push_cast at this
        rw [hx.1, add_zero] at this
        push_cast
        linear_combination this
    · intro v hv
      obtain ⟨u, hu, u', hu', rfl⟩ := mem_zipWith hv
      exact lt_of_lt_of_le (subElem_ok h63 (h3 u hu) (g3 u' hu')).1 h63

example : foldBinary RNSPoly.sub (fun a _ => a) (17#8) (xn1 4) .coeff [(1, 3#64), (3, 5#64)] [(1, 4#64), (2, 1#64)]
    = some [(1, 16#64), (2, 16#64), (3, 5#64)] := by decide +kernel

/-- The reduction of `Z_q` into a ring where `q = 0`. -/
theorem exists_hom {q : Nat} (h : (q : S) = 0) : ∃ φ : ZMod q →+* S, ∀ v : Nat, φ (v : ZMod q) = v := by
  have := ringChar.charP S
  exact ⟨ZMod.castHom (ringChar.dvd h) S, fun v => by simp⟩

theorem negacyclic_map {R : Type} [CommRing R] (φ : R →+* S) (n : Nat) (a b : Nat → R) (k : Nat) :
    φ (negacyclic n a b k) = negacyclic n (fun i => φ (a i)) (fun i => φ (b i)) k := by
  unfold negacyclic
  rw [map_sum]
  refine sum_congr rfl fun i _ => ?_
  rw [map_sum]
  refine sum_congr rfl fun j _ => ?_
  split
  · simp
  · split <;> simp

/-- C197: folding a product modulo `X^n + 1`, for NTT-friendly prime moduli, multiplies the
constants. -/
theorem C197_mul_partial {w k : Nat} {q : BitVec w} (hq : 0 < q.toInt) (h63 : q.toNat < 2 ^ 63)
    (hk : k < 32) (hp : q.toNat.Prime) (hd : 2 * 2 ^ k ∣ q.toNat - 1)
    {a b : Terms} (ha : Readable w (2 ^ k) a) (hb : Readable w (2 ^ k) b) :
    ∃ r, foldMul q (xn1 (2 ^ k)) a b = some (some r) ∧
      ∀ (S : Type) [CommRing S] (x : S), Point q.toNat (xn1 (2 ^ k)) x → val x r = val x a * val x b := by
  obtain ⟨l, h1, h2, h3, h4⟩ := singleLimb_ok hq (by omega) (f := xn1 (2 ^ k)) (ts := a) ha
  obtain ⟨l', g1, g2, g3, g4⟩ := singleLimb_ok hq (by omega) (f := xn1 (2 ^ k)) (ts := b) hb
  have hdeg : degree (xn1 (2 ^ k)) = 2 ^ k := rfl
  rw [hdeg] at h2 g2
  obtain ⟨r, m1, _, _, m4, m5⟩ := C10_mul_negacyclic hk ⟨[l], [q.toNat], .coeff⟩ ⟨[l'], [q.toNat], .coeff⟩
    ⟨by simp, rfl, by simpa using h2⟩ ⟨by simp, rfl, by simpa using g2⟩ rfl rfl rfl
    (by intro m hm; simp only [List.mem_singleton] at hm; subst hm; exact ⟨hp, by omega, hd⟩)
  obtain ⟨o, n1, n2, n3⟩ := m5 0 q.toNat l l' rfl rfl rfl
  have hr : r.limbs = [o] := by
    match r.limbs, m4, n1 with
    | [c], _, n1 => simp at n1; rw [n1]
    | [], m4, _ => simp at m4
    | _ :: _ :: _, m4, _ => simp at m4
  have ho : ∀ v ∈ o, v < q.toNat := by
    intro v hv
    obtain ⟨j, hj, rfl⟩ := List.mem_iff_getElem.1 hv
    obtain ⟨u, hu, hlt, _⟩ := n3 j (by omega)
    rw [List.getElem?_eq_getElem hj] at hu
    simp only [Option.some.injEq] at hu
    omega
  refine ⟨writeFrom 0 o, by simp [foldMul, h1, g1, hdeg, m1, hr], ?_⟩
  intro S _ x hx
  obtain ⟨φ, hφ⟩ := exists_hom hx.1
  rw [writeFrom_ok x _ 0 (fun v hv => lt_trans (ho v hv) h63), pow_zero, one_mul, ← h4 x hx.1, ← g4 x hx.1]
  unfold lval
  rw [h2, g2, n2, ← evalAt_negacyclic _ _ _ _ (point_xn1 hx)]
  unfold evalAt
  refine sum_congr rfl fun j hj => ?_
  obtain ⟨v, hv, _, hv'⟩ := n3 j (mem_range.1 hj)
  beta_reduce
  rw [hv, Option.getD_some, ← hφ v, hv', negacyclic_map]
  simp only [hφ]

example : Nat.Prime (17#8).toNat ∧ 2 * 2 ^ 2 ∣ (17#8).toNat - 1 ∧ Readable 8 (2 ^ 2) [(1, -3#64), (3, 5#64)] :=
  ⟨by norm_num, by decide, ⟨by unfold Fits; decide, by decide, by decide⟩⟩

/-- C197 fails for products modulo any other polynomial: the modulus of the ring is not looked at,
so that `X · X` folds to `-1` modulo `X^2 + X + 1` over `Z_13`. -/
theorem C197_violated_other_modulus : ∃ (f r : Terms) (x : ZMod 13),
    f = [(0, 1#64), (1, 1#64), (2, 1#64)] ∧ Point 13 f x ∧
    foldMul (13#8) f [(1, 1#64)] [(1, 1#64)] = some (some r) ∧
    val x r ≠ val x [(1, 1#64)] * val x [(1, 1#64)] := by
  refine ⟨_, [(0, 12#64)], 3, rfl, ⟨by decide, by decide +kernel⟩, by decide +kernel, by decide +kernel⟩

/-- C197 fails when an exponent reaches the degree of the polynomial modulus: the product is then
computed with 64-bit wraparound, which does not respect the coefficient modulus. -/
theorem C197_violated_wraparound : ∃ (a b r : Terms) (x : ZMod 5), Point 5 (xn1 2) x ∧
    foldMul (5#64) (xn1 2) a b = some (some r) ∧ val x r ≠ val x a * val x b :=
  ⟨[(2, 2 ^ 40)], [(0, 2 ^ 40)], [], 2, ⟨by decide, by decide +kernel⟩, by decide +kernel,
    by decide +kernel⟩

/-- C197: in that fallback a zero operand has no last term to read. -/
theorem C197_violated_zero : ∃ a : Terms, val (2 : ZMod 5) a ≠ 0 ∧ foldMul (5#64) (xn1 2) a [] = none :=
  ⟨[(2, 1#64)], by decide +kernel, by decide +kernel⟩

/-- C197 fails for moduli of 64 bits: the sum of two residues wraps around. -/
theorem C197_violated_wide_add : ∃ (p r : RNSPoly), p.WF 1 ∧ p.moduli = [2 ^ 64 - 1] ∧
    p.limbs = [[2 ^ 64 - 2]] ∧ p.add p = some r ∧
    r.limbs ≠ [[(2 ^ 64 - 2 + (2 ^ 64 - 2)) % (2 ^ 64 - 1)]] :=
  ⟨⟨[[2 ^ 64 - 2]], [2 ^ 64 - 1], .coeff⟩, ⟨[[2 ^ 64 - 4]], [2 ^ 64 - 1], .coeff⟩,
    ⟨by simp, rfl, by simp⟩, rfl, rfl, by decide +kernel, by decide +kernel⟩

end Heir.PolyFold
