import Verif.RNS.Lemmas
import Verif.ModArith.Lemmas2

/-! # Mixed-radix (Garner) reconstruction -/

namespace Heir.RNS

open Heir.Arith Heir.Loop Heir.NumTheory Heir.ModArith Heir.NTT

variable {w : Nat}

/-- The integer `c_0 + c_1 q_0 + c_2 q_0 q_1 + …`. -/
def mrVal : List Int → List Nat → Int
  | c :: cs, q :: qs => c + q * mrVal cs qs
  | _, _ => 0

theorem mrVal_snoc : ∀ (cs : List Int) (qs : List Nat) (c : Int), cs.length < qs.length →
    mrVal (cs ++ [c]) qs = mrVal cs qs + ((qs.take cs.length).prod : Nat) * c := by
  intro cs
  induction cs with
  | nil =>
    intro qs c h
    obtain ⟨q, qs, rfl⟩ : ∃ q qs', qs = q :: qs' := by
      cases qs with
      | nil => simp at h
      | cons q qs => exact ⟨q, qs, rfl⟩
    cases qs <;> simp [mrVal]
  | cons a cs ih =>
    intro qs c h
    obtain ⟨q, qs, rfl⟩ : ∃ q qs', qs = q :: qs' := by
      cases qs with
      | nil => simp at h
      | cons q qs => exact ⟨q, qs, rfl⟩
    simp only [List.length_cons] at h
    simp only [List.cons_append, mrVal, List.length_cons, List.take_succ_cons, List.prod_cons]
    rw [ih qs c (by omega)]
    push_cast; ring

/-- Perfectly centred digits give a perfectly centred value. -/
theorem mrVal_bound : ∀ (cs : List Int) (qs : List Nat), cs.length = qs.length →
    (∀ i (h1 : i < cs.length) (h2 : i < qs.length), |2 * cs[i]| < (qs[i] : Int)) →
    |2 * mrVal cs qs| < (qs.prod : Nat) := by
  intro cs
  induction cs with
  | nil =>
    intro qs h _
    have : qs = [] := List.length_eq_zero_iff.1 h.symm
    subst this; simp [mrVal]
  | cons c cs ih =>
    intro qs h hb
    obtain ⟨q, qs, rfl⟩ : ∃ q qs', qs = q :: qs' := by
      cases qs with
      | nil => simp at h
      | cons q qs => exact ⟨q, qs, rfl⟩
    simp only [List.length_cons, Nat.add_right_cancel_iff] at h
    have h0 := hb 0 (by simp) (by simp)
    simp only [List.getElem_cons_zero] at h0
    have h1 := ih qs h (fun i h1 h2 => hb (i + 1) (by simpa using h1) (by simpa using h2))
    simp only [mrVal, List.prod_cons, Nat.cast_mul]
    generalize mrVal cs qs = v at *
    generalize ((qs.prod : Nat) : Int) = P at *
    generalize (q : Int) = q at *
    rw [abs_lt] at *
    constructor <;> nlinarith [h0.1, h0.2, h1.1, h1.2, mul_le_mul_of_nonneg_left (show 2 * v ≤ P - 1 by linarith [h1.2]) (show 0 ≤ q by linarith), mul_le_mul_of_nonneg_left (show -(2 * v) ≤ P - 1 by linarith [h1.1]) (show 0 ≤ q by linarith)]

/-- Integer values of a list of words. -/
def ints (cs : List (BitVec w)) : List Int := cs.map BitVec.toInt

def nats (qs : List (BitVec w)) : List Nat := qs.map BitVec.toNat

theorem mrVal_drop {cs : List (BitVec w)} {qs : List (BitVec w)} {j : Nat} {c q : BitVec w}
    (hc : cs[j]? = some c) (hq : qs[j]? = some q) :
    mrVal (ints (cs.drop j)) (nats (qs.drop j))
      = c.toInt + q.toNat * mrVal (ints (cs.drop (j + 1))) (nats (qs.drop (j + 1))) := by
  obtain ⟨h1, h2⟩ := List.getElem?_eq_some_iff.1 hc
  obtain ⟨h3, h4⟩ := List.getElem?_eq_some_iff.1 hq
  rw [List.drop_eq_getElem_cons h1, List.drop_eq_getElem_cons h3, h2, h4]
  simp [ints, nats, mrVal]

theorem mrVal_last {cs : List (BitVec w)} {qs : List (BitVec w)} {c q : BitVec w} {j : Nat}
    (hj : j + 1 = cs.length) (hc : cs[j]? = some c) (hq : qs[j]? = some q) :
    mrVal (ints (cs.drop j)) (nats (qs.drop j)) = c.toInt := by
  rw [mrVal_drop hc hq, List.drop_eq_nil_of_le (by omega)]
  simp [ints, mrVal]

theorem mac_okB {q a b c : BitVec w} {x y z : ZMod q.toNat} (h0 : 0 < q.toNat)
    (ha : okU q a x) (hb : okU q b y) (hc : okU q c z) :
    ∃ r, lowerMac q a b c = some r ∧ okB q r (x * y + z) := by
  obtain ⟨r, h, hv⟩ := lowerMac_some q a b c h0
  refine ⟨r, h, by rw [hv]; exact Nat.mod_lt _ h0, ?_⟩
  rw [hv, ← ha, ← hb, ← hc]; simp

/-- The Horner loop with the right constants computes the mixed-radix value modulo `q`. -/
theorem hornerLoop_ok {q : BitVec w} (hq : typeVerify q = true) (h0 : 0 < q.toNat)
    {const : Nat → Option (BitVec w)} {mrcs qs : List (BitVec w)} {count : Nat}
    (hlen : mrcs.length = count + 1) (hqs : count < qs.length)
    (hconst : ∀ j, j < count → ∃ k qj, const j = some k ∧ qs[j]? = some qj ∧
      (k.toNat : ZMod q.toNat) = qj.toNat)
    {last temp : BitVec w} (hlast : mrcs[count]? = some last) (ht : okB q temp ((last.toInt : Int) : ZMod q.toNat)) :
    ∃ r, hornerLoop q const mrcs count temp = some r ∧
      okB q r ((mrVal (ints mrcs) (nats qs) : Int) : ZMod q.toNat) := by
  obtain ⟨r, h1, h2⟩ := forN_inv (n := count)
    (body := fun index temp => do
      let j := count - 1 - index
      let cj ← get mrcs j
      let red ← lowerReduce q cj
      let qj ← const j
      lowerMac q temp qj red) (s := temp)
    (fun t temp => okB q temp
      ((mrVal (ints (mrcs.drop (count - t))) (nats (qs.drop (count - t))) : Int) : ZMod q.toNat))
    (by
      simp only [Nat.sub_zero]
      rw [mrVal_last (by omega) hlast (List.getElem?_eq_getElem hqs)]; exact ht)
    (by
      intro t ht temp hP
      have hj : count - 1 - t < mrcs.length := by omega
      obtain ⟨k, qj, hk, hqj, hkq⟩ := hconst (count - 1 - t) (by omega)
      have hc := List.getElem?_eq_getElem hj
      obtain ⟨red, hred, hred'⟩ := reduce_okB (a := mrcs[count - 1 - t]) hq h0
      obtain ⟨r, hr, hr'⟩ := mac_okB h0 hP.2 hkq hred'.2
      refine ⟨r, by simp only [Loop.get, hc, Option.bind_eq_bind, Option.bind_some, hred, hk, hr], ?_⟩
      rw [show count - (t + 1) = count - 1 - t by omega, mrVal_drop hc hqj,
        show count - 1 - t + 1 = count - t by omega]
      have e : ((mrcs[count - 1 - t].toInt + (qj.toNat : Int) * mrVal (ints (mrcs.drop (count - t)))
          (nats (qs.drop (count - t))) : Int) : ZMod q.toNat)
        = ((mrVal (ints (mrcs.drop (count - t))) (nats (qs.drop (count - t))) : Int) : ZMod q.toNat)
          * (qj.toNat : ZMod q.toNat) + ((mrcs[count - 1 - t].toInt : Int) : ZMod q.toNat) := by
        push_cast; ring
      rw [e]; exact hr')
  refine ⟨r, h1, ?_⟩
  simpa using h2

/-! ## The inverse products -/

theorem qInvLoop_ok : ∀ (rest : List (BitVec w)) (P : Nat) (q : BitVec w),
    (∀ m ∈ rest, 2 ≤ m.toNat) →
    (∀ i m, rest[i]? = some m → Nat.Coprime (P * q.toNat * modProd (rest.take i)) m.toNat) →
    ∃ invs, qInvLoop P q rest = some (some invs) ∧ invs.length = rest.length ∧
      ∀ i (m : BitVec w) (inv : BitVec w), rest[i]? = some m → invs[i]? = some inv →
        inv.toNat * (P * q.toNat * modProd (rest.take i)) ≡ 1 [MOD m.toNat] := by
  intro rest
  induction rest with
  | nil => intro P q _ _; exact ⟨[], rfl, rfl, by intro i m inv h; simp at h⟩
  | cons m rest ih =>
    intro P q h2 hco
    have hm2 := h2 m (by simp)
    have hlt := m.isLt
    have hred : (BitVec.ofNat w (P * q.toNat % m.toNat)).toNat = P * q.toNat % m.toNat := by
      rw [BitVec.toNat_ofNat]
      have := Nat.mod_lt (P * q.toNat) (show 0 < m.toNat by omega)
      exact Nat.mod_eq_of_lt (by omega)
    have hc0 : Nat.Coprime (P * q.toNat) m.toNat := by simpa [modProd] using hco 0 m (by simp)
    obtain ⟨r, hr, hr1, _⟩ := C01_multiplicativeInverse (x := BitVec.ofNat w (P * q.toNat % m.toNat))
      (m := m) hm2 (by rw [hred]; exact Nat.mod_lt _ (by omega))
    rw [hred] at hr1
    obtain ⟨h3, h4⟩ := hr1 (by
      rw [Nat.coprime_iff_gcd_eq_one, ← Nat.gcd_rec, Nat.gcd_comm]; exact hc0)
    have h5 : r.toNat * (P * q.toNat) ≡ 1 [MOD m.toNat] :=
      Nat.ModEq.trans (Nat.ModEq.mul_left _ (Nat.mod_modEq _ _).symm) h4
    have hr0 : ¬ r = 0#w := by
      rintro rfl
      have h6 : (0 : Nat) ≡ 1 [MOD m.toNat] := by simpa using h5
      rw [Nat.ModEq, Nat.zero_mod, Nat.mod_eq_of_lt hm2] at h6
      omega
    obtain ⟨invs, hi, hil, hiv⟩ := ih (P * q.toNat) m (fun x hx => h2 x (by simp [hx]))
      (fun i x hx => by
        have := hco (i + 1) x (by simpa using hx)
        simp only [List.take_succ_cons, modProd_cons] at this
        rwa [← mul_assoc] at this)
    refine ⟨r :: invs, ?_, by simp [hil], ?_⟩
    · have hne : ¬ m = 0#w := Heir.NumTheory.ne_of_pos (by omega)
      simp [qInvLoop, hne, hr, hr0, hi]
    · intro i x inv hx hinv
      cases i with
      | zero =>
        simp only [List.getElem?_cons_zero, Option.some.injEq] at hx hinv
        subst hx hinv
        simpa [modProd] using h5
      | succ i =>
        have := hiv i x inv (by simpa using hx) (by simpa using hinv)
        simp only [List.take_succ_cons, modProd_cons]
        rw [← mul_assoc (P * q.toNat)]; exact this

theorem coprime_take {qs : List (BitVec w)} (h : PC qs) {i : Nat} {q : BitVec w} (hq : qs[i]? = some q) :
    Nat.Coprime (modProd (qs.take i)) q.toNat := by
  obtain ⟨hi, he⟩ := List.getElem?_eq_some_iff.1 hq
  refine (coprime_modProd fun a ha => ?_).symm
  obtain ⟨j, hj, rfl⟩ := List.mem_iff_getElem.1 ha
  have hj' : j < i := by rw [List.length_take] at hj; omega
  rw [List.getElem_take, ← he, Nat.gcd_comm]
  exact List.pairwise_iff_getElem.1 h j i (by omega) hi hj'

/-- The inverse constants of a basis of moduli above one. -/
theorem buildQInvProds_ok {qs : List (BitVec w)} (hne : qs ≠ []) (h2 : ∀ q ∈ qs, 2 ≤ q.toNat) (h : PC qs) :
    ∃ invs, buildQInvProds qs = some (some invs) ∧ invs.length + 1 = qs.length ∧
      ∀ i (q inv : BitVec w), qs[i + 1]? = some q → invs[i]? = some inv →
        inv.toNat * modProd (qs.take (i + 1)) ≡ 1 [MOD q.toNat] := by
  obtain ⟨q, rest, rfl⟩ : ∃ q rest, qs = q :: rest := by
    cases qs with
    | nil => exact absurd rfl hne
    | cons q rest => exact ⟨q, rest, rfl⟩
  obtain ⟨invs, h3, h4, h5⟩ := qInvLoop_ok rest 1 q (fun m hm => h2 m (by simp [hm])) (by
    intro i m hm
    have := coprime_take h (i := i + 1) (q := m) (by simpa using hm)
    simpa [modProd_cons] using this)
  refine ⟨invs, h3, by simp [h4], ?_⟩
  intro i m inv hm hinv
  have := h5 i m inv (by simpa using hm) hinv
  simpa [modProd_cons] using this

/-! ## The coefficient loop -/

theorem liftCentered_ok {q : BitVec w} (a : BitVec w) (hq : typeVerify q = true) (h0 : 0 < q.toNat)
    (hodd : q.toNat % 2 = 1) (hm : q.toNat ≠ 2 ^ (w - 1) - 1) :
    ∃ r, lowerLiftCentered q a = some r ∧ |2 * r.toInt| < (q.toNat : Int) ∧
      ((r.toInt : Int) : ZMod q.toNat) = ((a.toInt : Int) : ZMod q.toNat) := by
  have hlt := typeVerify_lt hq
  obtain ⟨r, h, hv⟩ := lowerLiftCentered_some a hq h0 (by omega)
  have hq' : (0 : Int) < q.toNat := by exact_mod_cast h0
  have hb := Int.emod_lt_of_pos a.toInt hq'
  have hb0 := Int.emod_nonneg a.toInt hq'.ne'
  refine ⟨r, h, ?_, ?_⟩
  · rw [hv, abs_lt]
    split <;> constructor <;> omega
  · rw [hv]
    split
    · rw [Int.cast_sub, ZMod.intCast_mod]; simp
    · rw [ZMod.intCast_mod]

theorem ints_snoc (cs : List (BitVec w)) (c : BitVec w) : ints (cs ++ [c]) = ints cs ++ [c.toInt] := by
  simp [ints]

theorem nats_take_prod (qs : List (BitVec w)) (n : Nat) : ((nats qs).take n).prod = modProd (qs.take n) := by
  simp [nats, modProd, List.map_take]

/-- State of the coefficient loop after `t` steps. -/
def MrcInv (qs xs : List (BitVec w)) (n : Nat) (mrcs : List (BitVec w)) : Prop :=
  mrcs.length = n ∧
  (∀ (i : Nat) (c q : BitVec w), mrcs[i]? = some c → qs[i]? = some q → |2 * c.toInt| < (q.toNat : Int)) ∧
  ∀ (i : Nat) (q x : BitVec w), i < n → qs[i]? = some q → xs[i]? = some x →
    ((mrVal (ints mrcs) (nats qs) : Int) : ZMod q.toNat) = (x.toNat : ZMod q.toNat)

theorem canonical_toInt {q x : BitVec w} (hq : typeVerify q = true) (h : x.toNat < q.toNat) :
    x.toInt = x.toNat := by
  have h1 := typeVerify_lt hq
  have h3 := two_pow_pred (pos_width (q := q) (by omega))
  exact BitVec.toInt_eq_toNat_of_lt (by omega)

theorem mrcStep_ok {qs xs invs : List (BitVec w)} (hg : GoodBasis qs) (hx : xs.length = qs.length)
    (hcan : ∀ (i : Nat) (q x : BitVec w), qs[i]? = some q → xs[i]? = some x → x.toNat < q.toNat)
    (hil : invs.length + 1 = qs.length)
    (hinv : ∀ i (q inv : BitVec w), qs[i + 1]? = some q → invs[i]? = some inv →
        inv.toNat * modProd (qs.take (i + 1)) ≡ 1 [MOD q.toNat])
    {const : Nat → Nat → Option (BitVec w)} {t : Nat} (ht : t + 1 < qs.length)
    (hconst : ∀ j q, j < t → qs[t + 1]? = some q → ∃ k qj, const (t + 1) j = some k ∧ qs[j]? = some qj ∧
      (k.toNat : ZMod q.toNat) = qj.toNat)
    {mrcs : List (BitVec w)} (hm : MrcInv qs xs (t + 1) mrcs) :
    ∃ mrcs', mrcStep const qs xs invs (t + 1) mrcs = some mrcs' ∧ MrcInv qs xs (t + 2) mrcs' := by
  obtain ⟨hml, hmb, hmv⟩ := hm
  have hxi := List.getElem?_eq_getElem (l := xs) (i := t + 1) (by omega)
  have hqi := List.getElem?_eq_getElem (l := qs) (i := t + 1) ht
  have hpi := List.getElem?_eq_getElem (l := mrcs) (i := t) (by omega)
  have hii := List.getElem?_eq_getElem (l := invs) (i := t) (by omega)
  set xi := xs[t + 1]
  set q := qs[t + 1]
  set prev := mrcs[t]
  set inv := invs[t]
  have hqm : q ∈ qs := List.getElem_mem _
  have hver := hg.ver q hqm
  have h0 : 0 < q.toNat := by have := hg.two q hqm; omega
  obtain ⟨t0, ht0, ht0'⟩ := reduce_okB (a := prev) hver h0
  obtain ⟨t1, ht1, ht1'⟩ := hornerLoop_ok hver h0 (const := const (t + 1)) (mrcs := mrcs) (qs := qs)
    (count := t) hml (by omega) (fun j hj => hconst j q hj hqi) hpi ht0'
  have hxc := hcan _ _ _ hqi hxi
  obtain ⟨c1, hc1, hc1'⟩ := sub_okB hver h0 (⟨hxc, rfl⟩ : okB q xi (xi.toNat : ZMod q.toNat)) ht1'
  obtain ⟨c2, hc2, hc2'⟩ := mul_okB h0 hc1'.2 (rfl : okU q inv (inv.toNat : ZMod q.toNat))
  obtain ⟨c3, hc3, hb3, hv3⟩ := liftCentered_ok c2 hver h0 (hg.odd q hqm) (hg.top q hqm)
  refine ⟨mrcs ++ [c3], ?_, by simp [hml], ?_, ?_⟩
  · simp only [mrcStep, Loop.get, hxi, hqi, Nat.add_sub_cancel, hpi, hii, Option.bind_eq_bind,
      Option.bind_some, ht0, ht1, hc1, hc2, hc3]
  · intro i c q' hc hq'
    rcases Nat.lt_or_ge i mrcs.length with hi | hi
    · rw [List.getElem?_append_left hi] at hc
      exact hmb i c q' hc hq'
    · have hi2 : i = t + 1 := by
        have := (List.getElem?_eq_some_iff.1 hc).1
        rw [List.length_append, List.length_singleton] at this
        omega
      subst hi2
      rw [← hml, List.getElem?_concat_length] at hc
      rw [hqi] at hq'
      injection hc with hc
      injection hq' with hq'
      rw [← hc, ← hq']; exact hb3
  · have hval : mrVal (ints (mrcs ++ [c3])) (nats qs)
        = mrVal (ints mrcs) (nats qs) + (modProd (qs.take (t + 1)) : Int) * c3.toInt := by
      rw [ints_snoc, mrVal_snoc _ _ _ (by simp [ints, nats, hml]; omega)]
      congr 2
      rw [show (ints mrcs).length = t + 1 by simp [ints, hml], nats_take_prod]
    intro i q' x' hi hq' hx'
    rcases Nat.lt_or_ge i (t + 1) with hlt | hge
    · rw [hval, Int.cast_add, hmv i q' x' hlt hq' hx']
      have hdvd : q'.toNat ∣ modProd (qs.take (t + 1)) := by
        apply dvd_modProd
        refine List.mem_of_getElem? (i := i) ?_
        rw [List.getElem?_take, if_pos hlt, hq']
      have : ((modProd (qs.take (t + 1)) : Int) : ZMod q'.toNat) = 0 := by
        rw [Int.cast_natCast]; exact (ZMod.natCast_eq_zero_iff _ _).2 hdvd
      rw [Int.cast_mul, this]; ring
    · have hi2 : i = t + 1 := by omega
      subst hi2
      rw [hqi] at hq'
      rw [hxi] at hx'
      injection hq' with hq'
      injection hx' with hx'
      subst hq' hx'
      have hi1 := hinv t q inv hqi hii
      have hi2 : (inv.toNat : ZMod q.toNat) * (modProd (qs.take (t + 1)) : ZMod q.toNat) = 1 := by
        have := (ZMod.natCast_eq_natCast_iff _ _ _).2 hi1
        simpa using this
      have hc2i := canonical_toInt hver hc2'.1
      rw [hval, Int.cast_add, Int.cast_mul, hv3, hc2i]
      have : ((c2.toNat : Int) : ZMod q.toNat) = ((xi.toNat : ZMod q.toNat)
          - ((mrVal (ints mrcs) (nats qs) : Int) : ZMod q.toNat)) * inv.toNat := by
        rw [Int.cast_natCast]; exact hc2'.2
      rw [this]
      push_cast
      linear_combination ((xi.toNat : ZMod q.toNat)
          - ((mrVal (ints mrcs) (nats qs) : Int) : ZMod q.toNat)) * hi2

theorem mrcWith_ok {qs xs invs : List (BitVec w)} (hg : GoodBasis qs) (hx : xs.length = qs.length)
    (hcan : ∀ (i : Nat) (q x : BitVec w), qs[i]? = some q → xs[i]? = some x → x.toNat < q.toNat)
    (hil : invs.length + 1 = qs.length)
    (hinv : ∀ i (q inv : BitVec w), qs[i + 1]? = some q → invs[i]? = some inv →
        inv.toNat * modProd (qs.take (i + 1)) ≡ 1 [MOD q.toNat])
    {const : Nat → Nat → Option (BitVec w)}
    (hconst : ∀ i j q, j + 1 < i → qs[i]? = some q → ∃ k qj, const i j = some k ∧ qs[j]? = some qj ∧
      (k.toNat : ZMod q.toNat) = qj.toNat) :
    ∃ mrcs, mrcWith const qs xs invs = some mrcs ∧ MrcInv qs xs qs.length mrcs := by
  have hpos : 0 < qs.length := List.length_pos_iff.2 hg.ne
  have hx0 := List.getElem?_eq_getElem (l := xs) (i := 0) (by omega)
  have hq0 := List.getElem?_eq_getElem (l := qs) (i := 0) hpos
  set x0 := xs[0]
  set q := qs[0]
  have hqm : q ∈ qs := List.getElem_mem _
  have hver := hg.ver q hqm
  have h0 : 0 < q.toNat := by have := hg.two q hqm; omega
  obtain ⟨c0, hc0, hb0, hv0⟩ := liftCentered_ok x0 hver h0 (hg.odd q hqm) (hg.top q hqm)
  obtain ⟨mrcs, h1, h2⟩ := forN_inv (n := qs.length - 1)
    (body := fun t mrcs => mrcStep const qs xs invs (t + 1) mrcs) (s := [c0])
    (fun t mrcs => MrcInv qs xs (t + 1) mrcs)
    (by
      refine ⟨rfl, ?_, ?_⟩
      · intro i c q' hc hq'
        have hi : i = 0 := by
          have := (List.getElem?_eq_some_iff.1 hc).1
          simpa using this
        subst hi
        rw [hq0] at hq'
        injection hq' with hq'
        simp only [List.getElem?_cons_zero, Option.some.injEq] at hc
        rw [← hc, ← hq']; exact hb0
      · intro i q' x' hi hq' hx'
        have hi : i = 0 := by omega
        subst hi
        rw [hq0] at hq'
        rw [hx0] at hx'
        injection hq' with hq'
        injection hx' with hx'
        subst hq' hx'
        have : mrVal (ints [c0]) (nats qs) = c0.toInt := by
          have := mrVal_last (cs := [c0]) (qs := qs) (j := 0) (c := c0) rfl rfl hq0
          simpa using this
        rw [this, hv0, canonical_toInt hver (hcan _ _ _ hq0 hx0), Int.cast_natCast])
    (by
      intro t ht mrcs hm
      exact mrcStep_ok hg hx hcan hil hinv (by omega) (fun j q hj hq => hconst _ j q (by omega) hq) hm)
  refine ⟨mrcs, by simp only [mrcWith, Loop.get, hx0, hq0, Option.bind_eq_bind, Option.bind_some, hc0, h1], ?_⟩
  rwa [Nat.sub_add_cancel hpos] at h2

/-- The mixed-radix value is the centred representative with the given limbs. -/
theorem mrc_value {qs xs mrcs : List (BitVec w)} (hg : GoodBasis qs) (hx : xs.length = qs.length)
    (hm : MrcInv qs xs qs.length mrcs) {z : Int} (hz : -(modProd qs : Int) ≤ 2 * z ∧ 2 * z < modProd qs)
    (hzr : ∀ (i : Nat) (q x : BitVec w), qs[i]? = some q → xs[i]? = some x →
      z ≡ x.toNat [ZMOD q.toNat]) : mrVal (ints mrcs) (nats qs) = z := by
  obtain ⟨hml, hmb, hmv⟩ := hm
  have hb : |2 * mrVal (ints mrcs) (nats qs)| < (modProd qs : Int) := by
    have := mrVal_bound (ints mrcs) (nats qs) (by simp [ints, nats, hml]) (by
      intro i h1 h2
      have h1' : i < mrcs.length := by simpa [ints] using h1
      have h2' : i < qs.length := by simpa [nats] using h2
      have := hmb i _ _ (List.getElem?_eq_getElem h1') (List.getElem?_eq_getElem h2')
      simpa [ints, nats] using this)
    simpa [nats, modProd] using this
  have hd : (modProd qs : Int) ∣ mrVal (ints mrcs) (nats qs) - z := by
    apply modProd_dvd hg.pc
    intro q hq
    obtain ⟨i, hi, rfl⟩ := List.mem_iff_getElem.1 hq
    have hxi := List.getElem?_eq_getElem (l := xs) (i := i) (by omega)
    have hqi := List.getElem?_eq_getElem hi
    have e1 := hmv i _ _ hi hqi hxi
    have e2 := hzr i _ _ hqi hxi
    rw [← Int.cast_natCast (R := ZMod _) xs[i].toNat, ZMod.intCast_eq_intCast_iff] at e1
    exact (Int.modEq_iff_dvd.1 (e1.trans e2.symm).symm)
  rw [abs_lt] at hb
  obtain ⟨k, hk⟩ := hd
  have hP : (0 : Int) < modProd qs := by
    exact_mod_cast modProd_pos fun q hq => by have := hg.two q hq; omega
  have hodd : (modProd qs) % 2 = 1 := by
    have : ∀ l : List (BitVec w), (∀ q ∈ l, q.toNat % 2 = 1) → modProd l % 2 = 1 := by
      intro l
      induction l with
      | nil => intro _; simp [modProd]
      | cons a l ih =>
        intro h
        rw [modProd_cons, Nat.mul_mod, h a (by simp), ih fun q hq => h q (by simp [hq])]
    exact this qs hg.odd
  have hz1 : -(modProd qs : Int) < 2 * z := by omega
  have hk0 : k = 0 := by
    by_contra hk0
    rcases lt_or_gt_of_ne hk0 with h | h
    · have : (modProd qs : Int) * k ≤ -(modProd qs : Int) := by nlinarith
      omega
    · have : (modProd qs : Int) ≤ modProd qs * k := by nlinarith
      omega
  rw [hk0] at hk
  linarith

end Heir.RNS
