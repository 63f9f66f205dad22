import Verif.PolyFold.Spec
import Verif.PolyFold.Model
import Verif.NTT.Props
import Mathlib.Tactic.Ring
import Mathlib.Tactic.LinearCombination

/-! # Lemmas on the folding of polynomial constants -/

namespace Heir.PolyFold

open Heir.NTT Finset

variable {S : Type} [CommRing S]

/-- Value of a dense list of naturals. -/
def lval (x : S) (l : List Nat) : S := evalAt l.length (fun i => ((l[i]?.getD 0 : Nat) : S)) x

theorem evalAt_cons (x : S) (n : Nat) (g : Nat → S) :
    evalAt (n + 1) g x = g 0 + x * evalAt n (fun i => g (i + 1)) x := by
  unfold evalAt
  rw [sum_range_succ', mul_sum]
  simp only [pow_zero, mul_one]
  rw [add_comm]
  congr 1
  exact sum_congr rfl fun i _ => by ring

theorem lval_nil (x : S) : lval x [] = 0 := by simp [lval, evalAt]

theorem lval_cons (x : S) (v : Nat) (l : List Nat) : lval x (v :: l) = v + x * lval x l := by
  unfold lval
  rw [List.length_cons, evalAt_cons]
  simp

theorem lval_replicate (x : S) (n : Nat) : lval x (List.replicate n 0) = 0 := by
  induction n with
  | zero => simp [lval_nil]
  | succ n ih => rw [List.replicate_succ, lval_cons, ih]; simp

theorem lval_set (x : S) (v : Nat) : ∀ (l : List Nat) (e : Nat), l[e]? = some 0 →
    lval x (l.set e v) = lval x l + v * x ^ e := by
  intro l
  induction l with
  | nil => intro e h; simp at h
  | cons u l ih =>
    intro e h
    cases e with
    | zero =>
      simp only [List.getElem?_cons_zero, Option.some.injEq] at h
      subst h
      rw [List.set_cons_zero, lval_cons, lval_cons]; simp; ring
    | succ e =>
      rw [List.set_cons_succ, lval_cons, lval_cons, ih e (by simpa using h)]; ring

/-! ## Reading and writing constants -/

/-- The coefficient fits the storage width. -/
def Fits (w : Nat) (ts : Terms) : Prop :=
  ∀ t ∈ ts, -2 ^ (w - 1) ≤ t.2.toInt ∧ t.2.toInt < 2 ^ (w - 1)

theorem tmod_cast {q : Int} (hq : (q : S) = 0) (c : Int) : ((c.tmod q : Int) : S) = c := by
  have h : ((q * c.tdiv q + c.tmod q : Int) : S) = c := by rw [Int.mul_tdiv_add_tmod]
  push_cast at h
  rw [hq, zero_mul, zero_add] at h
  exact h

/-- `srem` followed by the correction of a negative remainder. -/
theorem srem_fix {w : Nat} (v q : BitVec w) (hq : 0 < q.toInt) :
    (if (v.srem q).msb then v.srem q + q else v.srem q).toNat < q.toNat ∧
    ∀ {S : Type} [CommRing S], (q.toNat : S) = 0 →
      (((if (v.srem q).msb then v.srem q + q else v.srem q).toNat : Nat) : S) = ((v.toInt : Int) : S) := by
  have hqm : q.msb = false := by rw [BitVec.msb_eq_toInt]; simpa using hq.le
  have hqn : q.toInt = (q.toNat : Int) := BitVec.toInt_eq_toNat_of_msb hqm
  have h1 := Int.tmod_lt_of_pos v.toInt hq
  have h2 := Int.lt_tmod_of_pos v.toInt hq
  have hs := BitVec.toInt_srem v q
  -- the signed value of the result
  obtain ⟨t, ht0, ht1, ht2⟩ : ∃ t : Int,
      (if (v.srem q).msb then v.srem q + q else v.srem q).toInt = t ∧ 0 ≤ t ∧ t < q.toInt ∧
      (t = v.toInt.tmod q.toInt ∨ t = v.toInt.tmod q.toInt + q.toInt) := by
    by_cases hm : (v.srem q).msb = true
    · have hneg : v.toInt.tmod q.toInt < 0 := by
        rw [BitVec.msb_eq_toInt, hs] at hm; simpa using hm
      refine ⟨v.toInt.tmod q.toInt + q.toInt, ?_, by omega, by omega, Or.inr rfl⟩
      rw [if_pos hm, BitVec.toInt_add, hs]
      have hlt := BitVec.two_mul_toInt_lt (x := q)
      refine Int.bmod_eq_of_le ?_ ?_
      · push_cast; omega
      · push_cast; omega
    · have hpos : ¬ v.toInt.tmod q.toInt < 0 := by
        rw [BitVec.msb_eq_toInt, hs] at hm; simpa using hm
      exact ⟨v.toInt.tmod q.toInt, by rw [if_neg hm, hs], by omega, h1, Or.inl rfl⟩
  generalize (if (v.srem q).msb then v.srem q + q else v.srem q) = r at ht0
  have hrm : r.msb = false := by rw [BitVec.msb_eq_toInt, ht0]; simpa using ht1
  have hrn : r.toInt = (r.toNat : Int) := BitVec.toInt_eq_toNat_of_msb hrm
  refine ⟨by omega, fun {S} _ hS => ?_⟩
  have hS' : ((q.toInt : Int) : S) = 0 := by rw [hqn]; simpa using hS
  have : ((r.toNat : Nat) : S) = ((r.toInt : Int) : S) := by rw [hrn]; simp
  rw [this, ht0]
  rcases ht2.2 with h | h
  · rw [h, tmod_cast hS']
  · rw [h]; push_cast; rw [tmod_cast hS', hS', add_zero]

theorem residue_ok {w : Nat} {q : BitVec w} (hq : 0 < q.toInt) {c : BitVec 64}
    (hc : -2 ^ (w - 1) ≤ c.toInt ∧ c.toInt < 2 ^ (w - 1)) :
    (residue q c).toNat < q.toNat ∧
    ∀ {S : Type} [CommRing S], (q.toNat : S) = 0 → ((residue q c).toNat : S) = ((c.toInt : Int) : S) := by
  have h := srem_fix (c.signExtend w) q hq
  have hw : 0 < w := by
    rcases Nat.eq_zero_or_pos w with rfl | h
    · rw [BitVec.toInt_zero_length] at hq; omega
    · exact h
  have he : (c.signExtend w).toInt = c.toInt := by
    rw [BitVec.signExtend, BitVec.toInt_ofInt]
    obtain ⟨k, rfl⟩ : ∃ k, w = k + 1 := ⟨w - 1, by omega⟩
    simp only [Nat.add_sub_cancel] at hc
    refine Int.bmod_eq_of_le ?_ ?_ <;> push_cast <;> rw [pow_succ] <;> omega
  rw [he] at h
  exact h

theorem readTerms_ok {w : Nat} {q : BitVec w} (hq : 0 < q.toInt) (n : Nat) :
    ∀ (ts : Terms) (data : List Nat), data.length = n → Fits w ts → (ts.map Prod.fst).Nodup →
      (∀ t ∈ ts, t.1 < n) → (∀ t ∈ ts, data[t.1]? = some 0) → (∀ v ∈ data, v < q.toNat) →
      ∃ l, readTerms q n data ts = some l ∧ l.length = n ∧ (∀ v ∈ l, v < q.toNat) ∧
        ∀ {S : Type} [CommRing S] (x : S), (q.toNat : S) = 0 → lval x l = lval x data + val x ts := by
  intro ts
  induction ts with
  | nil => intro data h _ _ _ _ hd; exact ⟨data, rfl, h, hd, fun x _ => by simp [val]⟩
  | cons t ts ih =>
    obtain ⟨e, c⟩ := t
    intro data hl hf hn he h0 hd
    have hr := residue_ok hq (hf (e, c) (by simp))
    simp only [List.map_cons, List.nodup_cons] at hn
    have hen : e < n := he (e, c) (by simp)
    obtain ⟨l, h1, h2, h3, h4⟩ := ih (data.set e (residue q c).toNat) (by simpa using hl)
      (fun t ht => hf t (by simp [ht])) hn.2 (fun t ht => he t (by simp [ht]))
      (fun t ht => by
        have hne : e ≠ t.1 := fun h => hn.1 (h ▸ List.mem_map_of_mem ht)
        rw [List.getElem?_set_ne hne]
        exact h0 t (by simp [ht]))
      (fun v hv => by
        rcases List.mem_or_eq_of_mem_set hv with h | h
        · exact hd v h
        · rw [h]; exact hr.1)
    refine ⟨l, by rw [readTerms, if_neg (by omega)]; exact h1, h2, h3, fun x hS => ?_⟩
    rw [h4 x hS, lval_set x _ data e (h0 (e, c) (by simp)), hr.2 hS]
    simp [val]; ring

/-- What a readable constant is. -/
structure Readable (w : Nat) (n : Nat) (ts : Terms) : Prop where
  fits : Fits w ts
  nodup : (ts.map Prod.fst).Nodup
  below : ∀ t ∈ ts, t.1 < n

theorem singleLimb_ok {w : Nat} {q : BitVec w} (hq : 0 < q.toInt) (h64 : q.toNat < 2 ^ 64) {f ts : Terms}
    (h : Readable w (degree f) ts) :
    ∃ l, singleLimb q f ts = some l ∧ l.length = degree f ∧ (∀ v ∈ l, v < q.toNat) ∧
      ∀ {S : Type} [CommRing S] (x : S), (q.toNat : S) = 0 → lval x l = val x ts := by
  have hqm : q.msb = false := by rw [BitVec.msb_eq_toInt]; simpa using hq.le
  have hqn : q.toInt = (q.toNat : Int) := BitVec.toInt_eq_toNat_of_msb hqm
  obtain ⟨l, h1, h2, h3, h4⟩ := readTerms_ok hq (degree f) ts (List.replicate (degree f) 0) (by simp)
    h.fits h.nodup h.below
    (fun t ht => by simp [List.getElem?_replicate, h.below t ht])
    (fun v hv => by rw [List.eq_of_mem_replicate hv]; omega)
  refine ⟨l, by rw [singleLimb, if_neg (by omega)]; exact h1, h2, h3, fun x hS => ?_⟩
  rw [h4 x hS, lval_replicate, zero_add]

theorem ofNat_toInt {v : Nat} (h : v < 2 ^ 63) : (BitVec.ofNat 64 v).toInt = v := by
  rw [BitVec.toInt_eq_toNat_bmod, BitVec.toNat_ofNat, Nat.mod_eq_of_lt (by omega)]
  refine Int.bmod_eq_of_le ?_ ?_ <;> omega

theorem writeFrom_ok (x : S) : ∀ (l : List Nat) (i : Nat), (∀ v ∈ l, v < 2 ^ 63) →
    val x (writeFrom i l) = x ^ i * lval x l := by
  intro l
  induction l with
  | nil => intro i _; simp [writeFrom, val, lval_nil]
  | cons v l ih =>
    intro i h
    have hv := h v (by simp)
    have ih' := ih (i + 1) (fun u hu => h u (by simp [hu]))
    rw [writeFrom, lval_cons]
    split
    · rename_i h0
      have : v = 0 := by
        have := ofNat_toInt hv
        rw [h0] at this; simpa using this.symm
      rw [ih', this]; simp; ring
    · have e : val x ((i, BitVec.ofNat 64 v) :: writeFrom (i + 1) l)
          = (((BitVec.ofNat 64 v).toInt : Int) : S) * x ^ i + val x (writeFrom (i + 1) l) := by simp [val]
      rw [e, ih', ofNat_toInt hv]; push_cast; ring

end Heir.PolyFold
