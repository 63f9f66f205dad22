import Mathlib.Tactic.Linarith
import Mathlib.Tactic.Ring
import Mathlib.Tactic.Positivity
import Verif.Mgmt.Passes
import Verif.Place.Spec

/-! # Decoding: what the inserted operations do to a ciphertext -/

namespace Heir.Place
open Heir.Mgmt

/-! ## Rounding -/

theorem rounded_int (n : Int) : rounded (n : ℚ) = n := by
  unfold rounded
  split
  · rw [Int.floor_eq_iff]; constructor <;> linarith
  · rw [Int.ceil_eq_iff]; constructor <;> linarith

theorem le_rounded {a : Int} {x : ℚ} (h : (a : ℚ) ≤ x) : a ≤ rounded x := by
  unfold rounded
  split
  · rw [Int.le_floor]; linarith
  · rw [Int.le_ceil_iff]; push_cast; linarith

theorem rounded_le {b : Int} {x : ℚ} (h : x ≤ (b : ℚ)) : rounded x ≤ b := by
  unfold rounded
  split
  · have : ⌊x + 1 / 2⌋ < b + 1 := by rw [Int.floor_lt]; push_cast; linarith
    omega
  · rw [Int.ceil_le]; linarith

/-! ## The operations on one ciphertext -/

/-- What an inserted operation does. -/
def mgStep (o : Opts) (c : Ct) : Mg → Ct
  | .drop k => ⟨c.level - k, c.scale⟩
  | .adjust s => ⟨c.level, s⟩
  | .rescale => ⟨c.level - 1, c.scale - o.sf⟩
  | .boot => ⟨o.waterline, o.sf⟩

/-- When it may be used. -/
def MgOk (o : Opts) (c : Ct) : Mg → Prop
  | .drop k => 0 ≤ k
  | .adjust s => c.scale ≤ s
  | .rescale => True
  | .boot => o.lower ≤ c.level ∧ c.scale = o.sf

/-- A list of them. -/
def MgExec (o : Opts) : Ct → List Mg → Ct → Prop
  | c, [], c' => c = c'
  | c, m :: ms, c' => MgOk o c m ∧ (mgStep o c m).Valid o ∧ MgExec o (mgStep o c m) ms c'

theorem mgExec_append {o : Opts} {a b : List Mg} : ∀ {c c' d}, MgExec o c a c' → MgExec o c' b d → MgExec o c (a ++ b) d := by
  induction a with
  | nil => intro c c' d h h'; cases h; exact h'
  | cons m ms ih => intro c c' d h h'; exact ⟨h.1, h.2.1, ih h.2.2 h'⟩

theorem ceilDivPositive_nonneg {n d : Int} (hd : 0 < d) : 0 ≤ ceilDivPositive n d := by
  unfold ceilDivPositive
  split
  · exact le_refl _
  · exact Int.tdiv_nonneg (by omega) (by omega)

theorem le_ceilDivPositive {n d : Int} (hd : 0 < d) : n ≤ ceilDivPositive n d * d := by
  unfold ceilDivPositive
  split
  · simpa
  · rw [Int.tdiv_eq_ediv_of_nonneg (by omega)]
    have h1 := Int.emod_add_mul_ediv (n + d - 1) d
    have h2 := Int.emod_lt_of_pos (n + d - 1) hd
    rw [Int.mul_comm d] at h1
    omega

/-- It is the least number with this property. -/
theorem ceilDivPositive_le {n d r : Int} (hd : 0 < d) (hr : 0 ≤ r) (h : n ≤ r * d) : ceilDivPositive n d ≤ r := by
  unfold ceilDivPositive
  split
  · exact hr
  · rw [Int.tdiv_eq_ediv_of_nonneg (by omega)]
    have : (n + d - 1) / d < r + 1 := by
      apply Int.ediv_lt_of_lt_mul hd
      rw [Int.add_mul]
      omega
    omega

/-- The number of rescalings in a list. -/
def rescales (ms : List Mg) : Nat := ms.countP (· == .rescale)

theorem rescaleLoop_spec {o : Opts} (hk : o.ckks = true) (hsf : 0 < o.sf) (hsw : 0 < o.sw) {out : Int}
    (ho : 0 < out) : ∀ (n : Nat) (l cur : Int), (⟨l, cur⟩ : Ct).Valid o → (n : Int) ≤ l → cur ≤ out + n * o.sf →
      MgExec o ⟨l, cur⟩ (rescaleLoop o out n cur).1 ⟨l - n, (rescaleLoop o out n cur).2⟩ ∧
        (rescaleLoop o out n cur).2 ≤ out ∧ (⟨l - n, (rescaleLoop o out n cur).2⟩ : Ct).Valid o ∧
        rescales (rescaleLoop o out n cur).1 = n ∧ Mg.boot ∉ (rescaleLoop o out n cur).1 := by
  intro n
  induction n with
  | zero =>
    intro l cur hv hl hc
    simp only [rescaleLoop, MgExec, rescales]
    simp only [Nat.cast_zero, Int.sub_zero, Int.zero_mul, Int.add_zero] at hc ⊢
    exact ⟨trivial, hc, hv, by simp, by simp⟩
  | succ n ih =>
    intro l cur hv hl hc
    have hsm : o.scaleMax = o.sf + 2 * o.sw := by simp [Opts.scaleMax, hk]
    obtain ⟨v1, v2, v3, v4⟩ := hv
    simp only [hsm] at v1 v2 v3 v4
    have hns : (((n + 1 : Nat) : Int)) * o.sf = n * o.sf + o.sf := by push_cast; ring
    rw [hns] at hc
    have hn0 : 0 ≤ (n : Int) * o.sf := by positivity
    push_cast at hl
    have hvv : ∀ a b : Int, (⟨a, b⟩ : Ct).Valid o ↔ 0 ≤ a ∧ a ≤ o.waterline ∧ 0 < b ∧ b ≤ o.sf + 2 * o.sw := by
      intro a b; rw [← hsm]; rfl
    have hmod : o.sf + 2 * o.sw - o.sf = 2 * o.sw := by ring
    rw [rescaleLoop]
    simp only [hmod]
    set target := min (2 * o.sw) (out + n * o.sf) with ht
    have t1 : target ≤ 2 * o.sw := min_le_left _ _
    have t2 : target ≤ out + n * o.sf := min_le_right _ _
    have t3 : target = 2 * o.sw ∨ target = out + n * o.sf := by rcases min_choice (2 * o.sw) (out + n * o.sf) with h | h <;> simp [ht, h]
    have t0 : 0 < target := by rcases t3 with h | h <;> omega
    have hsub : l - ((n + 1 : Nat) : Int) = l - 1 - n := by push_cast; ring
    rw [hsub]
    split
    · rename_i h
      simp only [Int.add_sub_cancel]
      obtain ⟨a, b, c, d, e⟩ := ih (l - 1) target ((hvv _ _).2 (by omega)) (by omega) (by omega)
      refine ⟨⟨?_, ?_, ?_, ?_, ?_⟩, b, c, ?_, ?_⟩
      · simp only [MgOk]; omega
      · simp only [mgStep]; rw [hvv]; omega
      · simp [MgOk]
      · simp only [mgStep]; rw [hvv]; omega
      · simpa [mgStep] using a
      · simp [rescales] at d ⊢; omega
      · simpa using e
    · rename_i h
      have hcur : cur - o.sf ≤ out + n * o.sf := by omega
      obtain ⟨a, b, c, d, e⟩ := ih (l - 1) (cur - o.sf) ((hvv _ _).2 (by omega)) (by omega) hcur
      refine ⟨⟨?_, ?_, ?_⟩, b, c, ?_, ?_⟩
      · simp [MgOk]
      · simp only [mgStep]; rw [hvv]; omega
      · simpa [mgStep] using a
      · simp [rescales] at d ⊢; omega
      · simpa using e

theorem rescaleCount_nonneg {o : Opts} (hsf : 0 < o.sf) (a b : Int) : 0 ≤ rescaleCount o a b := by
  unfold rescaleCount
  split
  · exact ceilDivPositive_nonneg hsf
  · exact le_refl _

/-- Decoding a transition for which there are enough levels succeeds and makes it. -/
theorem decodeDirect_spec {o : Opts} (hsf : 0 < o.sf) (hsw : 0 < o.sw) {il is ol os : Int}
    (hi : (⟨il, is⟩ : Ct).Valid o) (ho : (⟨ol, os⟩ : Ct).Valid o) (hn : ol + rescaleCount o is os ≤ il)
    (hf : o.ckks = false → is = os) :
    ∃ ms, decodeDirect o il is ol os = some ms ∧ MgExec o ⟨il, is⟩ ms ⟨ol, os⟩ ∧
      (rescales ms : Int) = rescaleCount o is os ∧ Mg.boot ∉ ms := by
  have hn0 := rescaleCount_nonneg hsf is os
  generalize hN : rescaleCount o is os = n at *
  have hlvl : (if ol + n < il then il - (il - ol - n) else il) - n = ol := by split <;> omega
  have hpre : MgExec o ⟨il, is⟩ (if ol + n < il then [Mg.drop (il - ol - n)] else []) ⟨ol + n, is⟩ := by
    split
    · refine ⟨by simp only [MgOk]; omega, ?_, ?_⟩
      · simp only [mgStep, Ct.Valid] at *; omega
      · simp only [mgStep, MgExec]; congr 1; omega
    · simp only [MgExec]; congr 1; omega
  have hv1 : (⟨ol + n, is⟩ : Ct).Valid o := by simp only [Ct.Valid] at *; omega
  have hloop : MgExec o ⟨ol + n, is⟩ (rescaleLoop o os n.toNat is).1 ⟨ol, (rescaleLoop o os n.toNat is).2⟩ ∧
      (rescaleLoop o os n.toNat is).2 ≤ os ∧ (⟨ol, (rescaleLoop o os n.toNat is).2⟩ : Ct).Valid o ∧
      (rescales (rescaleLoop o os n.toNat is).1 : Int) = n ∧ Mg.boot ∉ (rescaleLoop o os n.toNat is).1 ∧
      (o.ckks = false → (rescaleLoop o os n.toNat is).2 = os) := by
    cases hk : o.ckks with
    | false =>
      have : n = 0 := by rw [← hN]; simp [rescaleCount, hk]
      subst this
      have he := hf hk
      subst he
      simp only [Int.add_zero] at hv1 ⊢
      simp only [Int.toNat_zero, rescaleLoop, MgExec, rescales]
      exact ⟨trivial, le_refl _, hv1, by simp, by simp, fun _ => trivial⟩
    | true =>
      have hc : is ≤ os + n.toNat * o.sf := by
        have := le_ceilDivPositive (n := is - os) hsf
        have h' : ceilDivPositive (is - os) o.sf = n := by rw [← hN]; simp [rescaleCount, hk]
        rw [h'] at this
        rw [Int.toNat_of_nonneg hn0]
        omega
      have := rescaleLoop_spec hk hsf hsw (out := os) ho.2.2.1 n.toNat (ol + n) is hv1
        (by have h0 : 0 ≤ ol := ho.1
            rw [Int.toNat_of_nonneg hn0]; omega) hc
      rw [Int.toNat_of_nonneg hn0] at this
      have hsub : ol + n - n = ol := by omega
      rw [hsub] at this
      obtain ⟨a, b, c, d, e⟩ := this
      exact ⟨a, b, c, by rw [d]; exact Int.toNat_of_nonneg hn0, e, fun h => by simp at h⟩
  obtain ⟨a, b, c, d, e, f⟩ := hloop
  have hsc : (if (o.ckks && decide ((rescaleLoop o os n.toNat is).2 < os)) = true then os
      else (rescaleLoop o os n.toNat is).2) = os := by
    split
    · rfl
    · rename_i h
      cases hk : o.ckks with
      | false => exact f hk
      | true => simp [hk] at h; omega
  have hpost : MgExec o ⟨ol, (rescaleLoop o os n.toNat is).2⟩
      (if (o.ckks && decide ((rescaleLoop o os n.toNat is).2 < os)) = true then [Mg.adjust os] else []) ⟨ol, os⟩ := by
    split
    · rename_i h
      simp at h
      exact ⟨by simp only [MgOk]; omega, by simpa [mgStep] using ho, by simp [mgStep, MgExec]⟩
    · rename_i h
      rw [if_neg h] at hsc
      simp only [MgExec]
      rw [hsc]
  refine ⟨_, ?_, mgExec_append (mgExec_append hpre a) hpost, ?_, ?_⟩
  · unfold decodeDirect
    simp only [hN, hlvl, hsc]
    simp
  · refine Eq.trans ?_ d
    unfold rescales
    have h1 : ∀ x : Int, ([Mg.drop x].countP (· == .rescale)) = 0 := fun x => rfl
    have h2 : ∀ x : Int, ([Mg.adjust x].countP (· == .rescale)) = 0 := fun x => rfl
    simp only [List.countP_append]
    split <;> split <;> simp only [h1, h2, List.countP_nil, Nat.zero_add, Nat.add_zero]
  · simp only [List.mem_append, not_or]
    refine ⟨⟨?_, e⟩, ?_⟩ <;> split <;> simp

theorem rescaleCount_le {o : Opts} (hsf : 0 < o.sf) {a b r : Int} (hr : 0 ≤ r) (h : a - b ≤ r * o.sf) :
    rescaleCount o a b ≤ r := by
  unfold rescaleCount
  split
  · exact ceilDivPositive_le hsf hr h
  · exact hr

/-- A bootstrap, from the operands of an operation to its managed result. -/
theorem decodeBoot_spec {o : Opts} (hsf : 0 < o.sf) (hsw : 0 < o.sw) (hlb : 0 ≤ o.lower) {il is ol os : Int}
    (hi : (⟨il, is⟩ : Ct).Valid o) (ho : (⟨ol, os⟩ : Ct).Valid o) (hf : o.ckks = false → is = o.sf ∧ os = o.sf)
    (hb : is ≤ o.sf * (il - o.lower + 1)) (hll : o.lower ≤ il) (hos : o.sf ≤ os) :
    ∃ ms, decodeNode o il is ol os true = some ms ∧ MgExec o ⟨il, is⟩ ms ⟨ol, os⟩ ∧ ms.countP (· == .boot) = 1 := by
  have hsm : o.sf ≤ o.scaleMax := by
    unfold Opts.scaleMax
    split
    · omega
    · rename_i h; simp [Opts.sf, h]
  have hil : il ≤ o.waterline := hi.2.1
  have hol : 0 ≤ ol := ho.1
  have hol' : ol ≤ o.waterline := ho.2.1
  obtain ⟨pre, p1, p2, p3, p4⟩ := decodeDirect_spec (o := o) hsf hsw (il := il) (is := is) (ol := o.lower) (os := o.sf) hi
    ⟨hlb, by simp only; omega, hsf, hsm⟩
    (by have := rescaleCount_le (o := o) hsf (a := is) (b := o.sf) (r := il - o.lower) (by omega) (by
          have : (il - o.lower) * o.sf = o.sf * (il - o.lower + 1) - o.sf := by ring
          omega)
        omega) (fun h => (hf h).1)
  have hz : (if o.ckks = true then ceilDivPositive (o.sf - os) o.sf else 0) = 0 := by
    split
    · unfold ceilDivPositive; rw [if_pos (by omega)]
    · rfl
  have hcnt : rescaleCount o o.sf os = 0 := by unfold rescaleCount; exact hz
  obtain ⟨post, q1, q2, q3, q4⟩ := decodeDirect_spec (o := o) hsf hsw (il := ol) (is := o.sf) (ol := ol) (os := os)
    ⟨hol, hol', hsf, hsm⟩ ho (by omega) (fun h => ((hf h).2).symm)
  have hlev : (if ol < o.waterline then ol else o.waterline) = ol := by split <;> omega
  refine ⟨pre ++ [Mg.boot] ++ (if ol < o.waterline then [Mg.drop (o.waterline - ol)] else []) ++ post, ?_, ?_, ?_⟩
  · unfold decodeNode
    simp only [p1, Bool.not_true, Bool.false_eq_true, if_false, hz, Int.add_zero, Option.bind_some]
    rw [if_neg (by omega), hlev, q1]
    rfl
  · refine mgExec_append (mgExec_append (mgExec_append (c' := ⟨o.lower, o.sf⟩) (d := ⟨o.waterline, o.sf⟩) p2 ?_)
      (d := ⟨ol, o.sf⟩) ?_) q2
    · exact ⟨⟨le_refl _, rfl⟩, ⟨by simp only [mgStep]; omega, by simp only [mgStep]; omega, hsf, hsm⟩, rfl⟩
    · split
      · refine ⟨by simp only [MgOk]; omega, ⟨?_, ?_, ?_, ?_⟩, ?_⟩ <;> simp only [mgStep, MgExec]
        · omega
        · omega
        · exact hsf
        · exact hsm
        · congr 1; omega
      · simp only [mgStep, MgExec]; congr 1; omega
  · have h1 : List.countP (· == Mg.boot) pre = 0 := by
      rw [List.countP_eq_zero]; intro a ha h; simp at h; subst h; exact p4 ha
    have h2 : List.countP (· == Mg.boot) post = 0 := by
      rw [List.countP_eq_zero]; intro a ha h; simp at h; subst h; exact q4 ha
    simp only [List.countP_append, h1, h2]
    split <;> simp

end Heir.Place
