import Verif.Quart.Spec
import Mathlib.Data.BitVec
import Mathlib.Tactic.Ring
import Mathlib.Tactic.LinearCombination

/-! # Chunked arithmetic: properties C60 and C61 -/

namespace Heir.Quart

theorem toNat_lsb (c : Chunk) : (lsb c).toNat = c.toNat % 256 := by
  unfold lsb
  simp only [BitVec.toNat_setWidth]
  have := c.isLt
  omega

theorem toNat_msb (c : Chunk) : (msb c).toNat = c.toNat / 256 := by
  unfold msb
  simp [BitVec.toNat_ushiftRight, Nat.shiftRight_eq_div_pow]

/-- The loop from the second chunk on, with the carry of the chunk before. -/
def go : Chunk → List (Chunk × Chunk) → List Chunk
  | _, [] => []
  | c, (x, y) :: rest => (lsb (x + y) + c) :: go (msb (x + y)) rest

theorem addLoop_go (size : Nat) : ∀ (rest : List (Chunk × Chunk)) (i : Nat) (carries outputs : List Chunk)
    (c : Chunk), i + 1 + rest.length = size → carries.length = i → 
    addLoop size (i + 1) rest (carries ++ [c]) outputs = some (outputs ++ go c rest) := by
  intro rest
  induction rest with
  | nil => intro i carries outputs c _ _; simp [addLoop, go]
  | cons p rest ih =>
    intro i carries outputs c h1 h2
    obtain ⟨x, y⟩ := p
    simp only [List.length_cons] at h1
    simp only [addLoop, go]
    rw [if_neg (by omega)]
    have hc : (if i + 1 ≠ size - 1 then carries ++ [c] ++ [msb (x + y)] else carries ++ [c])[i + 1 - 1]?
        = some c := by
      have : (carries ++ [c])[i]? = some c := by
        rw [← h2]; simp
      split
      · rw [List.getElem?_append_left (by simp; omega)]; exact this
      · exact this
    rw [hc]
    simp only [Option.bind_some]
    by_cases hi : i + 1 = size - 1
    · have : rest = [] := List.length_eq_zero_iff.mp (by omega)
      subst this
      simp [addLoop, go]
    · rw [if_pos hi, ih (i + 1) (carries ++ [c]) _ _ (by omega) (by simp; omega)]
      simp

theorem addI_eq {l r : List Chunk} (h : l.length = r.length) :
    addI l r = some (match l.zip r with
      | [] => []
      | (x, y) :: rest => lsb (x + y) :: go (msb (x + y)) rest) := by
  unfold addI
  rw [if_neg (by omega)]
  have hl : (l.zip r).length = l.length := by rw [List.length_zip]; omega
  rw [← hl]
  cases l.zip r with
  | nil => rfl
  | cons p rest =>
    obtain ⟨x, y⟩ := p
    simp only [addLoop, List.nil_append]
    by_cases hn : rest = []
    · subst hn; simp [addLoop, go]
    · have hpos : 0 < rest.length := List.length_pos_iff.mpr hn
      have hne : 0 ≠ ((x, y) :: rest).length - 1 := by simp only [List.length_cons]; omega
      simp only [if_pos hne, if_true]
      have := addLoop_go (rest.length + 1) rest 0 [] [lsb (x + y)] (msb (x + y)) (by omega) rfl
      simpa using this

theorem go_length : ∀ (l : List (Chunk × Chunk)) (c : Chunk), (go c l).length = l.length := by
  intro l
  induction l with
  | nil => intro c; rfl
  | cons p l ih => intro c; simp [go, ih]

theorem go_small : ∀ (l : List (Chunk × Chunk)) (c : Chunk), c.toNat ≤ 2 →
    (∀ p ∈ l, p.1.toNat ≤ 257 ∧ p.2.toNat ≤ 257) → Small (go c l) := by
  intro l
  induction l with
  | nil => intro c _ _ d hd; simp [go] at hd
  | cons p l ih =>
    intro c hc h d hd
    obtain ⟨x, y⟩ := p
    have hp := h (x, y) (by simp)
    simp only [go, List.mem_cons] at hd
    rcases hd with rfl | hd
    · rw [BitVec.toNat_add, toNat_lsb]
      omega
    · refine ih _ ?_ (fun q hq => h q (List.mem_cons_of_mem _ hq)) d hd
      rw [toNat_msb, BitVec.toNat_add]
      simp only at hp
      omega

/-- The chunks of the sum have the value of the two operands together, up to multiples of
`256 ^ n`. -/
theorem go_val : ∀ (l r : List Chunk) (c : Chunk), l.length = r.length → c.toNat ≤ 255 →
    (∀ p ∈ l.zip r, p.1.toNat + p.2.toNat < 65536) →
    ∃ k : Nat, val (go c (l.zip r)) + k * 256 ^ l.length = c.toNat + val l + val r := by
  intro l
  induction l with
  | nil =>
    intro r c h _ _
    obtain rfl := List.length_eq_zero_iff.mp h.symm
    exact ⟨c.toNat, by simp [go, val]⟩
  | cons x l ih =>
    intro r c h hc hs
    cases r with
    | nil => simp at h
    | cons y r =>
      have hxy : x.toNat + y.toNat < 65536 := hs (x, y) (by simp)
      have hsum : (x + y).toNat = x.toNat + y.toNat := by rw [BitVec.toNat_add]; omega
      obtain ⟨k, hk⟩ := ih r (msb (x + y)) (by simpa using h)
        (by rw [toNat_msb, hsum]; omega)
        (fun p hp => hs p (by simp only [List.zip_cons_cons, List.mem_cons]; exact .inr hp))
      refine ⟨k, ?_⟩
      simp only [List.zip_cons_cons, go, val, List.length_cons]
      rw [toNat_msb, hsum] at hk
      have h1 : (lsb (x + y) + c).toNat = (x.toNat + y.toNat) % 256 + c.toNat := by
        rw [BitVec.toNat_add, toNat_lsb, hsum]; omega
      rw [h1, Nat.pow_succ]
      generalize val (go (msb (x + y)) (l.zip r)) = g at hk ⊢
      have : k * (256 ^ l.length * 256) = 256 * (k * 256 ^ l.length) := by ring
      rw [this]
      omega

theorem addI_val {l r : List Chunk} (h : l.length = r.length)
    (hs : ∀ p ∈ l.zip r, p.1.toNat + p.2.toNat < 65536) :
    ∃ out k, addI l r = some out ∧ out.length = l.length ∧
      val out + k * 256 ^ l.length = val l + val r := by
  obtain ⟨k, hk⟩ := go_val l r 0 h (by simp) hs
  refine ⟨go 0 (l.zip r), k, ?_, by rw [go_length, List.length_zip]; omega, by simpa using hk⟩
  rw [addI_eq h]
  cases l.zip r with
  | nil => rfl
  | cons p rest => simp [go]

theorem ofNat_of_val {w n : Nat} (hw : w ≤ 8 * n) {a b k : Nat} (h : a + k * 256 ^ n = b) :
    BitVec.ofNat w a = BitVec.ofNat w b := by
  apply BitVec.eq_of_toNat_eq
  rw [BitVec.toNat_ofNat, BitVec.toNat_ofNat, ← h]
  obtain ⟨m, hm⟩ : 2 ^ w ∣ 256 ^ n := by
    have : (256 : Nat) ^ n = 2 ^ (8 * n) := by rw [Nat.pow_mul]
    rw [this]
    exact Nat.pow_dvd_pow 2 hw
  rw [hm, show k * (2 ^ w * m) = 2 ^ w * (k * m) by ring, Nat.add_mul_mod_self_left]

/-- C60: one addition, as long as no chunk sum leaves 16 bits. -/
theorem C60_add {w : Nat} {l r : List Chunk} {x y : BitVec w} (hl : Denotes l x) (hr : Denotes r y)
    (hs : ∀ p ∈ l.zip r, p.1.toNat + p.2.toNat < 65536) :
    ∃ out, addI l r = some out ∧ Denotes out (x + y) := by
  obtain ⟨a1, a2, rfl⟩ := hl
  obtain ⟨b1, b2, rfl⟩ := hr
  obtain ⟨out, k, h1, h2, h3⟩ := addI_val (by omega) hs
  refine ⟨out, h1, by omega, by omega, ?_⟩
  rw [ofNat_of_val a2 h3, BitVec.ofNat_add]

/-- Sums of small chunks are small again. -/
theorem C60_small {l r out : List Chunk} (hl : Small l) (hr : Small r) (h : addI l r = some out) :
    Small out := by
  have hlen : l.length = r.length := by
    by_contra hne
    unfold addI at h
    rw [if_pos hne] at h
    simp at h
  have : out = go 0 (l.zip r) := by
    rw [addI_eq hlen] at h
    injection h with h
    subst h
    cases l.zip r with
    | nil => rfl
    | cons p rest => simp [go]
  rw [this]
  refine go_small _ _ (by simp) ?_
  intro p hp
  exact ⟨hl _ (List.of_mem_zip hp).1, hr _ (List.of_mem_zip hp).2⟩

/-- C60: any expression of additions over small chunks denotes the sum of its leaves. -/
theorem C60_chain {w : Nat} : ∀ e : Sum (List Chunk × BitVec w),
    e.All (fun a => Denotes a.1 a.2 ∧ Small a.1) →
    ∃ out, e.code = some out ∧ Denotes out e.total ∧ Small out := by
  intro e
  induction e with
  | leaf a => intro h; exact ⟨a.1, rfl, h⟩
  | add a b iha ihb =>
    intro h
    obtain ⟨x, h1, h2, h3⟩ := iha h.1
    obtain ⟨y, k1, k2, k3⟩ := ihb h.2
    obtain ⟨out, o1, o2⟩ := C60_add h2 k2 (by
      intro p hp
      have q1 := h3 _ (List.of_mem_zip hp).1
      have q2 := k3 _ (List.of_mem_zip hp).2
      omega)
    exact ⟨out, by simp [Sum.code, h1, k1, o1], o2, C60_small h3 k3 o1⟩

/-- 65535 + 1 + 511 as 24-bit numbers: the carry runs through a chunk of 256. -/
example : (Sum.add (.leaf ([255, 255, 0], (65535 : BitVec 24))) (.add (.leaf ([1, 0, 0], 1))
    (.leaf ([255, 1, 0], 511)))).code = some [255, 1, 1] ∧
    (65535 : BitVec 24) + (1 + 511) = 66047 ∧ val [255, 1, 1] = 66047 ∧
    addI [255, 255, 0] [1, 0, 0] = some [0, 256, 0] ∧
    Denotes [255, 255, 0] (65535 : BitVec 24) ∧ Small [255, 255, 0] := by
  refine ⟨by decide, by decide, by decide, by decide, ⟨by decide, by decide, by decide⟩, ?_⟩
  intro c hc
  simp only [List.mem_cons, List.not_mem_nil, or_false] at hc
  rcases hc with rfl | rfl | rfl <;> decide

/-! ## C61 -/

/-- The digits of a number. -/
theorem val_digits (v : Nat) : ∀ (n s : Nat) (f : Nat → Chunk),
    (∀ i, s ≤ i → i + 1 < s + n → (f i).toNat = v / 256 ^ i % 256) →
    (∀ i, s ≤ i → i < s + n → (f i).toNat % 256 = v / 256 ^ i % 256) →
    val ((List.range' s n).map f) % 256 ^ n = v / 256 ^ s % 256 ^ n := by
  intro n
  induction n with
  | zero => intro s f _ _; simp [Nat.mod_one]
  | succ n ih =>
    intro s f h1 h2
    simp only [List.range'_succ, List.map_cons, val]
    have e : v / 256 ^ s / 256 = v / 256 ^ (s + 1) := by rw [Nat.div_div_eq_div_mul, ← Nat.pow_succ]
    have hr : v / 256 ^ s % 256 ^ (n + 1) =
        v / 256 ^ s % 256 + 256 * (v / 256 ^ (s + 1) % 256 ^ n) := by
      rw [← e, Nat.pow_succ, Nat.mul_comm (256 ^ n) 256, Nat.mod_mul]
    have hl : ∀ a b : Nat, (a + 256 * b) % 256 ^ (n + 1) =
        ((a % 256) + 256 * ((a / 256 + b) % 256 ^ n)) := by
      intro a b
      rw [Nat.pow_succ, Nat.mul_comm (256 ^ n) 256, Nat.mod_mul]
      congr 1
      · omega
      · congr 2; omega
    rw [hr, hl]
    have q := h2 s (Nat.le_refl _) (by omega)
    rcases Nat.eq_zero_or_pos n with hn | hn
    · subst hn; simp only [Nat.pow_zero, Nat.mod_one]; omega
    · have p := h1 s (Nat.le_refl _) (by omega)
      have p0 : (f s).toNat / 256 = 0 := by rw [p]; omega
      rw [p0, Nat.zero_add, q, ih (s + 1) f (fun i hi hi' => h1 i (by omega) (by omega))
        (fun i hi hi' => h2 i (by omega) (by omega))]

theorem signExtend_toNat (b : BitVec 8) : (b.signExtend 16).toNat % 256 = b.toNat ∧
    (b.toNat < 128 → (b.signExtend 16).toNat = b.toNat) := by
  rw [BitVec.toNat_signExtend]
  have := b.isLt
  rw [BitVec.toNat_setWidth]
  cases hm : b.msb
  · simp only [Bool.false_eq_true, if_false]
    omega
  · simp only [if_true]
    rw [BitVec.msb_eq_decide] at hm
    simp only [decide_eq_true_eq] at hm
    omega

/-- C61: constants.

Partial: the width is a multiple of 8, and no chunk below the top one has its high bit set. -/
theorem C61_const_partial {w : Nat} {x : BitVec w} (h64 : w ≤ 64) (h8 : 8 ∣ w)
    (hx : ∀ i, 8 * (i + 1) < w → x.toNat / 256 ^ i % 256 < 128) :
    ∃ out, constant x = some out ∧ Denotes out x := by
  obtain ⟨n, rfl⟩ := h8
  have hn : (8 * n + 7) / 8 = n := by omega
  refine ⟨(List.range n).map fun i => (x.extractLsb' (8 * i) 8).signExtend 16, ?_, ?_, ?_, ?_⟩
  · unfold constant nbChunks
    rw [if_neg (by omega), hn]
    simp
  · simp
  · simp
  · have hd : ∀ i, (x.extractLsb' (8 * i) 8).toNat = x.toNat / 256 ^ i % 256 := by
      intro i
      rw [BitVec.extractLsb'_toNat, Nat.shiftRight_eq_div_pow, Nat.pow_mul]
    have key := val_digits x.toNat n 0 (fun i => (x.extractLsb' (8 * i) 8).signExtend 16)
      (fun i _ hi => by rw [(signExtend_toNat _).2 (by rw [hd]; exact hx i (by omega)), hd])
      (fun i _ hi => by rw [(signExtend_toNat _).1, hd])
    apply BitVec.eq_of_toNat_eq
    rw [BitVec.toNat_ofNat, List.range_eq_range', show (2 : Nat) ^ (8 * n) = 256 ^ n from by
      rw [Nat.pow_mul], key]
    simp only [Nat.pow_zero, Nat.div_one]
    have := x.isLt
    rw [Nat.pow_mul] at this
    exact Nat.mod_eq_of_lt this

example : (∀ i, 8 * (i + 1) < 16 → (0xFF7F : BitVec 16).toNat / 256 ^ i % 256 < 128) ∧
    constant (0xFF7F : BitVec 16) = some [0x7F, 0xFFFF] := by
  refine ⟨?_, by decide⟩
  intro i hi
  have : i = 0 := by omega
  subst this
  decide

/-- C61 is violated for the constant 255 of type i16: the low chunk is sign extended. -/
theorem C61_violated_const : ∃ out, constant (255 : BitVec 16) = some out ∧
    ¬ Denotes out (255 : BitVec 16) :=
  ⟨[0xFFFF, 0], by decide, fun h => absurd h.2.2 (by decide)⟩

/-- C61 is violated for widths that are not multiples of 8: the conversion asserts. -/
theorem C61_violated_const_width {w : Nat} (h : ¬ 8 ∣ w) (x : BitVec w) : constant x = none := by
  unfold constant nbChunks
  split
  · rfl
  · simp only [Option.bind_some]
    rw [if_neg (by omega)]

theorem val_append_zero : ∀ (l : List Chunk) (k : Nat), val (l ++ List.replicate k 0) = val l := by
  intro l
  induction l with
  | nil =>
    intro k
    induction k with
    | zero => rfl
    | succ k ih => simpa [List.replicate_succ, val] using ih
  | cons c l ih => intro k; simp only [List.cons_append, val]; rw [ih]

theorem ext_denotes {w w' : Nat} {l : List Chunk} {x : BitVec w} (hw : w ≤ w') (h64 : w' ≤ 64)
    (h : Denotes l x) : ∃ out, ext w w' l = some out ∧
      Denotes out (BitVec.ofNat w' (val l)) := by
  obtain ⟨h1, h2, -⟩ := h
  refine ⟨_, by unfold ext nbChunks; rw [if_neg (by omega), if_neg (by omega)]; rfl, ?_, ?_, ?_⟩
  · simp only [List.length_append, List.length_replicate]; omega
  · simp only [List.length_append, List.length_replicate]; omega
  · rw [val_append_zero]

/-- C61: zero extension.

Partial: the chunks denote a number in range, that is, they are not the result of an overflowing
addition. -/
theorem C61_extui_partial {w w' : Nat} {l : List Chunk} {x : BitVec w} (hw : w ≤ w') (h64 : w' ≤ 64)
    (h : Denotes l x) (hc : Canonical w l) :
    ∃ out, ext w w' l = some out ∧ Denotes out (x.setWidth w') := by
  obtain ⟨out, h1, h2⟩ := ext_denotes hw h64 h
  refine ⟨out, h1, ?_⟩
  have : BitVec.ofNat w' (val l) = x.setWidth w' := by
    obtain ⟨-, -, rfl⟩ := h
    apply BitVec.eq_of_toNat_eq
    rw [BitVec.toNat_setWidth, BitVec.toNat_ofNat, BitVec.toNat_ofNat, Nat.mod_eq_of_lt hc]
  rwa [← this]

/-- C61: sign extension.

Partial: as above, and of numbers that are not negative. -/
theorem C61_extsi_partial {w w' : Nat} {l : List Chunk} {x : BitVec w} (hw : w ≤ w') (h64 : w' ≤ 64)
    (h : Denotes l x) (hc : Canonical w l) (hx : x.msb = false) :
    ∃ out, ext w w' l = some out ∧ Denotes out (x.signExtend w') := by
  rw [BitVec.signExtend_eq_setWidth_of_msb_false hx]
  exact C61_extui_partial hw h64 h hc

example : ext 8 24 [0x7F] = some [0x7F, 0, 0] ∧ Denotes [0x7F] (0x7F : BitVec 8) ∧
    Canonical 8 [0x7F] ∧ (0x7F : BitVec 8).msb = false :=
  ⟨by decide, ⟨by decide, by decide, by decide⟩, by unfold Canonical; decide, by decide⟩

/-- C61 is violated for every negative number: the sign is lost. -/
theorem C61_violated_extsi {w w' : Nat} {l out : List Chunk} {x : BitVec w} (hw : w < w')
    (h64 : w' ≤ 64) (h : Denotes l x) (hc : Canonical w l) (hx : x.msb = true)
    (ho : ext w w' l = some out) : ¬ Denotes out (x.signExtend w') := by
  obtain ⟨out', h1, h2⟩ := C61_extui_partial (by omega) h64 h hc
  rw [ho] at h1
  injection h1 with h1
  subst h1
  intro hd
  have : x.setWidth w' = x.signExtend w' := h2.2.2.symm.trans hd.2.2
  have hm := congrArg (fun b => b.getLsbD w) this
  simp [BitVec.getElem_signExtend, hw, hx] at hm

/-- C61 is violated for sums that leave the width: 65535 + 1 in i16 is 0, extended to i24 it is
65536. -/
theorem C61_violated_extui : ∃ s out, addI [255, 255] [1, 0] = some s ∧ Denotes s (0 : BitVec 16) ∧
    ext 16 24 s = some out ∧ Denotes out (65536 : BitVec 24) :=
  ⟨[0, 256], [0, 256, 0], by decide, ⟨by decide, by decide, by decide⟩, by decide,
    ⟨by decide, by decide, by decide⟩⟩

/-- C61: the product up to the carries that the code drops. -/
theorem C61_mul_exact {l0 l1 l2 l3 r0 r1 r2 r3 : Chunk} : ∃ out,
    mulI [l0, l1, l2, l3] [r0, r1, r2, r3] = some out ∧ out.length = 4 ∧
    (val out + 65536 * (l0.toNat * r0.toNat / 65536)
      + 16777216 * ((l0.toNat * r1.toNat + l1.toNat * r0.toNat) / 65536)) % 4294967296 =
    val [l0, l1, l2, l3] * val [r0, r1, r2, r3] % 4294967296 := by
  refine ⟨_, rfl, rfl, ?_⟩
  have e1 : (l0 + l1) * (r0 + r1) - l0 * r0 - l1 * r1 = l0 * r1 + l1 * r0 := by ring
  have e2 : (l0 + l1) * (r2 + r3) - l0 * r2 - l1 * r3 + ((l2 + l3) * (r0 + r1) - l2 * r0 - l3 * r1)
      = l0 * r3 + l1 * r2 + l2 * r1 + l3 * r0 := by ring
  rw [e1, e2]
  simp only [val, BitVec.toNat_add, toNat_lsb, toNat_msb, BitVec.toNat_mul]
  have e3 : (l0.toNat + 256 * (l1.toNat + 256 * (l2.toNat + 256 * (l3.toNat + 256 * 0)))) *
      (r0.toNat + 256 * (r1.toNat + 256 * (r2.toNat + 256 * (r3.toNat + 256 * 0)))) =
      l0.toNat * r0.toNat + 256 * (l0.toNat * r1.toNat + l1.toNat * r0.toNat)
        + 65536 * (l0.toNat * r2.toNat + l2.toNat * r0.toNat + l1.toNat * r1.toNat)
        + 16777216 * (l0.toNat * r3.toNat + l1.toNat * r2.toNat + l2.toNat * r1.toNat
          + l3.toNat * r0.toNat)
        + 4294967296 * (l1.toNat * r3.toNat + l2.toNat * r2.toNat + l3.toNat * r1.toNat
          + 256 * (l2.toNat * r3.toNat + l3.toNat * r2.toNat + 256 * (l3.toNat * r3.toNat))) := by
    ring
  rw [e3]
  generalize l0.toNat * r0.toNat = p00
  generalize l0.toNat * r1.toNat = p01
  generalize l1.toNat * r0.toNat = p10
  generalize l0.toNat * r2.toNat = p02
  generalize l2.toNat * r0.toNat = p20
  generalize l1.toNat * r1.toNat = p11
  generalize l0.toNat * r3.toNat = p03
  generalize l1.toNat * r2.toNat = p12
  generalize l2.toNat * r1.toNat = p21
  generalize l3.toNat * r0.toNat = p30
  rw [Nat.add_mul_mod_self_left]
  omega

/-- C61: products of i25 to i32.

Partial: the first two columns of the schoolbook product stay within 16 bits. -/
theorem C61_mul_partial {w : Nat} {l0 l1 l2 l3 r0 r1 r2 r3 : Chunk} {x y : BitVec w}
    (hx : Denotes [l0, l1, l2, l3] x) (hy : Denotes [r0, r1, r2, r3] y)
    (h0 : l0.toNat * r0.toNat < 65536)
    (h1 : l0.toNat * r1.toNat + l1.toNat * r0.toNat < 65536) :
    ∃ out, mulI [l0, l1, l2, l3] [r0, r1, r2, r3] = some out ∧ Denotes out (x * y) := by
  obtain ⟨out, o1, o2, o3⟩ := C61_mul_exact (l0 := l0) (l1 := l1) (l2 := l2) (l3 := l3) (r0 := r0)
    (r1 := r1) (r2 := r2) (r3 := r3)
  obtain ⟨a1, a2, rfl⟩ := hx
  obtain ⟨-, -, rfl⟩ := hy
  simp only [List.length_cons, List.length_nil] at a1 a2
  refine ⟨out, o1, by omega, by omega, ?_⟩
  rw [Nat.div_eq_of_lt h0, Nat.div_eq_of_lt h1] at o3
  simp only [Nat.mul_zero, Nat.add_zero] at o3
  rw [← BitVec.ofNat_mul]
  apply BitVec.eq_of_toNat_eq
  rw [BitVec.toNat_ofNat, BitVec.toNat_ofNat]
  have hd : 2 ^ w ∣ 4294967296 := Nat.pow_dvd_pow 2 (show w ≤ 32 by omega)
  rw [← Nat.mod_mod_of_dvd _ hd, o3, Nat.mod_mod_of_dvd _ hd]

example : mulI [200, 100, 3, 0] [100, 200, 7, 1] = some [32, 158, 391, 304] ∧
    (200 * 200 + 100 * 100 < 65536) ∧ Denotes [200, 100, 3, 0] (222408 : BitVec 32) := by
  refine ⟨by decide, by decide, by decide, by decide, by decide⟩

/-- C61 is violated for 65535 * 65535: the carry out of the second column is dropped. -/
theorem C61_violated_mul : ∃ out, mulI [255, 255, 0, 0] [255, 255, 0, 0] = some out ∧
    Denotes [255, 255, 0, 0] (65535 : BitVec 32) ∧ ¬ Denotes out (65535 * 65535 : BitVec 32) :=
  ⟨_, rfl, ⟨by decide, by decide, by decide⟩, fun h => absurd h.2.2 (by decide)⟩

end Heir.Quart
