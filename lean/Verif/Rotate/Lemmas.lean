import Verif.Rotate.Spec
import Mathlib.Data.Int.ModEq
import Mathlib.Data.Nat.Prime.Basic
import Mathlib.Tactic.Ring
import Mathlib.Data.Nat.Prime.Pow
import Mathlib.Data.Nat.Totient

namespace Heir.Rotate

variable {α : Type}

theorem rotated_congr {n : Nat} {s t : Int} (h : s ≡ t [ZMOD n]) (v : Nat → α) :
    rotated n s v = rotated n t v := by
  funext f
  unfold rotated
  rw [show (((f % n : Nat) + s) % n : Int) = ((f % n : Nat) + t) % n from h.add_left _]

theorem rotated_zero {n : Nat} (hn : 0 < n) (v : Nat → α) : rotated n 0 v = v := by
  funext f
  unfold rotated
  congr 1
  rw [add_zero, Int.emod_eq_of_lt (by omega) (by exact_mod_cast Nat.mod_lt f hn), Int.toNat_natCast]
  rw [mul_comm]; exact Nat.div_add_mod f n

theorem rotPos_lt {n : Nat} (hn : 0 < n) (c : Int) : (c % n).toNat < n := by
  have := Int.emod_nonneg c (b := n) (by omega)
  have := Int.emod_lt_of_pos c (b := n) (by omega)
  omega

theorem rotated_rotated {n : Nat} (hn : 0 < n) (a b : Int) (v : Nat → α) :
    rotated n a (rotated n b v) = rotated n (a + b) v := by
  funext f
  unfold rotated
  set k := (((f % n : Nat) + a) % n : Int).toNat with hk
  have hlt : k < n := rotPos_lt hn _
  have h1 : (f / n * n + k) / n = f / n := by
    rw [mul_comm, Nat.mul_add_div hn, Nat.div_eq_of_lt hlt, add_zero]
  have h2 : (f / n * n + k) % n = k := by
    rw [mul_comm, Nat.mul_add_mod, Nat.mod_eq_of_lt hlt]
  rw [h1, h2]
  congr 2
  have : (k : Int) = ((f % n : Nat) + a) % n := by
    have := Int.emod_nonneg ((f % n : Nat) + a) (b := n) (by omega)
    omega
  rw [this, Int.emod_add_emod, add_assoc]

theorem rotated_bin {n : Nat} (s : Int) (op : α → α → α) (x y : Nat → α) :
    rotated n s (fun f => op (x f) (y f)) = fun f => op (rotated n s x f) (rotated n s y f) := rfl

theorem rotated_const {n : Nat} (s : Int) (x : α) :
    rotated n s (fun _ => x) = fun _ => x := rfl

theorem rotated_pos_lt {sh : Shape} {f : Nat} (hf : f < sh.size) (c : Int) :
    f / sh.last * sh.last + (c % sh.last).toNat < sh.size := by
  unfold Shape.size at *
  have hn : 0 < sh.last := by
    rcases Nat.eq_zero_or_pos sh.last with h | h
    · rw [h] at hf; simp at hf
    · exact h
  have h1 : f / sh.last < sh.lead.prod := Nat.div_lt_of_lt_mul (by rwa [mul_comm] at hf)
  have h2 := rotPos_lt hn c
  calc _ < f / sh.last * sh.last + sh.last := by omega
    _ = (f / sh.last + 1) * sh.last := by ring
    _ ≤ _ := Nat.mul_le_mul_right _ h1

/-! ### Agreement -/

theorem Agree.refl {sh : Shape} {x : Option (Nat → α)} (h : x.isSome) : Agree sh x x := by
  obtain ⟨u, rfl⟩ := Option.isSome_iff_exists.1 h
  exact ⟨u, u, rfl, rfl, fun _ _ => rfl⟩

theorem Agree.rotate {sh : Shape} {x y : Option (Nat → α)} (h : Agree sh x y) (s : Int) :
    Agree sh (x.map (rotated sh.last s)) (y.map (rotated sh.last s)) := by
  obtain ⟨u, v, rfl, rfl, h⟩ := h
  exact ⟨_, _, rfl, rfl, fun f hf => h _ (rotated_pos_lt hf _)⟩

theorem Agree.bin {sh : Shape} {x y x' y' : Option (Nat → α)} (op : α → α → α)
    (h : Agree sh x x') (h' : Agree sh y y') :
    Agree sh (x.bind fun x => y.map fun y f => op (x f) (y f))
      (x'.bind fun x => y'.map fun y f => op (x f) (y f)) := by
  obtain ⟨u, v, rfl, rfl, h⟩ := h
  obtain ⟨u', v', rfl, rfl, h'⟩ := h'
  exact ⟨_, _, rfl, rfl, fun f hf => by simp only [h f hf, h' f hf]⟩

theorem Agree.trans {sh : Shape} {x y z : Option (Nat → α)} (h : Agree sh x y) (h' : Agree sh y z) :
    Agree sh x z := by
  obtain ⟨u, v, rfl, rfl, h⟩ := h
  obtain ⟨u', v', e, rfl, h'⟩ := h'
  cases e
  exact ⟨_, _, rfl, rfl, fun f hf => (h f hf).trans (h' f hf)⟩

theorem value_isSome {sh : Shape} (hs : 0 < sh.size) {e : TExpr α} (h : e.WF sh) :
    (e.value sh).isSome := by
  induction e with
  | leaf v => rfl
  | splat x => rfl
  | dense l =>
    simp only [TExpr.value]
    rw [dif_pos ⟨h, hs⟩]; rfl
  | rotate t s ih => simpa [TExpr.value] using ih h
  | bin op a b iha ihb =>
    obtain ⟨u, hu⟩ := Option.isSome_iff_exists.1 (iha h.1)
    obtain ⟨v, hv⟩ := Option.isSome_iff_exists.1 (ihb h.2)
    simp [TExpr.value, hu, hv]

/-! ### Shift arithmetic -/

theorem toInt_modEq {w n : Nat} (hn : n ∣ 2 ^ w) (x : BitVec w) : x.toInt ≡ x.toNat [ZMOD n] := by
  have h : x.toInt ≡ x.toNat [ZMOD (2 ^ w : Nat)] := by
    rw [BitVec.toInt_eq_toNat_bmod]
    exact Int.bmod_emod
  exact h.of_dvd (by exact_mod_cast hn)

theorem toInt_add_modEq {w n : Nat} (hn : n ∣ 2 ^ w) (x y : BitVec w) :
    (x + y).toInt ≡ x.toInt + y.toInt [ZMOD n] := by
  have h : (x + y).toInt ≡ x.toInt + y.toInt [ZMOD (2 ^ w : Nat)] := by
    rw [BitVec.toInt_add]
    exact Int.bmod_emod
  exact h.of_dvd (by exact_mod_cast hn)

theorem toInt_add_of_fits {w : Nat} (x y : BitVec w) (h1 : -2 ^ w ≤ 2 * (x.toInt + y.toInt))
    (h2 : 2 * (x.toInt + y.toInt) < 2 ^ w) : (x + y).toInt = x.toInt + y.toInt := by
  rw [BitVec.toInt_add]
  have : ((2 ^ w : Nat) : Int) = 2 ^ w := by norm_cast
  apply Int.bmod_eq_of_le_mul_two <;> omega

theorem addi_ok {a b c : Sh} (h : addi a b = .ok c) :
    ∃ e : b.w = a.w, c = ⟨a.w, a.v + b.v.cast e, a.const && b.const⟩ := by
  unfold addi at h
  split at h
  · rename_i e
    exact ⟨e, by injection h with h; exact h.symm⟩
  · cases h

theorem toInt_cast {w w' : Nat} (e : w = w') (x : BitVec w) : (x.cast e).toInt = x.toInt := by
  subst e; rfl

theorem addi_modEq {a b c : Sh} (h : addi a b = .ok c) {n : Nat} (hn : n ∣ 2 ^ a.w) :
    c.w = a.w ∧ c.v.toInt ≡ a.v.toInt + b.v.toInt [ZMOD n] := by
  obtain ⟨e, rfl⟩ := addi_ok h
  refine ⟨rfl, ?_⟩
  have := toInt_add_modEq hn a.v (b.v.cast e)
  rwa [toInt_cast] at this

theorem addi_exact {a b c : Sh} (h : addi a b = .ok c)
    (h1 : -2 ^ a.w ≤ 2 * (a.v.toInt + b.v.toInt)) (h2 : 2 * (a.v.toInt + b.v.toInt) < 2 ^ a.w) :
    c.v.toInt = a.v.toInt + b.v.toInt := by
  obtain ⟨e, rfl⟩ := addi_ok h
  have := toInt_add_of_fits a.v (b.v.cast e)
  rw [toInt_cast] at this
  exact this h1 h2

theorem bind_ok {β γ : Type} {x : Res β} {f : β → Res γ} {c : γ} (h : x.bind f = .ok c) :
    ∃ b, x = .ok b ∧ f b = .ok c := by
  cases x with
  | ok b => exact ⟨b, rfl, h⟩
  | noMatch => cases h
  | invalid => cases h
  | ub => cases h

/-! ### Constant folding -/

theorem sourceIndex_ok {n i : Nat} {s : Int} {k : Nat} (h : sourceIndex n i s = some k)
    (hn0 : 0 < n) (hn : n < 2 ^ 63)
    (hd : n ∣ 2 ^ 64 ∨ 0 ≤ i + s + n) : (k : Int) = (i + s) % n := by
  unfold sourceIndex at h
  split at h
  · rename_i hr
    injection h with h
    rw [← h, BitVec.toNat_umod, BitVec.toNat_add, BitVec.toNat_ofInt, BitVec.toNat_ofNat,
      Nat.mod_eq_of_lt (a := n) (by omega)]
    push_cast
    have h0 := Int.emod_nonneg (i + s : Int) (b := 2 ^ 64) (by omega)
    rw [Int.toNat_of_nonneg (by simpa using h0)]
    rcases hd with hd | hd
    · have hd' : (n : Int) ∣ 2 ^ 64 := by exact_mod_cast hd
      have e1 : ((i + s : Int) % 2 ^ 64 + n) % 2 ^ 64 ≡ i + s + n [ZMOD (2 ^ 64)] := by
        rw [Int.emod_add_emod]; exact Int.mod_modEq _ _
      have e2 := (e1.of_dvd hd').trans (Int.add_modulus_modEq_iff.2 rfl : i + s + n ≡ i + s [ZMOD n])
      exact e2
    · rw [Int.emod_add_emod, Int.emod_eq_of_lt (a := i + s + n) hd (by omega), Int.add_emod_right]
  · cases h

theorem sourceIndex_lt {n i : Nat} {s : Int} {k : Nat} (h : sourceIndex n i s = some k)
    (hn0 : 0 < n) (hn : n < 2 ^ 63) : k < n := by
  unfold sourceIndex at h
  split at h
  · injection h with h
    rw [← h, BitVec.toNat_umod, BitVec.toNat_ofNat, Nat.mod_eq_of_lt (a := n) (by omega)]
    exact Nat.mod_lt _ hn0
  · cases h

theorem mapM_option_getElem {β γ : Type} {f : β → Option γ} {l : List β} {r : List γ}
    (h : l.mapM f = some r) : r.length = l.length ∧ ∀ i (h1 : i < l.length) (h2 : i < r.length),
      f l[i] = some r[i] := by
  induction l generalizing r with
  | nil => 
    simp at h
    subst h
    simp
  | cons a l ih =>
    rw [List.mapM_cons] at h
    simp only [Option.bind_eq_bind, Option.bind_eq_some_iff, Option.pure_def, Option.some.injEq] at h
    obtain ⟨b, hb, r', hr', rfl⟩ := h
    obtain ⟨e, g⟩ := ih hr'
    refine ⟨by simp [e], fun i h1 h2 => ?_⟩
    cases i with
    | zero => exact hb
    | succ i => exact g i (by simpa using h1) (by simpa using h2)

theorem rotateAttr_ok {l r : List α} {s : Int} (h : rotateAttrValues l s = some r) :
    ∃ hl : r.length = l.length, ∀ i (hi : i < l.length),
      ∃ k, sourceIndex l.length i s = some k ∧ l[k]? = some (r[i]'(by omega)) := by
  unfold rotateAttrValues at h
  obtain ⟨e, g⟩ := mapM_option_getElem h
  rw [List.length_range] at e
  refine ⟨e, fun i hi => ?_⟩
  have := g i (by simpa using hi) (by omega)
  rw [List.getElem_range] at this
  obtain ⟨k, hk, hk2⟩ := Option.bind_eq_some_iff.1 this
  exact ⟨k, hk, hk2⟩

theorem dense_value {sh : Shape} {l : List α} (hs : 0 < sh.size) (hl : l.length = sh.size) :
    (TExpr.dense l).value sh = some fun f => l[f % sh.size]'(by rw [hl]; exact Nat.mod_lt _ hs) := by
  simp only [TExpr.value]
  rw [dif_pos ⟨hl, hs⟩]

/-- Folding a constant whose elements fill one row. -/
theorem fold_row {sh : Shape} {l r : List α} {s : Int} (hs : 0 < sh.size) (hn : sh.size < 2 ^ 63)
    (hl : l.length = sh.size) (hp : sh.lead.prod = 1) (h : rotateAttrValues l s = some r)
    (hd : sh.last ∣ 2 ^ 64 ∨ 0 ≤ s + sh.last) :
    Agree sh (((TExpr.dense l).value sh).map (rotated sh.last s)) ((TExpr.dense r).value sh) := by
  obtain ⟨e, g⟩ := rotateAttr_ok h
  have hsz : sh.size = sh.last := by unfold Shape.size; rw [hp, one_mul]
  rw [dense_value hs hl, dense_value hs (e.trans hl)]
  refine ⟨_, _, rfl, rfl, fun f hf => ?_⟩
  obtain ⟨k, hk, hk2⟩ := g f (by omega)
  rw [hl, hsz] at hk
  have hf' : f < sh.last := by omega
  have := sourceIndex_ok hk (by omega) (by omega) (hd.imp_right (by omega))
  unfold rotated
  rw [Nat.div_eq_of_lt hf', Nat.mod_eq_of_lt hf', ← this]
  have hkn : k < sh.last := sourceIndex_lt hk (by omega) (by omega)
  obtain ⟨hk3, hk4⟩ := List.getElem?_eq_some_iff.1 hk2
  simp only [zero_mul, zero_add, Int.toNat_natCast, hsz, Nat.mod_eq_of_lt hkn, Nat.mod_eq_of_lt hf']
  exact hk4

/-- Folding a constant that repeats one element. -/
theorem fold_uniform {sh : Shape} {l r : List α} {s : Int} {x : α} (hs : 0 < sh.size)
    (hl : l.length = sh.size) (hx : ∀ y ∈ l, y = x) (h : rotateAttrValues l s = some r) :
    Agree sh (((TExpr.dense l).value sh).map (rotated sh.last s)) ((TExpr.dense r).value sh) ∧
      ∀ y ∈ r, y = x := by
  obtain ⟨e, g⟩ := rotateAttr_ok h
  have hr : ∀ y ∈ r, y = x := by
    intro y hy
    obtain ⟨i, hi, rfl⟩ := List.getElem_of_mem hy
    obtain ⟨k, -, hk⟩ := g i (by omega)
    exact hx _ (List.mem_of_getElem? hk)
  refine ⟨?_, hr⟩
  rw [dense_value hs hl, dense_value hs (e.trans hl)]
  refine ⟨_, _, rfl, rfl, fun f _ => ?_⟩
  unfold rotated
  exact (hx _ (List.getElem_mem _)).trans (hr _ (List.getElem_mem _)).symm

theorem splat_agree {sh : Shape} {x : α} (hs : 0 < sh.size) :
    Agree sh ((TExpr.splat x).value sh) ((TExpr.dense (List.replicate sh.size x)).value sh) := by
  rw [dense_value hs (by simp)]
  exact ⟨_, _, rfl, rfl, fun f _ => by simp⟩

end Heir.Rotate
