import Verif.Memref.CopySpec
import Mathlib.Tactic.Ring
import Mathlib.Data.List.Nodup

namespace Heir.Memref

open Heir.Lut (flattenIndex)

theorem loopValues_mem (d : Nat) (i : Int) : i ∈ loopValues d ↔ 0 ≤ i ∧ i < d := by
  unfold loopValues
  split
  · next h => simp only [List.mem_singleton]; omega
  · simp only [Int.toNat_natCast, List.mem_map, List.mem_range]
    constructor
    · rintro ⟨a, ha, rfl⟩
      simp only [Int.ofNat_eq_natCast]
      omega
    · rintro ⟨h1, h2⟩
      exact ⟨i.toNat, by omega, by simp only [Int.ofNat_eq_natCast]; omega⟩

theorem loopValues_nodup (d : Int) : (loopValues d).Nodup := by
  unfold loopValues
  split
  · simp
  · exact List.Nodup.map (fun a b h => by simpa using h) List.nodup_range

theorem nest_mem : ∀ (dims : List Nat) (is : List Int),
    is ∈ nest (dims.map Int.ofNat) ↔ InBounds dims is
  | [], is => by cases is <;> simp [nest, InBounds]
  | d :: ds, [] => by simp [nest, InBounds]
  | d :: ds, i :: is => by
    have := loopValues_mem d i
    simp only [List.map_cons, nest, List.mem_flatMap, List.mem_map, List.cons.injEq, InBounds]
    rw [← nest_mem ds is]
    simp only [Int.ofNat_eq_natCast] at this ⊢
    constructor
    · rintro ⟨a, h1, b, h2, rfl, rfl⟩
      have := this.1 h1
      exact ⟨this.1, this.2, h2⟩
    · rintro ⟨h1, h2, h3⟩
      exact ⟨i, this.2 ⟨h1, h2⟩, is, h3, rfl, rfl⟩

theorem copy_fold {V A : Type} [DecidableEq A] {src dst : List Int → A} :
    ∀ (l : List (List Int)), (∀ is ∈ l, ∀ js ∈ l, dst is = dst js → is = js) →
    (∀ is ∈ l, ∀ js ∈ l, dst is = src js → is = js) → ∀ mem : A → V,
    (∀ is ∈ l, l.foldl (copyStep src dst) mem (dst is) = mem (src is)) ∧
    ∀ x, (∀ is ∈ l, x ≠ dst is) → l.foldl (copyStep src dst) mem x = mem x
  | [], _, _, _ => ⟨by simp, by simp⟩
  | j :: l, h1, h2, mem => by
    obtain ⟨i1, i2⟩ := copy_fold l (fun a ha b hb => h1 a (by simp [ha]) b (by simp [hb]))
      (fun a ha b hb => h2 a (by simp [ha]) b (by simp [hb])) (copyStep src dst mem j)
    refine ⟨fun is his => ?_, fun x hx => ?_⟩
    · rw [List.foldl_cons]
      by_cases hl : is ∈ l
      · rw [i1 is hl]
        unfold copyStep
        split
        · next e => rw [h2 j (by simp) is (by simp [hl]) e.symm]
        · rfl
      · have : is = j := by
          rcases List.mem_cons.1 his with h | h
          · exact h
          · exact absurd h hl
        subst this
        rw [i2]
        · simp [copyStep]
        · intro js hjs e
          rw [h1 is (by simp) js (by simp [hjs]) e] at hl
          exact hl hjs
    · rw [List.foldl_cons, i2 x fun is his => hx is (by simp [his])]
      simp [copyStep, hx j (by simp)]

theorem shapeVals_static (dims : List Nat) : shapeVals (dims.map some) = dims.map Int.ofNat := by
  simp [shapeVals]

theorem foldr_pos_len : ∀ (ds is : List Nat), Within ds is → flattenedIndex ds is < ds.foldr (· * ·) 1
  | [], [], _ => by simp [flattenedIndex]
  | d :: ds, i :: is, h => by
    obtain ⟨h1, h2⟩ := h
    have := foldr_pos_len ds is h2
    simp only [flattenedIndex, List.foldr_cons]
    calc i * ds.foldr (· * ·) 1 + flattenedIndex ds is
        < i * ds.foldr (· * ·) 1 + ds.foldr (· * ·) 1 := by omega
      _ = (i + 1) * ds.foldr (· * ·) 1 := by ring
      _ ≤ d * ds.foldr (· * ·) 1 := Nat.mul_le_mul_right _ h1
  | [], _ :: _, h => h.elim
  | _ :: _, [], h => h.elim

theorem element_eq {V : Type} : ∀ (ds is : List Nat) (vals : List V), Within ds is →
    vals.length = ds.foldr (· * ·) 1 → element vals ds is = vals[flattenedIndex ds is]?
  | [], [], vals, _, _ => by simp [element, flattenedIndex, List.head?_eq_getElem?]
  | d :: ds, i :: is, vals, h, hl => by
    obtain ⟨h1, h2⟩ := h
    have hlt := foldr_pos_len ds is h2
    simp only [List.foldr_cons] at hl
    have hs : vals.length / d = ds.foldr (· * ·) 1 := by
      rw [hl, Nat.mul_div_cancel_left _ (by omega)]
    have hle : (i + 1) * ds.foldr (· * ·) 1 ≤ d * ds.foldr (· * ·) 1 := Nat.mul_le_mul_right _ h1
    rw [Nat.add_mul, Nat.one_mul] at hle
    simp only [element, flattenedIndex, hs]
    rw [element_eq ds is _ h2 (by rw [List.length_take, List.length_drop]; omega),
      List.getElem?_take, if_pos hlt, List.getElem?_drop]
  | [], _ :: _, _, h, _ => h.elim
  | _ :: _, [], _, h, _ => h.elim

theorem flattenIndex_shift : ∀ (is ss : List Int) (a b : Int),
    flattenIndex (a + b) is ss = (flattenIndex b is ss).map (a + ·)
  | is, [], a, b => by simp [flattenIndex]
  | [], _ :: _, a, b => by simp [flattenIndex]
  | i :: is, s :: ss, a, b => by
    simp only [flattenIndex]
    rw [add_assoc, flattenIndex_shift]

theorem flatten_rowMajor : ∀ (ds is : List Nat), Within ds is →
    flattenIndex 0 (is.map Int.ofNat) (rowMajor ds) = some (flattenedIndex ds is : Int)
  | [], [], _ => rfl
  | d :: ds, i :: is, h => by
    simp only [List.map_cons, rowMajor, flattenIndex]
    rw [zero_add, ← add_zero ((Int.ofNat i) * _), flattenIndex_shift, flatten_rowMajor ds is h.2]
    simp [flattenedIndex]
  | [], _ :: _, h => h.elim
  | _ :: _, [], h => h.elim

end Heir.Memref
