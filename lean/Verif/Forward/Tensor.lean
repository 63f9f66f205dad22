import Verif.Forward.Spec
import Mathlib.Tactic.Ring
import Mathlib.Tactic.Linarith
import Mathlib.Algebra.Order.Ring.Nat
import Mathlib.Algebra.BigOperators.Group.List.Basic
import Mathlib.Tactic.Positivity

/-! # Positions in tensors -/

namespace Heir.Forward

theorem rowMajor_cons {d : Nat} {ds : List Nat} {i : Int} {is : List Int} {k : Nat} :
    rowMajor (d :: ds) (i :: is) = some k ↔
      (0 ≤ i ∧ i < d) ∧ ∃ k', rowMajor ds is = some k' ∧ k = i.toNat * ds.prod + k' := by
  rw [rowMajor]
  split
  · rename_i h
    rw [Option.map_eq_some_iff]
    constructor
    · rintro ⟨k', h1, h2⟩; exact ⟨h, k', h1, h2.symm⟩
    · rintro ⟨-, k', h1, h2⟩; exact ⟨k', h1, h2.symm⟩
  · rename_i h
    constructor
    · intro hh; exact absurd hh (by simp)
    · rintro ⟨hh, -⟩; exact absurd hh h

theorem rowMajor_lt : ∀ {s : List Nat} {is : List Int} {k : Nat}, rowMajor s is = some k →
    k < s.prod ∧ s.length = is.length
  | [], [], k, h => by
    injection h with h
    subst h
    simp
  | d :: ds, i :: is, k, h => by
    obtain ⟨⟨h1, h2⟩, k', h3, h4⟩ := rowMajor_cons.1 h
    obtain ⟨l1, l2⟩ := rowMajor_lt h3
    refine ⟨?_, by simp [l2]⟩
    rw [List.prod_cons, h4]
    have : i.toNat + 1 ≤ d := by omega
    calc i.toNat * ds.prod + k' < i.toNat * ds.prod + ds.prod := by omega
      _ = (i.toNat + 1) * ds.prod := by ring
      _ ≤ d * ds.prod := Nat.mul_le_mul_right _ this
  | [], _ :: _, k, h => absurd h (by simp [rowMajor])
  | _ :: _, [], k, h => absurd h (by simp [rowMajor])

theorem rowMajor_inj : ∀ {s : List Nat} {is js : List Int} {k : Nat}, rowMajor s is = some k →
    rowMajor s js = some k → is = js
  | [], [], [], _, _, _ => rfl
  | d :: ds, i :: is, j :: js, k, h, h' => by
    obtain ⟨⟨h1, h2⟩, k', h3, h4⟩ := rowMajor_cons.1 h
    obtain ⟨⟨g1, g2⟩, k'', g3, g4⟩ := rowMajor_cons.1 h'
    have l1 := (rowMajor_lt h3).1
    have l2 := (rowMajor_lt g3).1
    have e : i.toNat = j.toNat := by
      have e1 : k / ds.prod = i.toNat := by
        rw [h4, Nat.mul_comm, Nat.mul_add_div (by omega), Nat.div_eq_of_lt l1]; rfl
      have e2 : k / ds.prod = j.toNat := by
        rw [g4, Nat.mul_comm, Nat.mul_add_div (by omega), Nat.div_eq_of_lt l2]; rfl
      omega
    have e' : k' = k'' := by rw [e] at h4; omega
    subst e'
    rw [rowMajor_inj h3 g3, show i = j by omega]
  | [], [], _ :: _, _, _, h => absurd h (by simp [rowMajor])
  | [], _ :: _, _, _, h, _ => absurd h (by simp [rowMajor])
  | _ :: _, [], _, _, h, _ => absurd h (by simp [rowMajor])
  | _ :: _, _ :: _, [], _, _, h => absurd h (by simp [rowMajor])

/-- Least significant first. -/
def lsd : List Int → List Nat → Int
  | i :: is, d :: ds => i + d * lsd is ds
  | _, _ => 0

def InRange : List Int → List Nat → Prop
  | i :: is, d :: ds => (0 ≤ i ∧ i < d) ∧ InRange is ds
  | [], [] => True
  | _, _ => False

theorem lsd_append : ∀ {is : List Int} {ds : List Nat} {i : Int} {d : Nat}, is.length = ds.length →
    lsd (is ++ [i]) (ds ++ [d]) = lsd is ds + ds.prod * i
  | [], [], i, d, _ => by simp [lsd]
  | x :: is, y :: ds, i, d, h => by
    simp only [List.cons_append, lsd, lsd_append (Nat.succ.inj h), List.prod_cons]
    push_cast
    ring
  | [], _ :: _, _, _, h => absurd h (by simp)
  | _ :: _, [], _, _, h => absurd h (by simp)

theorem inRange_append : ∀ {is : List Int} {ds : List Nat} {i : Int} {d : Nat},
    InRange is ds → 0 ≤ i → i < d → InRange (is ++ [i]) (ds ++ [d])
  | [], [], _, _, _, h1, h2 => ⟨⟨h1, h2⟩, trivial⟩
  | _ :: _, _ :: _, _, _, h, h1, h2 => ⟨h.1, inRange_append h.2 h1 h2⟩
  | [], _ :: _, _, _, h, _, _ => h.elim
  | _ :: _, [], _, _, h, _, _ => h.elim

theorem rowMajor_lsd : ∀ {s : List Nat} {is : List Int} {k : Nat}, rowMajor s is = some k →
    lsd is.reverse s.reverse = k ∧ InRange is.reverse s.reverse
  | [], [], k, h => by
    injection h with h
    subst h
    simp [lsd, InRange]
  | d :: ds, i :: is, k, h => by
    obtain ⟨⟨h1, h2⟩, k', h3, h4⟩ := rowMajor_cons.1 h
    obtain ⟨e1, e2⟩ := rowMajor_lsd h3
    have l := (rowMajor_lt h3).2
    simp only [List.reverse_cons]
    refine ⟨?_, inRange_append e2 h1 h2⟩
    rw [lsd_append (by simp [l]), e1, h4, List.prod_reverse]
    push_cast
    rw [Int.toNat_of_nonneg h1]
    ring
  | [], _ :: _, k, h => absurd h (by simp [rowMajor])
  | _ :: _, [], k, h => absurd h (by simp [rowMajor])

theorem toInt32_id {z : Int} (h : 0 ≤ z) (h' : z < 2147483648) : toInt32 z = z := by
  unfold toInt32; omega

theorem flattenLoop_eq : ∀ {is : List Int} {ds : List Nat} {f s : Int}, InRange is ds → 0 ≤ f → f < s →
    s * ds.prod < 2147483648 → flattenLoop is ds f s = f + s * lsd is ds
  | [], [], f, s, _, _, _, _ => by simp [flattenLoop, lsd]
  | i :: is, d :: ds, f, s, h, hf, hs, hp => by
    obtain ⟨⟨h1, h2⟩, h3⟩ := h
    have pos : ∀ {is : List Int} {ds : List Nat}, InRange is ds → 0 < ds.prod := by
      intro is
      induction is with
      | nil => intro ds h; cases ds with
        | nil => simp
        | cons _ _ => exact h.elim
      | cons i is ih => intro ds h; cases ds with
        | nil => exact h.elim
        | cons d ds =>
          rw [List.prod_cons]
          exact Nat.mul_pos (by have := h.1; omega) (ih h.2)
    have p := pos h3
    have hd : (0 : Int) < d := by omega
    rw [List.prod_cons] at hp
    push_cast at hp
    have pz : (1 : Int) ≤ (ds.prod : Nat) := by exact_mod_cast p
    have b1 : s * d ≤ s * (d * (ds.prod : Nat)) := by
      have : (d : Int) * 1 ≤ d * (ds.prod : Nat) := Int.mul_le_mul_of_nonneg_left pz (by omega)
      rw [mul_one] at this
      exact Int.mul_le_mul_of_nonneg_left this (by omega)
    have b2 : f + i * s < s * d := by
      have : i * s ≤ (d - 1) * s := Int.mul_le_mul_of_nonneg_right (by omega) (by omega)
      nlinarith
    have b3 : 0 ≤ i * s := Int.mul_nonneg h1 (by omega)
    have b4 : s * d < 2147483648 := by push_cast at *; omega
    have b5 : 0 ≤ s * d := Int.mul_nonneg (by omega) (by omega)
    simp only [flattenLoop, lsd]
    rw [toInt32_id (by omega) (by omega), toInt32_id b5 b4,
      flattenLoop_eq h3 (by omega) b2 (by push_cast at *; rw [Int.mul_assoc]; exact hp)]
    ring
  | [], _ :: _, _, _, h, _, _, _ => h.elim
  | _ :: _, [], _, _, h, _, _, _ => h.elim

theorem getFlattenedIndex_eq {s : List Nat} {is : List Int} {k : Nat} (h : rowMajor s is = some k)
    (hs : s.prod < 2147483648) : getFlattenedIndex s is = some (k : Int) := by
  have l := (rowMajor_lt h).2
  obtain ⟨e1, e2⟩ := rowMajor_lsd h
  unfold getFlattenedIndex
  rw [if_neg (by omega), List.take_of_length_le (by omega),
    flattenLoop_eq e2 le_rfl (by norm_num) (by rw [List.prod_reverse]; omega), e1]
  simp

theorem attrPosition_eq {s : List Nat} {is : List Int} {k : Nat} (h : rowMajor s is = some k)
    (hs : ∀ d ∈ s, d < 9223372036854775808) : attrPosition s is = k ∧ isValidIndex s is = true := by
  have key : ∀ {s : List Nat} {is : List Int} {k : Nat} (acc : Nat), rowMajor s is = some k →
      (∀ d ∈ s, d < 9223372036854775808) →
      (is.zip s).foldl (fun acc p => acc * p.2 + (p.1 % 18446744073709551616).toNat) acc =
        acc * s.prod + k ∧
      (is.zip s).all (fun p => decide (p.1 % 18446744073709551616 < p.2)) = true := by
    intro s
    induction s with
    | nil =>
      intro is k acc h _
      cases is with
      | nil => injection h with h; subst h; simp
      | cons _ _ => exact absurd h (by simp [rowMajor])
    | cons d ds ih =>
      intro is k acc h hd
      cases is with
      | nil => exact absurd h (by simp [rowMajor])
      | cons i is =>
        obtain ⟨⟨h1, h2⟩, k', h3, h4⟩ := rowMajor_cons.1 h
        have hdd := hd d List.mem_cons_self
        have em : i % 18446744073709551616 = i := Int.emod_eq_of_lt h1 (by omega)
        obtain ⟨i1, i2⟩ := ih (acc * d + i.toNat) h3 (fun x hx => hd x (List.mem_cons_of_mem _ hx))
        refine ⟨?_, ?_⟩
        · simp only [List.zip_cons_cons, List.foldl_cons, em, i1, h4, List.prod_cons]
          ring
        · simp only [List.zip_cons_cons, List.all_cons, em, i2, Bool.and_true, decide_eq_true_eq]
          exact h2
  obtain ⟨k1, k2⟩ := key 0 h hs
  refine ⟨by unfold attrPosition; rw [k1]; simp, ?_⟩
  unfold isValidIndex
  rw [k2, (rowMajor_lt h).2]
  simp

theorem constInts_eval {env : Nat → Int} : ∀ {l : List Idx} {is : List Int}, constInts l = some is →
    l.map (Idx.eval env) = is
  | [], is, h => by injection h
  | .const z :: l, is, h => by
    obtain ⟨is', h1, rfl⟩ := Option.map_eq_some_iff.1 h
    rw [List.map_cons, constInts_eval h1]
    rfl
  | .val _ :: _, _, h => absurd h (by simp [constInts])

end Heir.Forward
