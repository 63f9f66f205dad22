/- Helper lemmas: the split of the dims, and mixed radix numbers. -/
import Verif.Rotom.Model
import Mathlib.Tactic.Ring
import Mathlib.Tactic.Linarith
import Mathlib.Algebra.Order.Ring.Int
import Mathlib.Algebra.BigOperators.Group.List.Lemmas

namespace Heir.Rotom

/-! ### Extents -/

theorem extent_nil : extent [] = 1 := rfl

theorem extent_cons (d : Dim) (ds : List Dim) : extent (d :: ds) = d.size * extent ds := by
  simp [extent]

theorem extent_append (a b : List Dim) : extent (a ++ b) = extent a * extent b := by
  simp [extent]

theorem extent_reverse (a : List Dim) : extent a.reverse = extent a := by
  induction a with
  | nil => rfl
  | cons d ds ih =>
    simp only [List.reverse_cons, extent_append, ih, extent_cons, extent_nil]
    rw [Nat.mul_one, Nat.mul_comm]

theorem extent_pos (a : List Dim) (h : ∀ d ∈ a, 0 < d.size) : 0 < extent a := by
  induction a with
  | nil => simp [extent_nil]
  | cons d ds ih =>
    rw [extent_cons]
    exact Nat.mul_pos (h d (by simp)) (ih (fun x hx => h x (by simp [hx])))

/-! ### The split -/

theorem dropOnes_split (rl : List Dim) : ∃ ones, rl = ones ++ dropOnes rl ∧ extent ones = 1 ∧
    (∀ h t, dropOnes rl = h :: t → h.size ≠ 1) := by
  induction rl with
  | nil => exact ⟨[], by simp [dropOnes], rfl, by simp [dropOnes]⟩
  | cons d ds ih =>
    by_cases h : d.size = 1
    · obtain ⟨ones, h1, h2, h3⟩ := ih
      refine ⟨d :: ones, ?_, ?_, ?_⟩
      · simp only [dropOnes, if_pos h, List.cons_append]
        rw [← h1]
      · rw [extent_cons, h, h2]
      · simp only [dropOnes, if_pos h]
        exact h3
    · refine ⟨[], ?_, rfl, ?_⟩
      · simp [dropOnes, h]
      · intro x t hx
        simp only [dropOnes, if_neg h, List.cons.injEq] at hx
        rw [← hx.1]; exact h

theorem takeFit_split (rl : List Dim) (r : Nat) (hr : 0 < r) (hs : ∀ d ∈ rl, 0 < d.size) :
    ∃ taken, rl = taken ++ dropOnes (takeFit rl r) ∧ extent taken ∣ r ∧
      (∀ h t, dropOnes (takeFit rl r) = h :: t → ¬ extent taken * h.size ∣ r) := by
  induction rl generalizing r with
  | nil => exact ⟨[], by simp [takeFit, dropOnes], by simp [extent_nil], by simp [takeFit, dropOnes]⟩
  | cons d ds ih =>
    have hd : 0 < d.size := hs d (by simp)
    by_cases h1 : r ≤ 1
    · have hr1 : r = 1 := by omega
      obtain ⟨ones, e1, e2, e3⟩ := dropOnes_split (d :: ds)
      have ht : takeFit (d :: ds) r = d :: ds := by simp [takeFit, h1]
      rw [ht]
      refine ⟨ones, e1, by rw [e2]; exact one_dvd _, ?_⟩
      intro h t hh
      rw [e2, Nat.one_mul, hr1]
      intro hdv
      exact e3 h t hh (Nat.dvd_one.mp hdv)
    · by_cases h2 : d.size ≤ r ∧ r % d.size = 0
      · have ht : takeFit (d :: ds) r = takeFit ds (r / d.size) := by
          simp only [takeFit, if_neg h1, if_neg (by omega : ¬ d.size = 0), if_pos h2]
        have hdv : d.size ∣ r := Nat.dvd_of_mod_eq_zero h2.2
        obtain ⟨taken, e1, e2, e3⟩ := ih (r / d.size) (Nat.div_pos h2.1 hd)
          (fun x hx => hs x (by simp [hx]))
        rw [ht]
        refine ⟨d :: taken, by rw [List.cons_append, ← e1], ?_, ?_⟩
        · rw [extent_cons]
          exact (Nat.dvd_div_iff_mul_dvd hdv).mp e2
        · intro h t hh hc
          apply e3 h t hh
          rw [Nat.dvd_div_iff_mul_dvd hdv]
          rw [extent_cons, Nat.mul_assoc] at hc
          exact hc
      · have ht : takeFit (d :: ds) r = d :: ds := by
          simp only [takeFit, if_neg h1, if_neg (by omega : ¬ d.size = 0), if_neg h2]
        have hnd : ¬ d.size ∣ r := by
          intro hdv
          exact h2 ⟨Nat.le_of_dvd hr hdv, Nat.mod_eq_zero_of_dvd hdv⟩
        have h1' : d.size ≠ 1 := by
          intro he; apply hnd; rw [he]; exact one_dvd _
        rw [ht]
        refine ⟨[], by simp [dropOnes, h1'], by simp [extent_nil], ?_⟩
        intro h t hh
        simp only [dropOnes, if_neg h1', List.cons.injEq] at hh
        rw [extent_nil, Nat.one_mul, ← hh.1]
        exact hnd

theorem ctLen_split (ds : List Dim) (n : Nat) (hn : 0 < n) (hs : ∀ d ∈ ds, 0 < d.size) :
    ctLen ds n ≤ ds.length ∧ extent (ds.drop (ctLen ds n)) ∣ n ∧
      ∀ i, i < ctLen ds n → ¬ extent (ds.drop i) ∣ n := by
  obtain ⟨taken, e1, e2, e3⟩ := takeFit_split ds.reverse n hn (fun d hd => hs d (by simpa using hd))
  have hds : ds = (dropOnes (takeFit ds.reverse n)).reverse ++ taken.reverse := by
    rw [← List.reverse_append, ← e1, List.reverse_reverse]
  have hl : ((dropOnes (takeFit ds.reverse n)).reverse).length = ctLen ds n := by
    simp [ctLen]
  generalize hrest : dropOnes (takeFit ds.reverse n) = rest at *
  have hdrop : ds.drop (ctLen ds n) = taken.reverse := by
    rw [← hl]
    conv_lhs => rw [hds]
    simp
  refine ⟨?_, ?_, ?_⟩
  · rw [← hl]; conv_rhs => rw [hds]
    simp
  · rw [hdrop, extent_reverse]; exact e2
  · intro i hi
    cases rest with
    | nil => simp at hl; omega
    | cons h t =>
      intro hc
      apply e3 h t rfl
      refine Nat.dvd_trans ?_ hc
      have hle : i ≤ t.reverse.length := by
        simp at hl; simp; omega
      have : ds.drop i = t.reverse.drop i ++ (h :: taken.reverse) := by
        conv_lhs => rw [hds]
        rw [List.reverse_cons, List.append_assoc, List.drop_append_of_le_length hle]
        simp
      rw [this, extent_append, extent_cons, extent_reverse]
      exact ⟨extent (t.reverse.drop i), by ring⟩

/-- A bound that is met by at most one length. -/
theorem ctLen_unique (ds : List Dim) (n k : Nat) (hn : 0 < n) (hs : ∀ d ∈ ds, 0 < d.size)
    (hk : extent (ds.drop k) ∣ n) (hm : ∀ i, i < k → ¬ extent (ds.drop i) ∣ n) :
    k = ctLen ds n := by
  obtain ⟨_, h2, h3⟩ := ctLen_split ds n hn hs
  rcases Nat.lt_trichotomy k (ctLen ds n) with h | h | h
  · exact absurd hk (h3 k h)
  · exact h
  · exact absurd h2 (hm _ h)

/-! ### Mixed radix numbers -/

/-- The product of the sizes of a list of digits. -/
def prodS (l : List (Nat × Int)) : Nat := (l.map (·.1)).prod

/-- The number spelled by a list of pairs of a size and a digit. -/
def mix : List (Nat × Int) → Int
  | [] => 0
  | (_, v) :: l => v * (prodS l : Int) + mix l

/-- Every digit is within its size. -/
def InR (l : List (Nat × Int)) : Prop := ∀ c ∈ l, 0 ≤ c.2 ∧ c.2 < c.1

theorem prodS_cons (c : Nat × Int) (l : List (Nat × Int)) : prodS (c :: l) = c.1 * prodS l := by
  simp [prodS]

theorem InR.tail {c : Nat × Int} {l : List (Nat × Int)} (h : InR (c :: l)) : InR l :=
  fun x hx => h x (by simp [hx])

theorem mix_bounds (l : List (Nat × Int)) (h : InR l) : 0 ≤ mix l ∧ mix l < prodS l := by
  induction l with
  | nil => simp [mix, prodS]
  | cons c l ih =>
    obtain ⟨s, v⟩ := c
    obtain ⟨h1, h2⟩ := ih h.tail
    obtain ⟨h3, h4⟩ := h (s, v) (by simp)
    simp only at h3 h4
    rw [mix, prodS_cons]
    push_cast
    have hp : (0 : Int) ≤ prodS l := Int.natCast_nonneg _
    constructor
    · have := mul_nonneg h3 hp; omega
    · have : (v + 1) * (prodS l : Int) ≤ s * prodS l := mul_le_mul_of_nonneg_right (by omega) hp
      rw [add_mul, one_mul] at this
      omega

theorem mix_inj (l l' : List (Nat × Int)) (h : InR l) (h' : InR l')
    (hs : l.map (·.1) = l'.map (·.1)) (he : mix l = mix l') : l = l' := by
  induction l generalizing l' with
  | nil => cases l' with
    | nil => rfl
    | cons c l' => simp at hs
  | cons c l ih =>
    cases l' with
    | nil => simp at hs
    | cons c' l' =>
      obtain ⟨s, v⟩ := c
      obtain ⟨s', v'⟩ := c'
      simp only [List.map_cons, List.cons.injEq] at hs
      obtain ⟨hs1, hs2⟩ := hs
      have hp : prodS l = prodS l' := by simp only [prodS, hs2]
      have b := mix_bounds l h.tail
      have b' := mix_bounds l' h'.tail
      rw [mix, mix, ← hp] at he
      rw [← hp] at b'
      have hpp : (0 : Int) < prodS l := by omega
      have hv : v = v' := by
        have e1 : (v * (prodS l : Int) + mix l) / (prodS l : Int) = v := by
          rw [Int.add_comm, Int.add_mul_ediv_right _ _ (ne_of_gt hpp), Int.ediv_eq_zero_of_lt b.1 b.2]
          simp
        have e2 : (v' * (prodS l : Int) + mix l') / (prodS l : Int) = v' := by
          rw [Int.add_comm, Int.add_mul_ediv_right _ _ (ne_of_gt hpp),
            Int.ediv_eq_zero_of_lt b'.1 b'.2]
          simp
        rw [← e1, he, e2]
      have ht : l = l' := by
        apply ih l' h.tail h'.tail hs2
        rw [hv] at he
        omega
      rw [hv, ht]
      exact congrArg (fun q => (q, v') :: l') hs1

theorem mix_onto (ss : List Nat) (x : Int) (h0 : 0 ≤ x) (h1 : x < (ss.prod : Nat)) :
    ∃ l : List (Nat × Int), l.map (·.1) = ss ∧ InR l ∧ mix l = x := by
  induction ss generalizing x with
  | nil =>
    refine ⟨[], rfl, by simp [InR], ?_⟩
    simp at h1
    simp only [mix]; omega
  | cons s ss ih =>
    rw [List.prod_cons] at h1
    push_cast at h1
    have hP : (0 : Int) < (ss.prod : Nat) := by
      by_contra hc
      have : ((ss.prod : Nat) : Int) = 0 := by omega
      rw [this] at h1
      simp at h1
      omega
    obtain ⟨l, e1, e2, e3⟩ := ih (x % ((ss.prod : Nat) : Int)) (Int.emod_nonneg _ (ne_of_gt hP))
      (Int.emod_lt_of_pos _ hP)
    have hp : prodS l = ss.prod := by simp only [prodS, e1]
    refine ⟨(s, x / ((ss.prod : Nat) : Int)) :: l, by simp [e1], ?_, ?_⟩
    · intro c hc
      simp only [List.mem_cons] at hc
      rcases hc with rfl | hc
      · exact ⟨Int.ediv_nonneg h0 (le_of_lt hP), Int.ediv_lt_of_lt_mul hP h1⟩
      · exact e2 c hc
    · rw [mix, e3, hp]
      have := Int.mul_ediv_add_emod x ((ss.prod : Nat) : Int)
      linarith [mul_comm ((ss.prod : Nat) : Int) (x / ((ss.prod : Nat) : Int))]

theorem prodS_append (a b : List (Nat × Int)) : prodS (a ++ b) = prodS a * prodS b := by
  simp [prodS]

/-! ### A permutation of an image -/

theorem perm_lift {α β : Type} (f : α → β) {l m : List β} (h : l.Perm m) :
    ∀ a : List α, a.map f = l → ∃ b : List α, b.Perm a ∧ b.map f = m := by
  induction h with
  | nil => intro a ha; exact ⟨a, List.Perm.refl _, ha⟩
  | cons x _ ih =>
    intro a ha
    cases a with
    | nil => simp at ha
    | cons y a =>
      simp only [List.map_cons, List.cons.injEq] at ha
      obtain ⟨b, hb, hm⟩ := ih a ha.2
      exact ⟨y :: b, hb.cons y, by simp [hm, ha.1]⟩
  | swap x y t =>
    intro a ha
    cases a with
    | nil => simp at ha
    | cons u a =>
      cases a with
      | nil => simp at ha
      | cons v a =>
        simp only [List.map_cons, List.cons.injEq] at ha
        exact ⟨v :: u :: a, List.Perm.swap _ _ _, by simp [ha]⟩
  | trans _ _ ih1 ih2 =>
    intro a ha
    obtain ⟨b, hb, hm⟩ := ih1 a ha
    obtain ⟨c, hc, hm2⟩ := ih2 b hm
    exact ⟨c, hc.trans hb, hm2⟩

end Heir.Rotom
