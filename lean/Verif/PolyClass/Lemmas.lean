import Verif.PolyClass.Spec
import Mathlib.Algebra.Polynomial.Eval.Degree
import Mathlib.Tactic.LinearCombination
import Mathlib.Tactic.Ring

/-! # Lemmas on the polynomial classes -/

namespace Heir.PolyClass

open Heir.Loop Polynomial

variable {R : Type} [CommRing R]

/-! ## Denotation -/

@[simp] theorem toPoly_nil : toPoly ([] : List (Nat × R)) = 0 := rfl

@[simp] theorem toPoly_cons (x : Nat × R) (p : List (Nat × R)) :
    toPoly (x :: p) = monomial x.1 x.2 + toPoly p := by simp [toPoly]

theorem toPoly_append (p q : List (Nat × R)) : toPoly (p ++ q) = toPoly p + toPoly q := by simp [toPoly]

theorem Increasing.tail {x : Nat × R} {p : List (Nat × R)} (h : Increasing (x :: p)) : Increasing p :=
  (List.pairwise_cons.1 h).2

theorem Increasing.head {x : Nat × R} {p : List (Nat × R)} (h : Increasing (x :: p)) :
    ∀ y ∈ p, x.1 < y.1 := fun y hy => (List.pairwise_cons.1 h).1 y.1 (List.mem_map_of_mem hy)

theorem increasing_cons {x : Nat × R} {p : List (Nat × R)} (h : Increasing p) (hx : ∀ y ∈ p, x.1 < y.1) :
    Increasing (x :: p) := by
  refine List.pairwise_cons.2 ⟨fun e he => ?_, h⟩
  obtain ⟨y, hy, rfl⟩ := List.mem_map.1 he
  exact hx y hy

theorem coeff_absent {p : List (Nat × R)} {k : Nat} (h : ∀ x ∈ p, x.1 ≠ k) : (toPoly p).coeff k = 0 := by
  induction p with
  | nil => simp
  | cons x p ih =>
    rw [toPoly_cons, coeff_add, coeff_monomial, if_neg (h x (by simp)), zero_add]
    exact ih fun y hy => h y (by simp [hy])

theorem coeff_mem {p : List (Nat × R)} (hp : Increasing p) {x : Nat × R} (hx : x ∈ p) :
    (toPoly p).coeff x.1 = x.2 := by
  induction p with
  | nil => simp at hx
  | cons y p ih =>
    rw [toPoly_cons, coeff_add, coeff_monomial]
    rcases List.mem_cons.1 hx with rfl | hx'
    · rw [if_pos rfl, coeff_absent fun z hz => (hp.head z hz).ne', add_zero]
    · rw [if_neg (hp.head x hx').ne, zero_add, ih hp.tail hx']

theorem last_max {p : List (Nat × R)} (hp : Increasing p) {l : Nat × R} (hl : p.getLast? = some l) :
    ∀ x ∈ p, x.1 ≤ l.1 := by
  induction p with
  | nil => simp at hl
  | cons y p ih =>
    cases p with
    | nil =>
      simp only [List.getLast?_singleton, Option.some.injEq] at hl
      subst hl; simp
    | cons z p =>
      rw [List.getLast?_cons_cons] at hl
      intro x hx
      rcases List.mem_cons.1 hx with rfl | hx
      · have h1 := hp.head z (by simp)
        have h2 := ih hp.tail hl z (by simp)
        omega
      · exact ih hp.tail hl x hx

theorem natDegree_le {p : List (Nat × R)} (hp : Increasing p) {l : Nat × R} (hl : p.getLast? = some l) :
    (toPoly p).natDegree ≤ l.1 := by
  rw [natDegree_le_iff_coeff_eq_zero]
  intro N hN
  exact coeff_absent fun x hx => by have := last_max hp hl x hx; omega

theorem natDegree_eq {p : List (Nat × R)} (hp : Canonical p) {l : Nat × R} (hl : p.getLast? = some l) :
    (toPoly p).natDegree = l.1 ∧ (toPoly p).leadingCoeff = l.2 := by
  have hm := List.mem_of_getLast? hl
  have hc := coeff_mem hp.1 hm
  have : (toPoly p).natDegree = l.1 :=
    natDegree_eq_of_le_of_coeff_ne_zero (natDegree_le hp.1 hl) (by rw [hc]; exact hp.2 _ hm)
  exact ⟨this, by rw [leadingCoeff, this, hc]⟩

theorem toPoly_eq_zero_iff {p : List (Nat × R)} (hp : Canonical p) : toPoly p = 0 ↔ p = [] := by
  constructor
  · intro h
    cases p with
    | nil => rfl
    | cons x p =>
      have := coeff_mem hp.1 (x := x) (by simp)
      rw [h, coeff_zero] at this
      exact absurd this.symm (hp.2 x (by simp))
  · rintro rfl; rfl

/-- Canonical terms are determined by the polynomial. -/
theorem canonical_unique {p q : List (Nat × R)} (hp : Canonical p) (hq : Canonical q)
    (h : toPoly p = toPoly q) : p = q := by
  have key : ∀ {p q : List (Nat × R)}, Canonical p → Canonical q → toPoly p = toPoly q → ∀ x ∈ p, x ∈ q := by
    intro p q hp hq h x hx
    by_contra hn
    have h1 := coeff_mem hp.1 hx
    by_cases hex : ∃ y ∈ q, y.1 = x.1
    · obtain ⟨y, hy, hyx⟩ := hex
      have h2 := coeff_mem hq.1 hy
      rw [hyx, ← h, h1] at h2
      exact hn (by rwa [show x = y from Prod.ext hyx.symm h2])
    · rw [h, coeff_absent fun y hy he => hex ⟨y, hy, he⟩] at h1
      exact hp.2 x hx h1.symm
  have hnd : ∀ {p : List (Nat × R)}, Increasing p → p.Nodup := fun h =>
    List.Nodup.of_map Prod.fst (h.imp fun h => h.ne)
  have hperm : p.Perm q := (List.perm_ext_iff_of_nodup (hnd hp.1) (hnd hq.1)).2 fun x =>
    ⟨key hp hq h x, key hq hp h.symm x⟩
  have hs : ∀ {p : List (Nat × R)}, Increasing p → p.Pairwise (fun x y => x.1 < y.1) := fun h =>
    List.pairwise_map.1 h
  refine List.Perm.eq_of_pairwise (fun a b _ _ h1 h2 => ?_) (hs hp.1) (hs hq.1) hperm
  omega

section
variable [DecidableEq R]

/-! ## Canonicalization -/

theorem toPoly_canonicalize (p : Terms R) : toPoly (canonicalize p) = toPoly p := by
  induction p with
  | nil => rfl
  | cons x p ih =>
    unfold canonicalize at ih ⊢
    by_cases hx : x.2 = 0
    · rw [List.filter_cons_of_neg (by simpa using hx), ih, toPoly_cons, hx]; simp
    · rw [List.filter_cons_of_pos (by simpa using hx), toPoly_cons, toPoly_cons, ih]

theorem canonicalize_canonical {p : Terms R} (hp : Increasing p) : Canonical (canonicalize p) := by
  refine ⟨List.Pairwise.sublist (List.Sublist.map _ List.filter_sublist) hp, fun x hx => ?_⟩
  simpa using (List.mem_filter.1 hx).2

/-! ## Addition -/

theorem addAux_sound (f : Bool) (p q r : Terms R) (h : addAux f p q = some r) :
    toPoly r = toPoly p + toPoly q := by
  fun_induction addAux f p q generalizing r with
  | case1 => simp only [Option.some.injEq] at h; subst h; simp
  | case2 f b q ih =>
    obtain ⟨r', h1, h2⟩ := Option.bind_eq_some_iff.1 h
    cases h2
    rw [toPoly_cons, ih r' h1]; simp
  | case3 f a p ih =>
    obtain ⟨r', h1, h2⟩ := Option.bind_eq_some_iff.1 h
    cases h2
    rw [toPoly_cons, ih r' h1]; simp
  | case4 f a p b q _ ih =>
    obtain ⟨r', h1, h2⟩ := Option.bind_eq_some_iff.1 h
    cases h2
    rw [toPoly_cons, ih r' h1]; simp only [toPoly_cons]; ring
  | case5 f a p b q _ _ ih =>
    obtain ⟨r', h1, h2⟩ := Option.bind_eq_some_iff.1 h
    cases h2
    rw [toPoly_cons, ih r' h1]; simp only [toPoly_cons]; ring
  | case6 f a p b q _ _ he ih =>
    obtain ⟨r', h1, h2⟩ := Option.bind_eq_some_iff.1 h
    injection h2 with h2
    have hr := ih r' h1
    have hm : monomial a.1 a.2 + monomial b.1 b.2 = monomial a.1 (a.2 + b.2) := by
      rw [← he, ← map_add]
    split at h2
    · next h0 =>
      subst h2
      rw [h0, map_zero] at hm
      rw [hr, toPoly_cons, toPoly_cons]
      linear_combination -hm
    · subst h2
      rw [toPoly_cons, toPoly_cons, toPoly_cons, hr]
      linear_combination -hm
  | case7 => cases h

theorem addAux_mem (f : Bool) (p q r : Terms R) (h : addAux f p q = some r) :
    ∀ x ∈ r, (∃ y ∈ p, y.1 = x.1) ∨ (∃ y ∈ q, y.1 = x.1) := by
  fun_induction addAux f p q generalizing r with
  | case1 => simp only [Option.some.injEq] at h; subst h; simp
  | case2 f b q ih =>
    obtain ⟨r', h1, h2⟩ := Option.bind_eq_some_iff.1 h
    cases h2
    intro x hx
    rcases List.mem_cons.1 hx with rfl | hx
    · exact .inr ⟨_, by simp, rfl⟩
    · exact (ih r' h1 x hx).imp (fun ⟨y, hy, e⟩ => ⟨y, by first | exact hy | exact List.mem_cons_of_mem _ hy, e⟩)
        (fun ⟨y, hy, e⟩ => ⟨y, by first | exact hy | exact List.mem_cons_of_mem _ hy, e⟩)
  | case3 f a p ih =>
    obtain ⟨r', h1, h2⟩ := Option.bind_eq_some_iff.1 h
    cases h2
    intro x hx
    rcases List.mem_cons.1 hx with rfl | hx
    · exact .inl ⟨_, by simp, rfl⟩
    · exact (ih r' h1 x hx).imp (fun ⟨y, hy, e⟩ => ⟨y, by first | exact hy | exact List.mem_cons_of_mem _ hy, e⟩)
        (fun ⟨y, hy, e⟩ => ⟨y, by first | exact hy | exact List.mem_cons_of_mem _ hy, e⟩)
  | case4 f a p b q _ ih =>
    obtain ⟨r', h1, h2⟩ := Option.bind_eq_some_iff.1 h
    cases h2
    intro x hx
    rcases List.mem_cons.1 hx with rfl | hx
    · exact .inl ⟨_, by simp, rfl⟩
    · exact (ih r' h1 x hx).imp (fun ⟨y, hy, e⟩ => ⟨y, by first | exact hy | exact List.mem_cons_of_mem _ hy, e⟩)
        (fun ⟨y, hy, e⟩ => ⟨y, by first | exact hy | exact List.mem_cons_of_mem _ hy, e⟩)
  | case5 f a p b q _ _ ih =>
    obtain ⟨r', h1, h2⟩ := Option.bind_eq_some_iff.1 h
    cases h2
    intro x hx
    rcases List.mem_cons.1 hx with rfl | hx
    · exact .inr ⟨_, by simp, rfl⟩
    · exact (ih r' h1 x hx).imp (fun ⟨y, hy, e⟩ => ⟨y, by first | exact hy | exact List.mem_cons_of_mem _ hy, e⟩)
        (fun ⟨y, hy, e⟩ => ⟨y, by first | exact hy | exact List.mem_cons_of_mem _ hy, e⟩)
  | case6 f a p b q _ _ he ih =>
    obtain ⟨r', h1, h2⟩ := Option.bind_eq_some_iff.1 h
    injection h2 with h2
    intro x hx
    have key : x ∈ r' → (∃ y ∈ a :: p, y.1 = x.1) ∨ (∃ y ∈ b :: q, y.1 = x.1) := fun hx => by
      exact (ih r' h1 x hx).imp (fun ⟨y, hy, e⟩ => ⟨y, by first | exact hy | exact List.mem_cons_of_mem _ hy, e⟩)
        (fun ⟨y, hy, e⟩ => ⟨y, by first | exact hy | exact List.mem_cons_of_mem _ hy, e⟩)
    split at h2
    · subst h2; exact key hx
    · subst h2
      rcases List.mem_cons.1 hx with rfl | hx
      · exact .inl ⟨a, by simp, rfl⟩
      · exact key hx
  | case7 => cases h

theorem addAux_canonical (f : Bool) (p q r : Terms R) (h : addAux f p q = some r)
    (hp : Increasing p) (hq : Increasing q) :
    Increasing r ∧ (NoZero p → NoZero q → NoZero r) := by
  fun_induction addAux f p q generalizing r with
  | case1 => simp only [Option.some.injEq] at h; subst h; exact ⟨hp, fun h _ => h⟩
  | case2 f b q ih =>
    obtain ⟨r', h1, h2⟩ := Option.bind_eq_some_iff.1 h
    cases h2
    obtain ⟨i1, i2⟩ := ih r' h1 hp hq.tail
    refine ⟨increasing_cons i1 fun y hy => ?_, fun n1 n2 x hx => ?_⟩
    · rcases addAux_mem _ _ _ _ h1 y hy with ⟨z, hz, he⟩ | ⟨z, hz, he⟩
      · simp at hz
      · rw [← he]; exact hq.head z hz
    · rcases List.mem_cons.1 hx with rfl | hx
      · exact n2 x (by simp)
      · exact i2 n1 (fun y hy => n2 y (by simp [hy])) x hx
  | case3 f a p ih =>
    obtain ⟨r', h1, h2⟩ := Option.bind_eq_some_iff.1 h
    cases h2
    obtain ⟨i1, i2⟩ := ih r' h1 hp.tail hq
    refine ⟨increasing_cons i1 fun y hy => ?_, fun n1 n2 x hx => ?_⟩
    · rcases addAux_mem _ _ _ _ h1 y hy with ⟨z, hz, he⟩ | ⟨z, hz, he⟩
      · rw [← he]; exact hp.head z hz
      · simp at hz
    · rcases List.mem_cons.1 hx with rfl | hx
      · exact n1 x (by simp)
      · exact i2 (fun y hy => n1 y (by simp [hy])) n2 x hx
  | case4 f a p b q hlt ih =>
    obtain ⟨r', h1, h2⟩ := Option.bind_eq_some_iff.1 h
    cases h2
    obtain ⟨i1, i2⟩ := ih r' h1 hp.tail hq
    refine ⟨increasing_cons i1 fun y hy => ?_, fun n1 n2 x hx => ?_⟩
    · rcases addAux_mem _ _ _ _ h1 y hy with ⟨z, hz, he⟩ | ⟨z, hz, he⟩
      · rw [← he]; exact hp.head z hz
      · rw [← he]
        rcases List.mem_cons.1 hz with rfl | hz
        · exact hlt.2
        · have := hq.head z hz; omega
    · rcases List.mem_cons.1 hx with rfl | hx
      · exact n1 x (by simp)
      · exact i2 (fun y hy => n1 y (by simp [hy])) n2 x hx
  | case5 f a p b q _ hlt ih =>
    obtain ⟨r', h1, h2⟩ := Option.bind_eq_some_iff.1 h
    cases h2
    obtain ⟨i1, i2⟩ := ih r' h1 hp hq.tail
    refine ⟨increasing_cons i1 fun y hy => ?_, fun n1 n2 x hx => ?_⟩
    · rcases addAux_mem _ _ _ _ h1 y hy with ⟨z, hz, he⟩ | ⟨z, hz, he⟩
      · rw [← he]
        rcases List.mem_cons.1 hz with rfl | hz
        · exact hlt
        · have := hp.head z hz; omega
      · rw [← he]; exact hq.head z hz
    · rcases List.mem_cons.1 hx with rfl | hx
      · exact n2 x (by simp)
      · exact i2 n1 (fun y hy => n2 y (by simp [hy])) x hx
  | case6 f a p b q _ _ he ih =>
    obtain ⟨r', h1, h2⟩ := Option.bind_eq_some_iff.1 h
    injection h2 with h2
    obtain ⟨i1, i2⟩ := ih r' h1 hp.tail hq.tail
    have i2' : NoZero (a :: p) → NoZero (b :: q) → NoZero r' := fun n1 n2 =>
      i2 (fun y hy => n1 y (by simp [hy])) (fun y hy => n2 y (by simp [hy]))
    split at h2
    · subst h2; exact ⟨i1, i2'⟩
    · next hne =>
      subst h2
      refine ⟨increasing_cons i1 fun y hy => ?_, fun n1 n2 x hx => ?_⟩
      · rcases addAux_mem _ _ _ _ h1 y hy with ⟨z, hz, he'⟩ | ⟨z, hz, he'⟩
        · rw [← he']; exact hp.head z hz
        · rw [← he']; have := hq.head z hz; simp only; omega
      · rcases List.mem_cons.1 hx with rfl | hx
        · exact hne
        · exact i2' n1 n2 x hx
  | case7 => cases h

/-- The inputs of `add` that trip the assertion: some exponent `a` of `p` lies strictly between
two consecutive exponents `b < c` of `q`, and `b` is not an exponent of `p`. -/
def Clash (P Q : List Nat) : Prop :=
  ∃ a ∈ P, ∃ b ∈ Q, ∃ c ∈ Q, b < a ∧ a < c ∧ b ∉ P ∧ ∀ x ∈ Q, ¬ (b < x ∧ x < c)

theorem addAux_none_iff (f : Bool) (p q : Terms R) (hp : Increasing p) (hq : Increasing q) :
    (f = false → (addAux f p q = none ↔ Clash (p.map Prod.fst) (q.map Prod.fst))) ∧
    (f = true → ∀ b0, (∀ x ∈ p, b0 < x.1) → (∀ x ∈ q, b0 < x.1) →
      (addAux f p q = none ↔ Clash (p.map Prod.fst) (b0 :: q.map Prod.fst))) := by
  fun_induction addAux f p q with
  | case1 => simp [Clash]
  | case2 f b q ih =>
    have := (ih hp hq.tail).1 rfl
    have h0 : addAux false ([] : Terms R) q = none ↔ False := by rw [this]; simp [Clash]
    simp only [Option.bind_eq_bind, Option.bind_eq_none_iff]
    have h1 : ∀ a ∈ addAux false ([] : Terms R) q, ¬ False := fun _ _ => id
    have h2 : (∀ a, addAux false ([] : Terms R) q = some a → some (b :: a) = (none : Option (Terms R))) ↔ False := by
      constructor
      · intro h
        cases hx : addAux false ([] : Terms R) q with
        | none => exact h0.1 hx
        | some r => exact absurd (h r hx) (by simp)
      · exact False.elim
    rw [h2]
    simp [Clash]
  | case3 f a p ih =>
    have := (ih hp.tail hq).1 rfl
    have h0 : addAux false p ([] : Terms R) = none ↔ False := by rw [this]; simp [Clash]
    have h2 : ((do let r ← addAux false p []; some (a :: r)) = (none : Option (Terms R))) ↔ False := by
      constructor
      · intro h
        cases hx : addAux false p ([] : Terms R) with
        | none => exact h0.1 hx
        | some r => rw [hx] at h; simp at h
      · exact False.elim
    rw [h2]
    refine ⟨fun _ => by simp [Clash], fun _ b0 _ _ => ?_⟩
    constructor
    · exact False.elim
    · rintro ⟨x, hx, b, hb, c, hc, h1, h2, -⟩
      simp only [List.map_nil, List.mem_singleton] at hb hc
      omega
  | case4 f a p b q hlt ih =>
    have h0 := (ih hp.tail hq).1 rfl
    have hf : f = false := hlt.1
    subst hf
    refine ⟨fun _ => ?_, fun h => by cases h⟩
    have hb : ((do let r ← addAux false p (b :: q); some (a :: r)) = (none : Option (Terms R))) ↔
        addAux false p (b :: q) = none := by cases addAux false p (b :: q) <;> simp
    rw [hb, h0]
    have hmin : ∀ e ∈ (b :: q).map Prod.fst, a.1 < e := by
      intro e he
      obtain ⟨y, hy, rfl⟩ := List.mem_map.1 he
      rcases List.mem_cons.1 hy with rfl | hy
      · exact hlt.2
      · have := hq.head y hy; have := hlt.2; omega
    constructor
    · rintro ⟨x, hx, y, hy, c, hc, h1, h2, h3, h4⟩
      refine ⟨x, by simp only [List.map_cons, List.mem_cons]; exact .inr hx, y, hy, c, hc, h1, h2, ?_, h4⟩
      simp only [List.map_cons, List.mem_cons, not_or]
      exact ⟨by have := hmin y hy; omega, h3⟩
    · rintro ⟨x, hx, y, hy, c, hc, h1, h2, h3, h4⟩
      simp only [List.map_cons (l := p), List.mem_cons (l := p.map Prod.fst), not_or] at hx h3
      rcases hx with rfl | hx
      · have := hmin y hy; omega
      · exact ⟨x, hx, y, hy, c, hc, h1, h2, h3.2, h4⟩
  | case5 f a p b q hn hlt ih =>
    have hmp : ∀ x ∈ a :: p, b.1 < x.1 := by
      intro x hx
      rcases List.mem_cons.1 hx with rfl | hx
      · exact hlt
      · have := hp.head x hx; omega
    have h0 := (ih hp hq.tail).2 rfl b.1 hmp hq.head
    have hb : ((do let r ← addAux true (a :: p) q; some (b :: r)) = (none : Option (Terms R))) ↔
        addAux true (a :: p) q = none := by cases addAux true (a :: p) q <;> simp
    rw [hb, h0]
    refine ⟨fun _ => by rw [List.map_cons (l := q)], fun _ b0 hb1 hb2 => ?_⟩
    rw [List.map_cons (l := q)]
    have hb0 : b0 < b.1 := hb2 b (by simp)
    have hmin : ∀ e ∈ (a :: p).map Prod.fst, b.1 < e := by
      intro e he
      obtain ⟨y, hy, rfl⟩ := List.mem_map.1 he
      exact hmp y hy
    have hmq : ∀ e ∈ b.1 :: q.map Prod.fst, b0 < e := by
      intro e he
      rw [← List.map_cons (f := Prod.fst) (a := b)] at he
      obtain ⟨y, hy, rfl⟩ := List.mem_map.1 he
      exact hb2 y hy
    constructor
    · rintro ⟨x, hx, y, hy, c, hc, h1, h2, h3, h4⟩
      refine ⟨x, hx, y, by rw [List.mem_cons]; exact .inr hy, c, by rw [List.mem_cons]; exact .inr hc, h1, h2, h3, fun z hz => ?_⟩
      rw [List.mem_cons] at hz
      rcases hz with rfl | hz
      · have := hmq y hy; omega
      · exact h4 z hz
    · rintro ⟨x, hx, y, hy, c, hc, h1, h2, h3, h4⟩
      rw [List.mem_cons] at hy hc
      rcases hc with rfl | hc
      · rcases hy with rfl | hy
        · omega
        · have := hmq y hy; omega
      rcases hy with rfl | hy
      · have := hmin x hx
        exact absurd ⟨hb0, by omega⟩ (h4 b.1 (by simp))
      · exact ⟨x, hx, y, hy, c, hc, h1, h2, h3, fun z hz => h4 z (by rw [List.mem_cons]; exact .inr hz)⟩
  | case6 f a p b q hn hlt he ih =>
    have h0 := (ih hp.tail hq.tail).1 rfl
    have hb : ((do let r ← addAux false p q; some (if a.2 + b.2 = 0 then r else (a.1, a.2 + b.2) :: r)) =
        (none : Option (Terms R))) ↔ addAux false p q = none := by cases addAux false p q <;> simp
    rw [hb, h0]
    have hmp : ∀ e ∈ p.map Prod.fst, a.1 < e := fun e he => by
      obtain ⟨y, hy, rfl⟩ := List.mem_map.1 he; exact hp.head y hy
    have hmq : ∀ e ∈ q.map Prod.fst, a.1 < e := fun e he' => by
      obtain ⟨y, hy, rfl⟩ := List.mem_map.1 he'; have := hq.head y hy; omega
    have key : Clash (p.map Prod.fst) (q.map Prod.fst) ↔ Clash ((a :: p).map Prod.fst) ((b :: q).map Prod.fst) := by
      rw [List.map_cons, List.map_cons]
      constructor
      · rintro ⟨x, hx, y, hy, c, hc, h1, h2, h3, h4⟩
        refine ⟨x, by rw [List.mem_cons]; exact .inr hx, y, by rw [List.mem_cons]; exact .inr hy, c,
          by rw [List.mem_cons]; exact .inr hc, h1, h2, ?_, fun z hz => ?_⟩
        · rw [List.mem_cons, not_or]; exact ⟨by have := hmq y hy; omega, h3⟩
        · rw [List.mem_cons] at hz
          rcases hz with rfl | hz
          · have := hmq y hy; omega
          · exact h4 z hz
      · rintro ⟨x, hx, y, hy, c, hc, h1, h2, h3, h4⟩
        rw [List.mem_cons, not_or] at h3
        rw [List.mem_cons] at hx hy hc
        have hy' : y ∈ q.map Prod.fst := hy.resolve_left (by have := h3.1; omega)
        have := hmq y hy'
        exact ⟨x, hx.resolve_left (by omega), y, hy', c, hc.resolve_left (by omega), h1, h2, h3.2,
          fun z hz => h4 z (by rw [List.mem_cons]; exact .inr hz)⟩
    refine ⟨fun _ => key, fun _ b0 hb1 hb2 => ?_⟩
    have hb0 : b0 < a.1 := hb1 a (by simp)
    rw [key]
    rw [List.map_cons, List.map_cons]
    constructor
    · rintro ⟨x, hx, y, hy, c, hc, h1, h2, h3, h4⟩
      refine ⟨x, hx, y, by rw [List.mem_cons]; exact .inr hy, c, by rw [List.mem_cons]; exact .inr hc, h1, h2, h3, fun z hz => ?_⟩
      rw [List.mem_cons] at hz
      rcases hz with rfl | hz
      · rw [List.mem_cons] at hy
        rcases hy with rfl | hy
        · omega
        · have := hmq y hy; omega
      · exact h4 z hz
    · rintro ⟨x, hx, y, hy, c, hc, h1, h2, h3, h4⟩
      have hxa : a.1 ≤ x := by
        rw [List.mem_cons] at hx
        rcases hx with rfl | hx
        · exact le_refl _
        · have := hmp x hx; omega
      rw [List.mem_cons] at hy hc
      rcases hy with rfl | hy
      · exact absurd ⟨by omega, by omega⟩ (h4 b.1 (by simp))
      · rcases hc with rfl | hc
        · omega
        · exact ⟨x, hx, y, hy, c, hc, h1, h2, h3, fun z hz => h4 z (by rw [List.mem_cons]; exact .inr hz)⟩
  | case7 f a p b q hn hlt he =>
    have hf : f = true := by
      cases f with
      | true => rfl
      | false => exact absurd ⟨rfl, by omega⟩ hn
    subst hf
    refine ⟨fun h => (by cases h), fun _ b0 hb1 hb2 => ⟨fun _ => ?_, fun _ => rfl⟩⟩
    refine ⟨a.1, by simp, b0, by simp, b.1, by simp, hb1 a (by simp), by omega, ?_, fun x hx => ?_⟩
    · intro h
      obtain ⟨y, hy, hy'⟩ := List.mem_map.1 h
      have := hb1 y hy; omega
    · rw [List.map_cons, List.mem_cons, List.mem_cons] at hx
      rcases hx with rfl | rfl | hx
      · omega
      · omega
      · obtain ⟨y, hy, rfl⟩ := List.mem_map.1 hx
        have := hq.head y hy; omega

end
end Heir.PolyClass
