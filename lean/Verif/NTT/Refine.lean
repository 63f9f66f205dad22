import Verif.NTT.Model
import Verif.NTT.Algebra
import Mathlib.Tactic.Linarith

/-! # In-place butterfly loops refine the functional stages -/

namespace Heir.NTT

open Heir.Loop

variable {α R : Type}

/-- The array `c` of length `n` represents the function `A` on `[0, n)`. -/
def Rep (ok : α → R → Prop) (n : Nat) (c : List α) (A : Nat → R) : Prop :=
  c.length = n ∧ ∀ p, p < n → ∃ v, c[p]? = some v ∧ ok v (A p)

theorem Rep.congr {ok : α → R → Prop} {n : Nat} {c : List α} {A B : Nat → R} (h : Rep ok n c A)
    (hAB : ∀ p, p < n → A p = B p) : Rep ok n c B :=
  ⟨h.1, fun p hp => by rw [← hAB p hp]; exact h.2 p hp⟩

theorem Rep.get {ok : α → R → Prop} {n : Nat} {c : List α} {A : Nat → R} (h : Rep ok n c A)
    {i : Nat} (hi : i < n) : ∃ v, Loop.get c i = some v ∧ ok v (A i) := h.2 i hi

theorem Rep.put {ok : α → R → Prop} {n : Nat} {c : List α} {A : Nat → R} (h : Rep ok n c A)
    {i : Nat} (hi : i < n) {v : α} {x : R} (hv : ok v x) :
    ∃ c', Loop.put c i v = some c' ∧ Rep ok n c' (fun p => if p = i then x else A p) := by
  refine ⟨c.set i v, by rw [Loop.put, if_pos (by rw [h.1]; exact hi)], by rw [List.length_set, h.1], ?_⟩
  intro p hp
  by_cases hpi : p = i
  · subst hpi
    exact ⟨v, by rw [List.getElem?_set_self (by rw [h.1]; exact hi)], by simpa using hv⟩
  · obtain ⟨v', h1, h2⟩ := h.2 p hp
    exact ⟨v', by rw [List.getElem?_set_ne (Ne.symm hpi)]; exact h1, by simpa [hpi] using h2⟩

open Classical in
/-- `N` where `D` holds, `A` elsewhere. -/
noncomputable def mix (D : Nat → Prop) (N A : Nat → R) (p : Nat) : R := if D p then N p else A p

theorem mix_pos {D : Nat → Prop} {N A : Nat → R} {p : Nat} (h : D p) : mix D N A p = N p := if_pos h
theorem mix_neg {D : Nat → Prop} {N A : Nat → R} {p : Nat} (h : ¬ D p) : mix D N A p = A p := if_neg h

theorem mix_congr {D D' : Nat → Prop} {N A : Nat → R} {p : Nat} (h : D p ↔ D' p) :
    mix D N A p = mix D' N A p := by
  by_cases hd : D p
  · rw [mix_pos hd, mix_pos (h.1 hd)]
  · rw [mix_neg hd, mix_neg (fun h' => hd (h.2 h'))]

/-- A butterfly body at lower index `i` and distance `s`: it reads the two entries and writes
the two new ones, provided they represent `A i`, `A (i+s)`. -/
def IsBfly (ok : α → R → Prop) (n s i : Nat) (N A : Nat → R) (body : List α → Option (List α)) :
    Prop :=
  ∀ (c : List α) (B : Nat → R), Rep ok n c B → B i = A i → B (i + s) = A (i + s) →
    ∃ c', body c = some c' ∧
      Rep ok n c' (fun p => if p = i + s then N (i + s) else if p = i then N i else B p)

theorem bfly_step {ok : α → R → Prop} {n s i : Nat} {N A : Nat → R}
    {body : List α → Option (List α)} (hb : IsBfly ok n s i N A body) {D D' : Nat → Prop}
    (hi : ¬ D i) (his : ¬ D (i + s)) (hD : ∀ p, p < n → (D' p ↔ D p ∨ p = i ∨ p = i + s))
    {c : List α} (hc : Rep ok n c (mix D N A)) :
    ∃ c', body c = some c' ∧ Rep ok n c' (mix D' N A) := by
  obtain ⟨c', h1, h2⟩ := hb c _ hc (mix_neg hi) (mix_neg his)
  refine ⟨c', h1, h2.congr ?_⟩
  intro p hp
  have hDp := hD p hp
  by_cases h3 : p = i + s
  · rw [if_pos h3, mix_pos (hDp.2 (Or.inr (Or.inr h3))), h3]
  · rw [if_neg h3]
    by_cases h4 : p = i
    · rw [if_pos h4, mix_pos (hDp.2 (Or.inr (Or.inl h4))), h4]
    · rw [if_neg h4]
      by_cases h5 : D p
      · rw [mix_pos h5, mix_pos (hDp.2 (Or.inl h5))]
      · rw [mix_neg h5, mix_neg (fun h => by rcases hDp.1 h with h | h | h <;> contradiction)]

theorem pos_arith {s g j : Nat} (hj : j < s) :
    (g * 2 * s + j) % (2 * s) = j ∧ (g * 2 * s + j) / (2 * s) = g ∧
    (g * 2 * s + j + s) % (2 * s) = j + s ∧ (g * 2 * s + j + s) / (2 * s) = g := by
  have e1 : g * 2 * s + j = j + (2 * s) * g := by ring
  have e2 : g * 2 * s + j + s = (j + s) + (2 * s) * g := by ring
  rw [e2, e1, Nat.add_mul_mod_self_left, Nat.add_mul_mod_self_left,
    Nat.add_mul_div_left _ _ (by omega), Nat.add_mul_div_left _ _ (by omega)]
  refine ⟨Nat.mod_eq_of_lt (by omega), ?_, Nat.mod_eq_of_lt (by omega), ?_⟩
  · rw [Nat.div_eq_of_lt (by omega)]; omega
  · rw [Nat.div_eq_of_lt (by omega)]; omega

/-- Offset of position `p` inside its half block. -/
def off (s p : Nat) : Nat := p % (2 * s) % s

theorem off_eq {s g j : Nat} (hj : j < s) :
    off s (g * 2 * s + j) = j ∧ off s (g * 2 * s + j + s) = j := by
  obtain ⟨h1, _, h3, _⟩ := pos_arith (g := g) hj
  unfold off
  rw [h1, h3]
  exact ⟨Nat.mod_eq_of_lt hj, by rw [Nat.add_mod_right]; exact Nat.mod_eq_of_lt hj⟩

theorem eq_of_off {s p g j : Nat} (hs : 0 < s) (ho : off s p = j) (hg : p / (2 * s) = g) :
    p = g * 2 * s + j ∨ p = g * 2 * s + j + s := by
  have h1 := Nat.div_add_mod p (2 * s)
  have h2 := Nat.mod_lt p (show 0 < 2 * s by omega)
  unfold off at ho
  rw [hg] at h1
  have e : 2 * s * g = g * 2 * s := by ring
  rcases lt_or_ge (p % (2 * s)) s with h | h
  · left; rw [Nat.mod_eq_of_lt h] at ho; omega
  · right
    rw [Nat.mod_eq_sub_mod h, Nat.mod_eq_of_lt (by omega)] at ho; omega

/-- Loop order of `NTT.cpp`: offset outer, group inner. -/
theorem stage_offset_outer {ok : α → R → Prop} {n s ng : Nat} (hs : 0 < s) (hn : n = ng * (2 * s))
    {N A : Nat → R} {body : Nat → Nat → List α → Option (List α)}
    {outer : Nat → List α → Option (List α)}
    (hbody : ∀ j g, j < s → g < ng → IsBfly ok n s (g * 2 * s + j) N A (body j g))
    (houter : ∀ j, j < s → outer j = fun c => forN ng (body j) c)
    {c : List α} (hc : Rep ok n c A) : ∃ c', forN s outer c = some c' ∧ Rep ok n c' N := by
  have hgrp : ∀ p, p < n → p / (2 * s) < ng := by
    intro p hp; rw [Nat.div_lt_iff_lt_mul (by omega)]; omega
  obtain ⟨c', h1, h2⟩ := forN_inv (n := s) (body := outer) (s := c)
    (fun j c => Rep ok n c (mix (fun p => off s p < j) N A))
    (hc.congr fun p _ => by unfold mix; rw [if_neg (Nat.not_lt_zero _)])
    (by
      intro j hj c hcj
      rw [houter j hj]
      obtain ⟨c', h1, h2⟩ := forN_inv (n := ng) (body := body j) (s := c)
        (fun g c => Rep ok n c (mix (fun p => off s p < j ∨ (off s p = j ∧ p / (2 * s) < g)) N A))
        (hcj.congr fun p _ => mix_congr ⟨fun h => Or.inl h, fun h => h.elim id fun h => absurd h.2 (Nat.not_lt_zero _)⟩)
        (by
          intro g hg c hcg
          obtain ⟨o1, o2⟩ := off_eq (g := g) hj
          obtain ⟨_, d1, _, d2⟩ := pos_arith (g := g) hj
          refine bfly_step (hbody j g hj hg) (by rw [o1, d1]; omega) (by rw [o2, d2]; omega) ?_ hcg
          intro p _
          constructor
          · rintro (h | ⟨h, h'⟩)
            · exact Or.inl (Or.inl h)
            · rcases Nat.lt_succ_iff_lt_or_eq.1 h' with h' | h'
              · exact Or.inl (Or.inr ⟨h, h'⟩)
              · exact Or.inr (eq_of_off hs h h')
          · rintro ((h | h) | rfl | rfl)
            · exact Or.inl h
            · exact Or.inr ⟨h.1, by omega⟩
            · exact Or.inr ⟨o1, by omega⟩
            · exact Or.inr ⟨o2, by omega⟩)
      refine ⟨c', h1, h2.congr ?_⟩
      intro p hp
      have := hgrp p hp
      exact mix_congr (by omega))
  refine ⟨c', h1, h2.congr ?_⟩
  intro p _
  exact mix_pos (Nat.mod_lt _ hs)

/-- Loop order of the emitted code: group outer, offset inner. -/
theorem stage_group_outer {ok : α → R → Prop} {n s ng : Nat} (hs : 0 < s) (hn : n = ng * (2 * s))
    {N A : Nat → R} {body : Nat → Nat → List α → Option (List α)}
    (hbody : ∀ g j, j < s → g < ng → IsBfly ok n s (g * 2 * s + j) N A (body g j))
    {c : List α} (hc : Rep ok n c A) :
    ∃ c', forN ng (fun g c => forN s (body g) c) c = some c' ∧ Rep ok n c' N := by
  have hgrp : ∀ p, p < n → p / (2 * s) < ng := by
    intro p hp; rw [Nat.div_lt_iff_lt_mul (by omega)]; omega
  obtain ⟨c', h1, h2⟩ := forN_inv (n := ng) (body := fun g c => forN s (body g) c) (s := c)
    (fun g c => Rep ok n c (mix (fun p => p / (2 * s) < g) N A))
    (hc.congr fun p _ => by unfold mix; rw [if_neg (Nat.not_lt_zero _)])
    (by
      intro g hg c hcg
      obtain ⟨c', h1, h2⟩ := forN_inv (n := s) (body := body g) (s := c)
        (fun j c => Rep ok n c (mix (fun p => p / (2 * s) < g ∨ (p / (2 * s) = g ∧ off s p < j)) N A))
        (hcg.congr fun p _ => mix_congr ⟨fun h => Or.inl h, fun h => h.elim id fun h => absurd h.2 (Nat.not_lt_zero _)⟩)
        (by
          intro j hj c hcj
          obtain ⟨o1, o2⟩ := off_eq (g := g) hj
          obtain ⟨_, d1, _, d2⟩ := pos_arith (g := g) hj
          refine bfly_step (hbody g j hj hg) (by rw [o1, d1]; omega) (by rw [o2, d2]; omega) ?_ hcj
          intro p _
          constructor
          · rintro (h | ⟨h, h'⟩)
            · exact Or.inl (Or.inl h)
            · rcases Nat.lt_succ_iff_lt_or_eq.1 h' with h' | h'
              · exact Or.inl (Or.inr ⟨h, h'⟩)
              · exact Or.inr (eq_of_off hs h' h)
          · rintro ((h | h) | rfl | rfl)
            · exact Or.inl h
            · exact Or.inr ⟨h.1, by omega⟩
            · exact Or.inr ⟨d1, by omega⟩
            · exact Or.inr ⟨d2, by omega⟩)
      refine ⟨c', h1, h2.congr ?_⟩
      intro p hp
      have ho : off s p < s := Nat.mod_lt _ hs
      exact mix_congr (by omega))
  refine ⟨c', h1, h2.congr ?_⟩
  intro p hp
  exact mix_pos (hgrp p hp)

/-- A pointwise update loop. -/
theorem pointwise_loop {ok ok' : α → R → Prop} {n : Nat} {A N : Nat → R}
    {body : Nat → List α → Option (List α)}
    (hbody : ∀ i, i < n → ∀ c v, Loop.get c i = some v → ok v (A i) →
      ∃ v', ok' v' (N i) ∧ body i c = Loop.put c i v')
    {c : List α} (hc : Rep ok n c A) : ∃ c', forN n body c = some c' ∧ Rep ok' n c' N := by
  obtain ⟨c', h1, h2, h3, _⟩ := forN_inv (n := n) (body := body) (s := c)
    (fun i c => c.length = n ∧ (∀ p, p < i → ∃ v, c[p]? = some v ∧ ok' v (N p)) ∧
      (∀ p, i ≤ p → p < n → ∃ v, c[p]? = some v ∧ ok v (A p)))
    ⟨hc.1, fun p hp => absurd hp (by omega), fun p _ hp => hc.2 p hp⟩
    (by
      rintro i hi c ⟨hl, h1, h2⟩
      obtain ⟨v, hv, hok⟩ := h2 i le_rfl hi
      obtain ⟨v', hok', hb⟩ := hbody i hi c v hv hok
      refine ⟨c.set i v', by rw [hb, Loop.put, if_pos (by omega)], by rw [List.length_set, hl], ?_, ?_⟩
      · intro p hp
        by_cases hpi : p = i
        · subst hpi; exact ⟨v', List.getElem?_set_self (by omega), hok'⟩
        · obtain ⟨u, hu, hu'⟩ := h1 p (by omega)
          exact ⟨u, by rw [List.getElem?_set_ne (Ne.symm hpi)]; exact hu, hu'⟩
      · intro p hp hpn
        obtain ⟨u, hu, hu'⟩ := h2 p (by omega) hpn
        exact ⟨u, by rw [List.getElem?_set_ne (by omega)]; exact hu, hu'⟩)
  exact ⟨c', h1, h2, fun p hp => h3 p hp⟩

end Heir.NTT
