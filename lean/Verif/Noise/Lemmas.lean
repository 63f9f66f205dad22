import Verif.Noise.Spec
import Mathlib.Data.List.GetD
import Mathlib.Tactic.Ring
import Mathlib.Tactic.Linarith
import Mathlib.Tactic.Tauto
import Mathlib.Tactic.FieldSimp
import Mathlib.Data.Int.GCD
import Mathlib.Tactic.LinearCombination

/-! # Sweeps, sizes and congruences -/

namespace Heir.Noise

variable {α : Type}

theorem upd_eq (t : Nat → α) (v : Nat) (a : α) : upd t v a v = a := by simp [upd]

theorem upd_ne (t : Nat → α) {v u : Nat} (a : α) (h : u ≠ v) : upd t v a u = t u := by simp [upd, h]

/-- The arities `SSA` demands. -/
def Arity (op : Op) : Prop :=
  (op.kind = .add ∨ op.kind = .sub ∨ op.kind = .mul → op.args.length = 2) ∧
    (op.kind ≠ .add ∧ op.kind ≠ .sub ∧ op.kind ≠ .mul ∧ op.kind ≠ .pick → op.args.length = 1)

/-- A step only looks at the operands. -/
def Local (st : (Nat → α) → Op → α) : Prop :=
  ∀ t t' op, Arity op → (∀ a ∈ op.args, t a = t' a) → st t op = st t' op

theorem run_of_defined (P : Nat → Prop) (st : (Nat → α) → Op → α) (l : List Op) (t : Nat → α)
    (h : SSA P l) (v : Nat) (hv : P v) : run st l t v = t v := by
  induction l generalizing P t with
  | nil => rfl
  | cons o l ih =>
    rw [run, ih _ _ h.2.2.2.2 (Or.inl hv), upd_ne]
    rintro rfl
    exact h.2.1 hv

theorem run_fix (P : Nat → Prop) (st : (Nat → α) → Op → α) (hst : Local st) (l : List Op)
    (t : Nat → α) (h : SSA P l) : ∀ o ∈ l, run st l t o.res = st (run st l t) o := by
  induction l generalizing P t with
  | nil => simp
  | cons o l ih =>
    intro o' ho'
    rw [run]
    rcases List.mem_cons.1 ho' with rfl | ho'
    · rw [run_of_defined _ _ _ _ h.2.2.2.2 _ (Or.inr rfl), upd_eq]
      apply hst _ _ _ ⟨h.2.2.1, h.2.2.2.1⟩
      intro a ha
      rw [run_of_defined _ _ _ _ h.2.2.2.2 _ (Or.inl (h.1 a ha)), upd_ne]
      rintro rfl
      exact h.2.1 (h.1 _ ha)
    · exact ih _ _ h.2.2.2.2 o' ho'

theorem ssa_mem (P : Nat → Prop) (l : List Op) (h : SSA P l) : ∀ o ∈ l, Arity o := by
  induction l generalizing P with
  | nil => simp
  | cons o l ih =>
    intro o' ho'
    rcases List.mem_cons.1 ho' with rfl | ho'
    · exact ⟨h.2.2.1, h.2.2.2.1⟩
    · exact ih _ h.2.2.2.2 o' ho'

theorem ssa_induction (Q : Nat → Prop) (l : List Op) (P : Nat → Prop) (h : SSA P l)
    (h0 : ∀ v, P v → Q v) (hs : ∀ o ∈ l, (∀ a ∈ o.args, Q a) → Q o.res) : ∀ o ∈ l, Q o.res ∧ ∀ a ∈ o.args, Q a := by
  induction l generalizing P with
  | nil => simp
  | cons o l ih =>
    have hq : Q o.res := hs o (by simp) fun a ha => h0 a (h.1 a ha)
    intro o' ho'
    rcases List.mem_cons.1 ho' with rfl | ho'
    · exact ⟨hq, fun a ha => h0 a (h.1 a ha)⟩
    · refine ih _ h.2.2.2.2 ?_ (fun o ho => hs o (by simp [ho])) o' ho'
      rintro v (hv | rfl)
      · exact h0 v hv
      · exact hq

theorem getD_mem {l : List Nat} {i : Nat} (h : i < l.length) : l.getD i 0 ∈ l := by
  rw [List.getD_eq_getElem _ _ h]; exact List.getElem_mem h

theorem headD_eq (l : List Nat) : l.headD 0 = l.getD 0 0 := by cases l <;> rfl

theorem operandNoises_congr (t t' : Nat → Fact) (args : List Nat) (h : ∀ a ∈ args, t a = t' a) :
    operandNoises t args = operandNoises t' args := by
  unfold operandNoises
  rw [List.filter_congr (p := fun a => (t a).sec) (q := fun a => (t' a).sec) fun a ha => by rw [h a ha],
    List.filter_congr (p := fun a => !(t a).sec) (q := fun a => !(t' a).sec) fun a ha => by rw [h a ha]]
  congr 1
  exact List.map_congr_left fun a ha => by rw [h a (List.mem_filter.1 ha).1]

theorem any_congr' {l : List Nat} {f g : Nat → Bool} (h : ∀ a ∈ l, f a = g a) : l.any f = l.any g := by
  rw [Bool.eq_iff_iff, List.any_eq_true, List.any_eq_true]
  constructor <;> rintro ⟨a, ha, hs⟩ <;> exact ⟨a, ha, by simpa [h a ha] using hs⟩

theorem step_local (v : Variant) (p : Params) : Local (step v p) := by
  intro t t' op hA h
  have hany : (op.args.any fun a => (t a).sec) = op.args.any fun a => (t' a).sec :=
    any_congr' fun a ha => by rw [h a ha]
  have hn : noiseStep v p t op = noiseStep v p t' op := by
    unfold noiseStep
    rw [operandNoises_congr t t' op.args h]
    have h1 : op.args.length = 1 → t (op.args.headD 0) = t' (op.args.headD 0) := fun hl => by
      rw [headD_eq]; exact h _ (getD_mem (by omega))
    cases hk : op.kind <;> simp only
    all_goals (rw [h1 (hA.2 (by simp [hk]))])
  unfold step
  rw [hany, hn]

theorem computedStep_local (t : Nat → Fact) : Local (computedStep t) := by
  intro c c' op _ h
  unfold computedStep
  have : (op.args.all fun a => !(t a).sec || c a) = op.args.all fun a => !(t a).sec || c' a := by
    rw [Bool.eq_iff_iff, List.all_eq_true, List.all_eq_true]
    constructor <;> intro hh a ha <;> have := hh a ha <;> simpa [h a ha] using this
  rw [this]

/-! ## Congruences and sizes -/

variable {R : Type} [CommRing R] {N : Nat}

theorem Cong.refl (q : Nat) (a : R) : Cong q a a := ⟨0, by ring⟩

theorem Cong.symm {q : Nat} {a b : R} (h : Cong q a b) : Cong q b a := by
  obtain ⟨c, rfl⟩ := h; exact ⟨-c, by ring⟩

theorem Cong.trans {q : Nat} {a b c : R} (h : Cong q a b) (h' : Cong q b c) : Cong q a c := by
  obtain ⟨x, rfl⟩ := h; obtain ⟨y, rfl⟩ := h'; exact ⟨x + y, by ring⟩

theorem Cong.add {q : Nat} {a b c d : R} (h : Cong q a b) (h' : Cong q c d) : Cong q (a + c) (b + d) := by
  obtain ⟨x, rfl⟩ := h; obtain ⟨y, rfl⟩ := h'; exact ⟨x + y, by ring⟩

theorem Cong.sub {q : Nat} {a b c d : R} (h : Cong q a b) (h' : Cong q c d) : Cong q (a - c) (b - d) := by
  obtain ⟨x, rfl⟩ := h; obtain ⟨y, rfl⟩ := h'; exact ⟨x - y, by ring⟩

theorem Cong.mul {q : Nat} {a b c d : R} (h : Cong q a b) (h' : Cong q c d) : Cong q (a * c) (b * d) := by
  obtain ⟨x, rfl⟩ := h; obtain ⟨y, rfl⟩ := h'; exact ⟨b * y + x * d + q * x * y, by ring⟩

theorem Cong.of_dvd {q q' : Nat} {a b : R} (h : Cong q a b) (hd : q' ∣ q) : Cong q' a b := by
  obtain ⟨x, rfl⟩ := h; obtain ⟨k, rfl⟩ := hd; exact ⟨k * x, by push_cast; ring⟩

theorem Cong.mul_right_self (q : Nat) (a c : R) : Cong q (a + q * c) a := ⟨c, rfl⟩

/-- A factor prime to the modulus cancels. -/
theorem Cong.cancel {q k : Nat} {a b : R} (hk : Nat.Coprime k q) (h : Cong q (k * a) (k * b)) : Cong q a b := by
  obtain ⟨c, hc⟩ := h
  have hbez := Nat.gcd_eq_gcd_ab k q
  rw [hk] at hbez
  have hR : (1 : R) = (k : R) * (Nat.gcdA k q : Int) + (q : R) * (Nat.gcdB k q : Int) := by
    have := congrArg (Int.cast : Int → R) hbez
    push_cast at this
    simpa using this
  refine ⟨(Nat.gcdA k q : Int) * c + (Nat.gcdB k q : Int) * (a - b), ?_⟩
  linear_combination (Nat.gcdA k q : R) * hc + (a - b) * hR

variable (S : Size R N)

theorem nrm_neg (a : R) : S.nrm (-a) = S.nrm a := by
  have := S.scale (-1) a
  simpa using this

theorem nrm_zero : S.nrm 0 = 0 := by
  have := S.scale 0 0
  simpa using this

theorem nrm_nat (k : Nat) (a : R) : S.nrm (k * a) = k * S.nrm a := by
  have := S.scale k a
  simpa using this

theorem nrm_sub_le (a b : R) : S.nrm (a - b) ≤ S.nrm a + S.nrm b := by
  rw [sub_eq_add_neg]
  exact le_trans (S.add_le _ _) (by rw [nrm_neg])

theorem nrm_sum_le (l : List R) : S.nrm l.sum ≤ (l.map S.nrm).sum := by
  induction l with
  | nil => simp [nrm_zero S]
  | cons a l ih =>
    rw [List.sum_cons, List.map_cons, List.sum_cons]
    exact le_trans (S.add_le _ _) (by omega)

/-- Two representatives that are small enough are equal. -/
theorem small_unique {q : Nat} {a b : R} (h : Cong q a b) (hs : S.nrm a + S.nrm b < q) : a = b := by
  obtain ⟨c, hc⟩ := h
  have h1 : S.nrm (a - b) = q * S.nrm c := by rw [hc, add_sub_cancel_left, nrm_nat]
  have h2 := nrm_sub_le S a b
  have h3 : S.nrm c = 0 := by
    by_contra hne
    have : q * 1 ≤ q * S.nrm c := Nat.mul_le_mul_left _ (by omega)
    omega
  have := S.pos c h3
  rw [hc, this]; ring

end Heir.Noise
