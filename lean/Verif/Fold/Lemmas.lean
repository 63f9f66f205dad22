import Verif.Fold.Spec
import Verif.Forward.Tensor
import Mathlib.Data.List.GetD
import Mathlib.Data.List.Perm.Basic
import Mathlib.Algebra.BigOperators.Group.List.Lemmas

/-! # Positions and indices -/

namespace Heir.Fold

variable {α : Type}

theorem foldl_mul_eq (l : List Nat) : ∀ a, l.foldl (· * ·) a = a * l.prod := by
  induction l with
  | nil => intro a; simp
  | cons d l ih => intro a; rw [List.foldl_cons, ih, List.prod_cons, Nat.mul_assoc]

theorem foldl_mul (l : List Nat) : l.foldl (· * ·) 1 = l.prod := by rw [foldl_mul_eq, Nat.one_mul]

theorem pos_cons {d i : Nat} {ds is : List Nat} {k : Nat} : pos (d :: ds) (i :: is) = some k ↔
    i < d ∧ ∃ k', pos ds is = some k' ∧ k = i * ds.prod + k' := by
  rw [pos]
  split
  · rename_i h
    rw [Option.map_eq_some_iff]
    constructor
    · rintro ⟨k', h1, h2⟩; exact ⟨h, k', h1, h2.symm⟩
    · rintro ⟨-, k', h1, h2⟩; exact ⟨k', h1, h2.symm⟩
  · rename_i h
    exact ⟨fun hh => absurd hh (by simp), fun hh => absurd hh.1 h⟩

theorem pos_lt : ∀ {s is : List Nat} {k : Nat}, pos s is = some k → k < s.prod ∧ s.length = is.length
  | [], [], k, h => by
    injection h with h
    subst h
    simp
  | d :: ds, i :: is, k, h => by
    obtain ⟨h2, k', h3, h4⟩ := pos_cons.1 h
    obtain ⟨l1, l2⟩ := pos_lt h3
    refine ⟨?_, by simp [l2]⟩
    rw [List.prod_cons, h4]
    calc i * ds.prod + k' < i * ds.prod + ds.prod := by omega
      _ = (i + 1) * ds.prod := by ring
      _ ≤ d * ds.prod := Nat.mul_le_mul_right _ h2
  | [], _ :: _, k, h => absurd h (by simp [pos])
  | _ :: _, [], k, h => absurd h (by simp [pos])

theorem pos_rowMajor : ∀ {s is : List Nat} {k : Nat}, pos s is = some k →
    Forward.rowMajor s (is.map Int.ofNat) = some k
  | [], [], k, h => h
  | d :: ds, i :: is, k, h => by
    obtain ⟨h2, k', h3, h4⟩ := pos_cons.1 h
    rw [List.map_cons, Forward.rowMajor_cons]
    refine ⟨⟨by simp, by simpa using h2⟩, k', pos_rowMajor h3, by simpa using h4⟩
  | [], _ :: _, k, h => absurd h (by simp [pos])
  | _ :: _, [], k, h => absurd h (by simp [pos])

/-- Every position is the position of the index computed from it. -/
theorem unflatten_pos : ∀ {s : List Nat} {k : Nat}, k < s.prod →
    ∃ is, unflattenLoop s s.prod k = some is ∧ pos s is = some k
  | [], k, h => by
    have : k = 0 := by simpa using h
    subst this
    exact ⟨[], rfl, rfl⟩
  | d :: ds, k, h => by
    rw [List.prod_cons] at h
    have hd : 0 < d := by
      rcases Nat.eq_zero_or_pos d with rfl | h'
      · simp at h
      · exact h'
    have hp : 0 < ds.prod := by
      rcases Nat.eq_zero_or_pos ds.prod with h' | h'
      · rw [h'] at h; simp at h
      · exact h'
    have e : (d * ds.prod) / d = ds.prod := Nat.mul_div_cancel_left _ hd
    have hr : k - k / ds.prod * ds.prod < ds.prod := by
      have h1 := Nat.mod_lt k hp
      have h2 := Nat.mod_add_div k ds.prod
      rw [Nat.mul_comm] at h2
      omega
    obtain ⟨is, h1, h2⟩ := unflatten_pos hr
    refine ⟨k / ds.prod :: is, ?_, ?_⟩
    · rw [List.prod_cons]
      unfold unflattenLoop
      rw [e, if_neg (by omega)]
      simp only [h1, Option.map_some]
    · rw [pos_cons]
      refine ⟨(Nat.div_lt_iff_lt_mul hp).2 h, _, h2, ?_⟩
      have := Nat.div_mul_le_self k ds.prod
      omega

theorem pos_inj : ∀ {s is js : List Nat} {k : Nat}, pos s is = some k → pos s js = some k → is = js := by
  intro s is js k h h'
  have := Forward.rowMajor_inj (pos_rowMajor h) (pos_rowMajor h')
  exact List.map_injective_iff.2 (fun a b h => Int.ofNat.inj h) this

theorem indices_of_pos {s is : List Nat} {k : Nat} (h : pos s is = some k) :
    getIndicesFromRowMajorShape k s = some is := by
  obtain ⟨js, h1, h2⟩ := unflatten_pos (pos_lt h).1
  unfold getIndicesFromRowMajorShape
  rw [foldl_mul, h1, pos_inj h h2]

theorem readFlat_eq {l : List α} {s is : List Nat} {k : Nat} (h : pos s is = some k)
    (hs : s.prod < 2147483648) : readFlat l s is = l[k]? := by
  unfold readFlat
  rw [Forward.getFlattenedIndex_eq (pos_rowMajor h) hs]
  simp

theorem transposedLoop_eq : ∀ {s : List Nat} {m k : Nat},
    transposedIndicesLoop s m k = unflattenLoop s m k
  | [], _, _ => rfl
  | d :: ds, m, k => by
    unfold transposedIndicesLoop unflattenLoop
    have e : k % (m / d) = k - k / (m / d) * (m / d) := by
      have := Nat.mod_add_div k (m / d)
      rw [Nat.mul_comm] at this
      omega
    simp only [transposedLoop_eq, e]

theorem originalIndex_eq : ∀ {s is : List Nat} {k acc : Nat}, pos s is = some k →
    originalIndexLoop s is s.prod acc = some (acc + k)
  | [], [], k, acc, h => by
    injection h with h
    subst h
    rfl
  | d :: ds, i :: is, k, acc, h => by
    obtain ⟨h2, k', h3, h4⟩ := pos_cons.1 h
    have hd : 0 < d := by omega
    unfold originalIndexLoop
    rw [List.prod_cons, Nat.mul_div_cancel_left _ hd, if_neg (by omega), originalIndex_eq h3, h4,
      Nat.add_assoc]
  | [], _ :: _, k, _, h => absurd h (by simp [pos])
  | _ :: _, [], k, _, h => absurd h (by simp [pos])

/-- Writing the entries of a permuted vector back. -/
theorem scatter_spec {v : List Nat} : ∀ {ps out : List Nat}, ps.Nodup → (∀ p ∈ ps, p < out.length) →
    v.length = out.length → ∃ r, scatter ps (ps.map fun p => v.getD p 0) out = some r ∧
      r.length = out.length ∧ ∀ x < out.length, r.getD x 0 = if x ∈ ps then v.getD x 0 else out.getD x 0
  | [], out, _, _, _ => ⟨out, rfl, rfl, by simp⟩
  | p :: ps, out, hn, hp, hv => by
    obtain ⟨hp1, hn1⟩ := List.nodup_cons.1 hn
    have hpl := hp p List.mem_cons_self
    obtain ⟨r, h1, h2, h3⟩ := scatter_spec (v := v) (out := out.set p (v.getD p 0)) hn1
      (by intro q hq; rw [List.length_set]; exact hp q (List.mem_cons_of_mem _ hq)) (by simpa using hv)
    refine ⟨r, ?_, by simpa using h2, ?_⟩
    · rw [List.map_cons]
      unfold scatter
      rw [if_pos hpl, h1]
    · intro x hx
      rw [h3 x (by simpa using hx)]
      by_cases hxp : x = p
      · subst hxp
        rw [if_neg hp1, if_pos List.mem_cons_self]
        simp [List.getD_eq_getElem?_getD, hpl]
      · by_cases hxs : x ∈ ps
        · rw [if_pos hxs, if_pos (List.mem_cons_of_mem _ hxs)]
        · rw [if_neg hxs, if_neg (by simp [hxp, hxs])]
          simp [List.getD_eq_getElem?_getD, List.getElem?_set_ne (Ne.symm hxp)]

theorem mapM_range {β : Type} {n : Nat} {f : Nat → Option β} (h : ∀ i < n, ∃ b, f i = some b) :
    ∃ r, (List.range n).mapM f = some r ∧ r.length = n ∧ ∀ i < n, r[i]? = f i := by
  have key : ∀ l : List Nat, (∀ i ∈ l, ∃ b, f i = some b) →
      ∃ r, l.mapM f = some r ∧ r.length = l.length ∧ ∀ i, ∀ h : i < l.length, r[i]? = f l[i] := by
    intro l
    induction l with
    | nil => intro _; exact ⟨[], rfl, rfl, by simp⟩
    | cons a l ih =>
      intro hl
      obtain ⟨b, hb⟩ := hl a List.mem_cons_self
      obtain ⟨r, h1, h2, h3⟩ := ih fun i hi => hl i (List.mem_cons_of_mem _ hi)
      refine ⟨b :: r, ?_, by simp [h2], ?_⟩
      · simp [List.mapM_cons, hb, h1]
      · intro i hi
        cases i with
        | zero => simp [hb]
        | succ i => simpa using h3 i (by simpa using hi)
  obtain ⟨r, h1, h2, h3⟩ := key (List.range n) (fun i hi => h i (List.mem_range.1 hi))
  refine ⟨r, h1, by simpa using h2, fun i hi => ?_⟩
  rw [h3 i (by simpa using hi), List.getElem_range]

theorem keep_eq (dims : List Nat) : ∀ (v : List α) (n : Nat),
    keep dims n v = ((v.zipIdx n).filter fun p => p.2 ∉ dims).map Prod.fst
  | [], _ => rfl
  | x :: xs, n => by
    unfold keep
    rw [List.zipIdx_cons, List.filter_cons, keep_eq]
    by_cases h : n ∈ dims <;> simp [h]

theorem keep_zero (dims : List Nat) (v : List α) : keep dims 0 v = without dims v := keep_eq dims v 0

theorem full_spec {ds : List Bool} {os ss idx full : List Nat} (h : SliceIndex ds os ss idx full) :
    fullSourceIndices ds os ss idx = some full := by
  induction h with
  | nil => rfl
  | dropped _ ih => simp [fullSourceIndices, ih]
  | kept _ ih => simp [fullSourceIndices, ih]

/-- Removing dimensions keeps indices inside. -/
theorem without_pos {dims : List Nat} : ∀ {s is : List Nat} {k n : Nat}, pos s is = some k →
    ∃ k', pos (keep dims n s) (keep dims n is) = some k'
  | [], [], _, _, _ => ⟨0, rfl⟩
  | d :: ds, i :: is, k, n, h => by
    obtain ⟨h2, k', h3, h4⟩ := pos_cons.1 h
    obtain ⟨k'', h5⟩ := without_pos (n := n + 1) (dims := dims) h3
    unfold keep
    split
    · exact ⟨k'', h5⟩
    · exact ⟨_, pos_cons.2 ⟨h2, k'', h5, rfl⟩⟩
  | [], _ :: _, k, _, h => absurd h (by simp [pos])
  | _ :: _, [], k, _, h => absurd h (by simp [pos])

end Heir.Fold
