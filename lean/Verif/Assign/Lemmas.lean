import Verif.Assign.Spec
import Verif.Codegen.Props

/-!
# Tensors, and loops that insert elements
-/

namespace Heir.Assign

open Heir.Codegen (Node trace generateForLoop result walk)

variable {β : Type}

/-! ## Positions -/

theorem inB_len : ∀ {shape : List Nat} {idx : List Int}, inB shape idx = true → idx.length = shape.length
  | [], [], _ => rfl
  | _ :: _, _ :: _, h => by
    simp only [inB, Bool.and_eq_true] at h
    simp [inB_len h.2]
  | [], _ :: _, h => by simp [inB] at h
  | _ :: _, [], h => by simp [inB] at h

theorem flat_bounds : ∀ {shape : List Nat} {idx : List Int}, inB shape idx = true →
    0 ≤ flat shape idx ∧ flat shape idx < numElements shape
  | [], [], _ => by simp [flat, numElements]
  | d :: ds, i :: is, h => by
    simp only [inB, Bool.and_eq_true, decide_eq_true_eq] at h
    obtain ⟨⟨h0, h1⟩, h2⟩ := h
    obtain ⟨a, b⟩ := flat_bounds h2
    simp only [flat, numElements, Nat.cast_mul]
    have hp : (0 : Int) ≤ i * numElements ds := Int.mul_nonneg h0 (by omega)
    have hq : (i + 1) * (numElements ds : Int) ≤ d * numElements ds :=
      Int.mul_le_mul_of_nonneg_right (by omega) (by omega)
    rw [Int.add_mul] at hq
    omega
  | [], _ :: _, h => by simp [inB] at h
  | _ :: _, [], h => by simp [inB] at h

theorem flat_inj : ∀ {shape : List Nat} {a b : List Int}, inB shape a = true → inB shape b = true →
    flat shape a = flat shape b → a = b
  | [], [], [], _, _, _ => rfl
  | d :: ds, i :: is, j :: js, ha, hb, h => by
    simp only [inB, Bool.and_eq_true, decide_eq_true_eq] at ha hb
    obtain ⟨a0, a1⟩ := flat_bounds ha.2
    obtain ⟨b0, b1⟩ := flat_bounds hb.2
    simp only [flat] at h
    have e : i = j := by
      rcases Int.lt_trichotomy i j with c | c | c
      · have := Int.mul_le_mul_of_nonneg_right (show i + 1 ≤ j by omega)
          (show (0 : Int) ≤ numElements ds by omega)
        rw [Int.add_mul] at this; omega
      · exact c
      · have := Int.mul_le_mul_of_nonneg_right (show j + 1 ≤ i by omega)
          (show (0 : Int) ≤ numElements ds by omega)
        rw [Int.add_mul] at this; omega
    subst e
    rw [flat_inj ha.2 hb.2 (by omega)]
  | [], _ :: _, _, h, _, _ => by simp [inB] at h
  | [], [], _ :: _, _, h, _ => by simp [inB] at h
  | _ :: _, [], _, h, _, _ => by simp [inB] at h
  | _ :: _, _ :: _, [], _, h, _ => by simp [inB] at h

theorem strides_head (d : Nat) (ds : List Nat) : (rowMajorStrides (d :: ds)).headD 1 = numElements ds := by
  induction ds generalizing d with
  | nil => simp [rowMajorStrides, numElements]
  | cons e es ih => rw [rowMajorStrides, ih, List.headD_cons, numElements, Nat.cast_mul, Int.mul_comm]

theorem strides_cons (d : Nat) (ds : List Nat) :
    rowMajorStrides (d :: ds) = (numElements ds : Int) :: rowMajorStrides ds := by
  cases ds with
  | nil => simp [rowMajorStrides, numElements]
  | cons e es => rw [rowMajorStrides, strides_head, numElements, Nat.cast_mul, Int.mul_comm]

theorem foldl_add (l : List Int) (a : Int) : l.foldl (· + ·) a = a + l.foldl (· + ·) 0 := by
  induction l generalizing a with
  | nil => simp
  | cons x xs ih => rw [List.foldl_cons, List.foldl_cons, ih, ih (0 + x)]; omega

theorem flatten_eq : ∀ (shape : List Nat) (idx : List Int),
    flatten idx (rowMajorStrides shape) = flat shape idx
  | [], idx => by cases idx <;> simp [flatten, rowMajorStrides, flat]
  | d :: ds, [] => by simp [flatten, flat]
  | d :: ds, i :: is => by
    have h := flatten_eq ds is
    simp only [flatten] at h
    rw [strides_cons, flatten, List.zipWith_cons_cons, List.foldl_cons, foldl_add, h, flat]
    omega

/-! ## Elements -/

theorem Tensor.get_some {t : Tensor β} (ht : t.Full) {idx : List Int} (h : inB t.shape idx = true) :
    ∃ a, t.get idx = some a := by
  obtain ⟨a, b⟩ := flat_bounds h
  have : (flat t.shape idx).toNat < t.vals.length := by rw [ht]; omega
  exact ⟨t.vals[(flat t.shape idx).toNat], by simp [Tensor.get, h, List.getElem?_eq_getElem this]⟩

theorem splat_full (shape : List Nat) (a : β) : (splat shape a).Full := by simp [splat, Tensor.Full]

theorem splat_get {shape : List Nat} {a : β} {idx : List Int} (h : inB shape idx = true) :
    (splat shape a).get idx = some a := by
  obtain ⟨x, y⟩ := flat_bounds h
  have : (flat shape idx).toNat < numElements shape := by omega
  simp only [splat, Tensor.get, h, if_true, List.getElem?_replicate, this]

theorem get_set {t : Tensor β} (ht : t.Full) {a : β} {idx r : List Int} (h : inB t.shape idx = true)
    (hr : inB t.shape r = true) :
    ({ t with vals := t.vals.set (flat t.shape idx).toNat a } : Tensor β).get r =
      if idx = r then some a else t.get r := by
  obtain ⟨x, y⟩ := flat_bounds h
  have hl : (flat t.shape idx).toNat < t.vals.length := by rw [ht]; omega
  simp only [Tensor.get, hr, if_true]
  split
  · rename_i e; subst e
    rw [List.getElem?_set_self hl]
  · rename_i e
    rw [List.getElem?_set_ne]
    intro c
    obtain ⟨u, v⟩ := flat_bounds hr
    exact e (flat_inj h hr (by omega))

/-- What a sequence of insertions leaves at an index: the value of the last one there. -/
def lastAt {γ : Type} (S : γ → Option β) (D : γ → List Int) (ts : List γ) (r : List Int)
    (old : Option β) : Option β :=
  ((ts.reverse.find? fun x => D x = r).map S).getD old

theorem lastAt_cons {γ : Type} (S : γ → Option β) (D : γ → List Int) (x : γ) (ts : List γ) (r : List Int)
    (old : Option β) :
    lastAt S D (x :: ts) r old = lastAt S D ts r (if D x = r then S x else old) := by
  unfold lastAt
  rw [List.reverse_cons, List.find?_append]
  cases h : ts.reverse.find? fun x => decide (D x = r) with
  | none => by_cases c : D x = r <;> simp [c]
  | some y => simp

theorem lastAt_none {γ : Type} {S : γ → Option β} {D : γ → List Int} {ts : List γ} {r : List Int}
    {old : Option β} (h : ∀ x ∈ ts, D x ≠ r) : lastAt S D ts r old = old := by
  unfold lastAt
  rw [List.find?_eq_none.2 (by intro x hx; simpa using h x (by simpa using hx))]
  rfl

theorem lastAt_some {γ : Type} {S : γ → Option β} {D : γ → List Int} {ts : List γ} {r : List Int}
    {old : Option β} (h : ∃ x ∈ ts, D x = r) : ∃ x ∈ ts, D x = r ∧ lastAt S D ts r old = S x := by
  unfold lastAt
  cases e : ts.reverse.find? fun x => decide (D x = r) with
  | none =>
    obtain ⟨x, hx, hd⟩ := h
    have := List.find?_eq_none.1 e x (by simpa using hx)
    simp [hd] at this
  | some y =>
    refine ⟨y, by simpa using List.mem_of_find?_eq_some e, by simpa using List.find?_some e, ?_⟩
    rfl

/-- A step that inserts. -/
theorem inserts {γ : Type} {step : Option (Tensor β) → γ → Option (Tensor β)} {S : γ → Option β}
    {D : γ → List Int} {shape : List Nat} {ts : List γ}
    (hs : ∀ x ∈ ts, ∀ t : Tensor β, t.shape = shape →
      step (some t) x = (S x).bind fun a => t.insert a (D x))
    (hv : ∀ x ∈ ts, (S x).isSome) (hd : ∀ x ∈ ts, inB shape (D x) = true) (t : Tensor β)
    (ht : t.Full) (hsh : t.shape = shape) :
    ∃ t', ts.foldl step (some t) = some t' ∧ t'.shape = shape ∧ t'.Full ∧
      ∀ r, inB shape r = true → t'.get r = lastAt S D ts r (t.get r) := by
  induction ts generalizing t with
  | nil => exact ⟨t, rfl, hsh, ht, fun r _ => by simp [lastAt]⟩
  | cons x xs ih =>
    obtain ⟨a, ha⟩ := Option.isSome_iff_exists.1 (hv x (by simp))
    have hb := hd x (by simp)
    have hb' : inB t.shape (D x) = true := by rw [hsh]; exact hb
    obtain ⟨t', h1, h2, h3, h4⟩ := ih (fun y hy => hs y (by simp [hy])) (fun y hy => hv y (by simp [hy]))
      (fun y hy => hd y (by simp [hy]))
      { t with vals := t.vals.set (flat t.shape (D x)).toNat a } (by simpa [Tensor.Full] using ht)
      hsh
    refine ⟨t', ?_, h2, h3, fun r hr => ?_⟩
    · rw [List.foldl_cons, hs x (by simp) t hsh, ha]
      simp only [Option.bind_some, Tensor.insert, hb', if_true]
      exact h1
    · rw [h4 r hr, lastAt_cons, get_set ht hb' (by rw [hsh]; exact hr), ha]

/-! ## Loops -/

theorem lift_len (body : List Int → Tensor β → Option (Tensor β)) (is : List Int)
    (xs : List (Option (Tensor β))) : (lift body is xs).length = xs.length := by simp [lift]

theorem lift_foldl (body : List Int → Tensor β → Option (Tensor β)) (ts : List (List Int))
    (x : Option (Tensor β)) :
    ts.foldl (fun a is => lift body is a) [x] = [ts.foldl (fun a is => a.bind (body is)) x] := by
  induction ts generalizing x with
  | nil => rfl
  | cons i is ih => rw [List.foldl_cons, List.foldl_cons]; exact ih _

/-- The loops call the body for the points the tree visits. -/
theorem runLoops_ok {tree : Node} {rev : Bool} {ts : List (List Int)} (hl : tree.isLoop = true)
    (hs : tree.Served []) (ht : walk rev tree (fun _ => none) = some ts)
    (body : List Int → Tensor β → Option (Tensor β)) (init : Tensor β) :
    runLoops tree rev body init = ts.foldl (fun a is => a.bind (body is)) (some init) := by
  obtain ⟨p, h1, h2⟩ := Heir.Codegen.generate_ok (f := lift body) (lift_len body) hl hs ht
    (xs := [some init]) (by simp)
  have h1' : generateForLoop tree 1 rev = some p := h1
  simp only [runLoops, h1', Option.bind_some, h2, lift_foldl, List.head?_cons, id]

end Heir.Assign
