import Verif.Shift.Rounds
import Verif.Kernel.Lemmas

/-! # Virtual rotations -/

namespace Heir.Shift

open Heir.Dag Heir.Kernel

variable {R : Type} {m num : Nat} [CommRing R] [DecidableEq R] [NeZero m]
variable {ok : Int → Bool} {env : Env (Val R m)}

/-- The slots of a mask. -/
def maskV (mask : List Bool) : Slots R m :=
  fun i : ZMod m => if mask.getD (ZMod.val i) false then 1 else 0

theorem ev_constE (mask : List Bool) : EvV ok env (constE mask : KExpr R m) (maskV mask) := ⟨_, rfl⟩

theorem ev_zeroE : EvV ok env (zeroE : KExpr R m) 0 := ev_splat 0

omit [DecidableEq R] [NeZero m] in
theorem maskV_false {mask : List Bool} (h : mask.all (!·) = true) : (maskV mask : Slots R m) = 0 := by
  funext i
  have : mask.getD (ZMod.val i) false = false := by
    rw [List.getD_eq_getElem?_getD]
    cases hg : mask[ZMod.val i]? with
    | none => rfl
    | some b =>
      have := List.all_eq_true.1 h b (List.mem_of_getElem? hg)
      simpa using this
  unfold maskV
  rw [this]
  rfl

omit [DecidableEq R] in
theorem maskV_true {mask : List Bool} (hl : mask.length = m) (h : mask.all id = true) :
    (maskV mask : Slots R m) = 1 := by
  funext i
  have hi : ZMod.val i < mask.length := by rw [hl]; exact ZMod.val_lt i
  have : mask.getD (ZMod.val i) false = true := by
    rw [List.getD_eq_getElem _ _ hi]
    have := List.all_eq_true.1 h _ (List.getElem_mem hi)
    simpa using this
  unfold maskV
  rw [this]
  rfl

theorem maskOrSkip_ok {ct : KExpr R m} {x : Slots R m} (h : EvV ok env ct x) {mask : List Bool}
    (hl : mask.length = m) : EvV ok env (maskOrSkip ct mask) (maskV mask * x) := by
  unfold maskOrSkip
  split
  · rename_i hf
    rw [maskV_false hf, zero_mul]
    exact ev_zeroE
  · split
    · rename_i ht
      rw [maskV_true hl ht, one_mul]
      exact h
    · rw [mul_comm]
      exact ev_mul h (ev_constE mask)

theorem fixedPart_ok {ct : KExpr R m} {x : Slots R m} (h : EvV ok env ct x) {mask : List Bool}
    (hl : mask.length = m) :
    (fixedPart ct mask = none ∧ mask.all (!·) = true) ∨
      ∃ e, fixedPart ct mask = some e ∧ EvV ok env e (maskV mask * x) := by
  unfold fixedPart
  split
  · rename_i hf; exact Or.inl ⟨rfl, hf⟩
  · split
    · rename_i ht
      rw [maskV_true hl ht, one_mul]
      exact Or.inr ⟨_, rfl, h⟩
    · rw [mul_comm]
      exact Or.inr ⟨_, rfl, ev_mul h (ev_constE mask)⟩

theorem rotateSingle_ok {ct : KExpr R m} {x : Slots R m} (h : EvV ok env ct x) {mask : List Bool}
    (hl : mask.length = m) {a : Nat} (ha : ok a = true) :
    EvV ok env (rotateSingle ct a mask) (rot a (maskV mask * x)) := by
  unfold rotateSingle
  split
  · rename_i hf
    rw [maskV_false hf, zero_mul]
    exact ev_zeroE
  · split
    · rename_i ht
      rw [maskV_true hl ht, one_mul]
      exact ev_rot h ha
    · rw [mul_comm]
      exact ev_rot (ev_mul h (ev_constE mask)) ha

/-! ## The targets -/

/-- Partial results. -/
def Rep (ok : Int → Bool) (env : Env (Val R m)) (num : Nat) (results : List (Option (KExpr R m)))
    (val : Nat → Slots R m) (has : Nat → Prop) : Prop :=
  results.length = num ∧ ∀ t < num, (results[t]? = some none ∧ val t = 0 ∧ ¬ has t) ∨
    ∃ e, results[t]? = some (some e) ∧ EvV ok env e (val t)

theorem addInto_ok {results : List (Option (KExpr R m))} {val : Nat → Slots R m} {has : Nat → Prop}
    (h : Rep ok env num results val has) {t : Nat} (ht : t < num) {ct : KExpr R m} {x : Slots R m}
    (hct : EvV ok env ct x) {a : Nat} (ha : ok a = true) (mask : List Bool) :
    ∃ results', addInto results t a ct mask = some results' ∧
      Rep ok env num results' (Function.update val t (val t + rot a (maskV mask * x)))
        (fun u => has u ∨ (u = t ∧ mask.all (!·) = false)) := by
  obtain ⟨hlen, h⟩ := h
  unfold addInto
  split
  · rename_i hf
    refine ⟨results, rfl, hlen, fun u hu => ?_⟩
    have e : Function.update val t (val t + rot a (maskV mask * x)) = val := by
      rw [maskV_false hf, zero_mul]
      have : rot (a : Int) (0 : Slots R m) = 0 := rfl
      rw [this, add_zero, Function.update_eq_self]
    rw [e]
    rcases h u hu with ⟨h1, h2, h3⟩ | h
    · exact Or.inl ⟨h1, h2, by simp [hf, h3]⟩
    · exact Or.inr h
  · have hr : EvV ok env (rotE (mulE ct (constE mask)) a) (rot a (maskV mask * x)) := by
      rw [mul_comm (maskV mask) x]
      exact ev_rot (ev_mul hct (ev_constE mask)) ha
    have key : ∀ e', EvV ok env e' (val t + rot a (maskV mask * x)) →
        Rep ok env num (results.set t (some e'))
          (Function.update val t (val t + rot a (maskV mask * x)))
          (fun u => has u ∨ (u = t ∧ mask.all (!·) = false)) := by
      intro e' he'
      refine ⟨by rw [List.length_set, hlen], fun u hu => ?_⟩
      by_cases hut : u = t
      · subst hut
        right
        refine ⟨e', by rw [List.getElem?_set_self (by omega)], ?_⟩
        rw [Function.update_self]
        exact he'
      · rw [List.getElem?_set_ne (Ne.symm hut), Function.update_of_ne hut]
        rcases h u hu with ⟨h1, h2, h3⟩ | h
        · exact Or.inl ⟨h1, h2, by simp [hut, h3]⟩
        · exact Or.inr h
    rcases h t ht with ⟨h1, h2, _⟩ | ⟨e, h1, he⟩
    · rw [h1]
      refine ⟨_, rfl, key _ ?_⟩
      rw [h2, zero_add]
      exact hr
    · rw [h1]
      exact ⟨_, rfl, key _ (ev_add he hr)⟩

/-- The next ciphertext. -/
def nxt (num t : Nat) : Nat := if t + 1 = num then 0 else t + 1

/-- The previous ciphertext. -/
def prv (num c : Nat) : Nat := if c = 0 then num - 1 else c - 1

theorem nxt_prv {num c : Nat} (hc : c < num) : nxt num (prv num c) = c := by
  unfold nxt prv; split <;> split <;> omega

theorem prv_nxt {num c : Nat} (_hc : c < num) : prv num (nxt num c) = c := by
  unfold nxt prv; split <;> split <;> omega

theorem prv_lt {num c : Nat} (hc : c < num) : prv num c < num := by unfold prv; split <;> omega

omit [NeZero m] in
/-- The targets computed by the code. -/
theorem targets_ok {c a : Nat} (hc : c < num) (ha0 : 0 < a) (ham : a < m) :
    (((c * m : Nat) - (a : Int) + (num * m : Nat)).tmod (num * m : Nat)).tdiv m = (prv num c : Nat) ∧
    (((c * m : Nat) + ((m : Int) - 1) - (a : Int) + (num * m : Nat)).tmod (num * m : Nat)).tdiv m =
      (c : Nat) := by
  have hcm : (c + 1) * m ≤ num * m := Nat.mul_le_mul_right _ hc
  rw [Nat.add_mul, one_mul] at hcm
  have hm : 0 < m := by omega
  constructor
  · have e : ((c * m : Nat) - (a : Int) + (num * m : Nat)) = ((c * m + num * m - a : Nat) : Int) := by
      omega
    rw [e]
    change ((((c * m + num * m - a) % (num * m) / m : Nat)) : Int) = _
    congr 1
    unfold prv
    split
    · rename_i h0
      subst h0
      obtain ⟨n, rfl⟩ : ∃ n, num = n + 1 := ⟨num - 1, by omega⟩
      rw [Nat.mod_eq_of_lt (by omega)]
      rw [Nat.add_mul, one_mul, show 0 * m + (n * m + m) - a = (m - a) + n * m by omega,
        Nat.add_mul_div_right _ _ hm, Nat.div_eq_of_lt (by omega)]
      omega
    · obtain ⟨d, rfl⟩ : ∃ d, c = d + 1 := ⟨c - 1, by omega⟩
      rw [Nat.add_mul, one_mul] at *
      rw [show d * m + m + num * m - a = (d * m + m - a) + num * m by omega, Nat.add_mod_right,
        Nat.mod_eq_of_lt (by omega), show d * m + m - a = (m - a) + d * m by omega,
        Nat.add_mul_div_right _ _ hm, Nat.div_eq_of_lt (by omega)]
      omega
  · have e : ((c * m : Nat) + ((m : Int) - 1) - (a : Int) + (num * m : Nat)) =
        ((c * m + (m - 1 - a) + num * m : Nat) : Int) := by
      push_cast
      omega
    rw [e]
    change ((((c * m + (m - 1 - a) + num * m) % (num * m) / m : Nat)) : Int) = _
    congr 1
    rw [Nat.add_mod_right, Nat.mod_eq_of_lt (by omega), Nat.add_comm,
      Nat.add_mul_div_right _ _ hm, Nat.div_eq_of_lt (by omega)]
    omega

/-- The part of a mask before, and after, the split. -/
def lowMask (m a : Nat) (mask : List Bool) : List Bool :=
  (List.range m).map fun i => decide (i < a) && mask.getD i false
def highMask (m a : Nat) (mask : List Bool) : List Bool :=
  (List.range m).map fun i => !decide (i < a) && mask.getD i false

/-- The value after the first `k` ciphertexts. -/
def valUpTo (num k : Nat) (G1 G2 : Nat → Slots R m) (t : Nat) : Slots R m :=
  (if t < k then G2 t else 0) + if nxt num t < k then G1 (nxt num t) else 0

omit [DecidableEq R] [NeZero m] in
theorem valUpTo_succ {k : Nat} (hk : k < num) (h2 : 2 ≤ num) (G1 G2 : Nat → Slots R m)
    {val : Nat → Slots R m} (h : ∀ t < num, val t = valUpTo num k G1 G2 t) :
    ∀ t < num, (Function.update (Function.update val (prv num k) (val (prv num k) + G1 k)) k
      ((Function.update val (prv num k) (val (prv num k) + G1 k)) k + G2 k)) t =
      valUpTo num (k + 1) G1 G2 t := by
  intro t ht
  have hpk : prv num k ≠ k := by unfold prv; split <;> omega
  have hpl := prv_lt hk
  by_cases htk : t = k
  · subst htk
    have hn : nxt num t ≠ t := by unfold nxt; split <;> omega
    rw [Function.update_self, Function.update_of_ne (Ne.symm hpk), h t ht]
    unfold valUpTo
    rw [if_neg (lt_irrefl t), if_pos (Nat.lt_succ_self t)]
    by_cases hl : nxt num t < t
    · rw [if_pos hl, if_pos (by omega : nxt num t < t + 1)]; abel
    · rw [if_neg hl, if_neg (by omega : ¬ nxt num t < t + 1)]; abel
  · rw [Function.update_of_ne htk]
    by_cases htp : t = prv num k
    · subst htp
      rw [Function.update_self, h _ hpl]
      unfold valUpTo
      rw [nxt_prv hk, if_neg (lt_irrefl k), if_pos (Nat.lt_succ_self k)]
      by_cases hl : prv num k < k
      · rw [if_pos hl, if_pos (by omega)]; abel
      · rw [if_neg hl, if_neg (by omega)]; abel
    · rw [Function.update_of_ne htp, h t ht]
      have hn : nxt num t ≠ k := by
        intro e
        apply htp
        rw [← e, prv_nxt ht]
      unfold valUpTo
      by_cases hl : t < k <;> by_cases hl2 : nxt num t < k
      · rw [if_pos hl, if_pos hl2, if_pos (by omega : t < k + 1), if_pos (by omega : nxt num t < k + 1)]
      · rw [if_pos hl, if_neg hl2, if_pos (by omega : t < k + 1), if_neg (by omega : ¬ nxt num t < k + 1)]
      · rw [if_neg hl, if_pos hl2, if_neg (by omega : ¬ t < k + 1), if_pos (by omega : nxt num t < k + 1)]
      · rw [if_neg hl, if_neg hl2, if_neg (by omega : ¬ t < k + 1), if_neg (by omega : ¬ nxt num t < k + 1)]

omit [CommRing R] [DecidableEq R] [NeZero m] in
theorem foldlM_range {α : Type} (f : α → Nat → Option α) (P : Nat → α → Prop) (n : Nat) (a : α)
    (h0 : P 0 a) (hs : ∀ k < n, ∀ a, P k a → ∃ b, f a k = some b ∧ P (k + 1) b) :
    ∃ b, (List.range n).foldlM f a = some b ∧ P n b := by
  induction n with
  | zero => exact ⟨a, rfl, h0⟩
  | succ n ih =>
    obtain ⟨b, hb, hP⟩ := ih fun k hk => hs k (by omega)
    obtain ⟨c, hc, hP'⟩ := hs n (by omega) b hP
    refine ⟨c, ?_, hP'⟩
    rw [List.range_succ, List.foldlM_append, hb]
    simp [hc]

/-- Where a slot of the result comes from. -/
def src (m num a t s : Nat) : CtSlot := place m ((t * m + s + a) % (num * m))

/-- The mask at a position. -/
def Marked (masks : List (List Bool)) (p : CtSlot) : Prop :=
  (masks.getD p.ct []).getD p.slot false = true

instance (masks : List (List Bool)) (p : CtSlot) : Decidable (Marked masks p) := by
  unfold Marked; infer_instance

/-- The rotated and masked virtual ciphertext. -/
def rotated (num a : Nat) (masks : List (List Bool)) (W : Nat → Slots R m) (t : Nat) : Slots R m :=
  fun i : ZMod m =>
    let p := src m num a t (ZMod.val i)
    if Marked masks p then W p.ct ((p.slot : Nat) : ZMod m) else 0

omit [DecidableEq R] in
theorem val_add_nat (i : ZMod m) (a : Nat) : ZMod.val (i + (a : ZMod m)) = (ZMod.val i + a) % m := by
  rw [ZMod.val_add, ZMod.val_natCast, Nat.add_mod_mod]

omit [DecidableEq R] in
theorem rot_mask_apply (a : Nat) (mask : List Bool) (x : Slots R m) (i : ZMod m) :
    rot a (maskV mask * x) i =
      if mask.getD ((ZMod.val i + a) % m) false then x (((ZMod.val i + a) % m : Nat) : ZMod m)
      else 0 := by
  have e : (((ZMod.val i + a) % m : Nat) : ZMod m) = i + (a : ZMod m) := by
    rw [← val_add_nat, ZMod.natCast_zmod_val]
  rw [e, ← val_add_nat]
  simp only [rot, maskV, Pi.mul_apply, Int.cast_natCast]
  split <;> simp

theorem getD_range_map (m : Nat) (f : Nat → Bool) (i : Nat) (hi : i < m) :
    ((List.range m).map f).getD i false = f i := by
  rw [List.getD_eq_getElem _ _ (by simpa using hi)]
  simp

/-- The two parts make up the rotation. -/
theorem split_rotation {a : Nat} (ha0 : 0 < a) (ham : a < m) (masks : List (List Bool))
    (W : Nat → Slots R m) {t : Nat} (ht : t < num) :
    rot a (maskV (highMask m a (masks.getD t [])) * W t) +
      rot a (maskV (lowMask m a (masks.getD (nxt num t) [])) * W (nxt num t)) =
      rotated num a masks W t := by
  funext i
  have hi := ZMod.val_lt i
  have hm : 0 < m := by omega
  have htm : (t + 1) * m ≤ num * m := Nat.mul_le_mul_right _ ht
  rw [Nat.add_mul, one_mul] at htm
  rw [Pi.add_apply, rot_mask_apply, rot_mask_apply]
  unfold highMask lowMask
  rw [getD_range_map _ _ _ (Nat.mod_lt _ hm), getD_range_map _ _ _ (Nat.mod_lt _ hm)]
  unfold rotated Marked src
  by_cases hlt : ZMod.val i + a < m
  · rw [Nat.mod_eq_of_lt hlt, Nat.mod_eq_of_lt (by omega)]
    have e : place m (t * m + ZMod.val i + a) = ⟨t, ZMod.val i + a⟩ :=
      place_virt (p := ⟨t, ZMod.val i + a⟩) hlt ▸ by unfold virt; simp only [Nat.add_assoc]
    rw [e]
    simp [show ¬ ZMod.val i + a < a by omega]
  · have e1 : (ZMod.val i + a) % m = ZMod.val i + a - m := by
      rw [Nat.mod_eq_sub_mod (by omega), Nat.mod_eq_of_lt (by omega)]
    have e2 : place m ((t * m + ZMod.val i + a) % (num * m)) = ⟨nxt num t, ZMod.val i + a - m⟩ := by
      have : (t * m + ZMod.val i + a) % (num * m) = virt m ⟨nxt num t, ZMod.val i + a - m⟩ := by
        unfold virt nxt
        split
        · rename_i h
          subst h
          rw [Nat.add_mul, one_mul, Nat.mod_eq_sub_mod (by omega), Nat.mod_eq_of_lt (by omega)]
          simp only [Nat.zero_mul]
          omega
        · have : (t + 1 + 1) * m ≤ num * m := Nat.mul_le_mul_right _ (by omega)
          simp only [Nat.add_mul, one_mul] at *
          rw [Nat.mod_eq_of_lt (by omega)]
          omega
      rw [this, place_virt (by simp only; omega)]
    rw [e1, e2]
    simp [show ZMod.val i + a - m < a by omega]

/-- `applyVirtualRotation` is the rotation of the virtual ciphertext; a missing result receives
nothing. -/
theorem applyVirtualRotation_ok {input : List (KExpr R m)} (hl : input.length = num) (h0 : 0 < num)
    {W : Nat → Slots R m} (hW : ∀ i < num, ∃ e, input[i]? = some e ∧ EvV ok env e (W i))
    {masks : List (List Bool)} (hml : masks.length = num) (hmm : ∀ i < num, (masks.getD i []).length = m)
    {a : Nat} (ha : a % m = 0 ∨ (a < m ∧ ok a = true)) :
    ∃ res, applyVirtualRotation input a masks = some res ∧
      Rep ok env num res (rotated num a masks W) (fun t => ∃ s < m, Marked masks (src m num a t s)) := by
  have hm : 0 < m := Nat.pos_of_ne_zero (NeZero.ne m)
  have hmask : ∀ i < num, masks[i]? = some (masks.getD i []) := by
    intro i hi
    rw [List.getD_eq_getElem _ _ (by omega), List.getElem?_eq_getElem (by omega)]
  unfold applyVirtualRotation
  by_cases hmod : a % m = 0
  · simp only [hmod, if_true, hl]
    have key : ∀ t < num, ∃ e, (List.zipWith maskOrSkip input masks)[(t + a / m + num) % num]? = some e ∧
        EvV ok env e (rotated num a masks W t) := by
      intro t ht
      have hlt : (t + a / m + num) % num < num := Nat.mod_lt _ h0
      obtain ⟨e, he, hev⟩ := hW _ hlt
      refine ⟨maskOrSkip e (masks.getD ((t + a / m + num) % num) []), ?_, ?_⟩
      · rw [List.getElem?_zipWith, he, hmask _ hlt]
      · have := maskOrSkip_ok hev (hmm _ hlt)
        convert this using 1
        funext i
        have hi := ZMod.val_lt i
        have hsrc : src m num a t (ZMod.val i) = ⟨(t + a / m + num) % num, ZMod.val i⟩ := by
          unfold src
          have e1 : t * m + ZMod.val i + a = ZMod.val i + m * (t + a / m) := by
            have := Nat.div_add_mod a m
            rw [hmod] at this
            rw [Nat.mul_add]
            rw [Nat.mul_comm t m]
            omega
          rw [e1, Nat.mul_comm num m, Nat.mod_mul, Nat.add_mul_mod_self_left, Nat.mod_eq_of_lt hi,
            Nat.add_mul_div_left _ _ hm, Nat.div_eq_of_lt hi, Nat.zero_add, Nat.add_mod_right]
          have := place_virt (m := m) (p := ⟨(t + a / m) % num, ZMod.val i⟩) hi
          unfold virt at this
          simp only at this
          rw [Nat.mul_comm, Nat.add_comm] at this
          exact this
        unfold rotated Marked
        simp only [hsrc, Pi.mul_apply, maskV]
        rw [ZMod.natCast_zmod_val]
        split <;> simp
    haveI : Inhabited (KExpr R m) := ⟨zeroE⟩
    choose! f hf1 hf2 using key
    refine ⟨(List.range num).map fun t => some (f t), ?_, by simp, fun t ht => Or.inr ⟨f t, ?_, hf2 t ht⟩⟩
    · refine mapM_some _ _ _ fun t ht => ?_
      rw [hf1 t (List.mem_range.1 ht)]
      rfl
    · simp [ht]
  · obtain ⟨ham, hoka⟩ := ha.resolve_left hmod
    have ha0 : 0 < a := by
      rcases Nat.eq_zero_or_pos a with rfl | h
      · simp at hmod
      · exact h
    simp only [hmod, if_false, hl]
    by_cases h1 : num = 1
    · subst h1
      obtain ⟨e, he, hev⟩ := hW 0 (by omega)
      obtain ⟨ht1, ht2⟩ := targets_ok (num := 1) (c := 0) (by omega) ha0 ham
      refine ⟨[some (rotateSingle e a (masks.getD 0 []))], ?_, rfl,
        fun t ht => Or.inr ⟨rotateSingle e a (masks.getD 0 []), ?_, ?_⟩⟩
      · simp only [List.range_one, List.foldlM_cons, List.foldlM_nil, he, hmask 0 (by omega)]
        unfold rotateOne
        simp only [ht1, ht2]
        simp [prv]
      · obtain rfl : t = 0 := by omega
        rfl
      · obtain rfl : t = 0 := by omega
        have := rotateSingle_ok hev (hmm 0 (by omega)) hoka
        convert this using 1
        funext i
        rw [rot_mask_apply]
        unfold rotated src Marked place
        simp only [Nat.zero_mul, Nat.zero_add, one_mul, Nat.mod_mod,
          Nat.div_eq_of_lt (Nat.mod_lt _ hm)]
    · have h2 : 2 ≤ num := by omega
      obtain ⟨res, hres, val, has, hrep, hval, hhas⟩ := foldlM_range
        (fun results c => match input[c]?, masks[c]? with
          | some ct, some mask => rotateOne num a results c ct mask
          | _, _ => none)
        (fun k results => ∃ val has, Rep ok env num results val has ∧
          (∀ t < num, val t = valUpTo num k
            (fun c => rot a (maskV (lowMask m a (masks.getD c [])) * W c))
            (fun c => rot a (maskV (highMask m a (masks.getD c [])) * W c)) t) ∧
          (∀ t < num, (t < k ∧ (highMask m a (masks.getD t [])).all (!·) = false ∨
            nxt num t < k ∧ (lowMask m a (masks.getD (nxt num t) [])).all (!·) = false) → has t))
        num (List.replicate num none)
        ⟨fun _ => 0, fun _ => False,
          ⟨by simp, fun t ht => Or.inl ⟨by simp [ht], rfl, by simp⟩⟩,
          fun t _ => by simp [valUpTo], by simp⟩
        (by
          rintro k hk results ⟨val, has, hrep, hval, hhas⟩
          obtain ⟨e, he, hev⟩ := hW k hk
          obtain ⟨ht1, ht2⟩ := targets_ok hk ha0 ham
          have hpk : prv num k ≠ k := by unfold prv; split <;> omega
          have hassert : ((prv num k : Nat) + 1 : Int).tmod num = (k : Nat) := by
            change (((prv num k + 1) % num : Nat) : Int) = _
            congr 1
            unfold prv
            split
            · rename_i h; subst h
              rw [show num - 1 + 1 = num by omega, Nat.mod_self]
            · rw [Nat.mod_eq_of_lt (by omega)]; omega
          obtain ⟨r1, hr1, hrep1⟩ := addInto_ok hrep (prv_lt hk) hev hoka
            (lowMask m a (masks.getD k []))
          obtain ⟨r2, hr2, hrep2⟩ := addInto_ok hrep1 hk hev hoka (highMask m a (masks.getD k []))
          refine ⟨r2, ?_, _, _, hrep2, ?_, ?_⟩
          · simp only [he, hmask k hk]
            unfold rotateOne
            simp only [ht1, ht2]
            rw [if_neg (by rw [hassert]; simp), if_neg (by exact_mod_cast hpk)]
            simp only [Int.toNat_natCast]
            unfold lowMask at hr1
            unfold highMask at hr2
            rw [hr1]
            exact hr2
          · exact valUpTo_succ hk h2 _ _ hval
          · intro t ht
            rintro (⟨h1, h2⟩ | ⟨h1, h2⟩)
            · by_cases htk : t = k
              · subst htk
                exact Or.inr ⟨rfl, h2⟩
              · exact Or.inl (Or.inl (hhas t ht (Or.inl ⟨by omega, h2⟩)))
            · by_cases htk : nxt num t = k
              · refine Or.inl (Or.inr ⟨?_, by rw [← htk]; exact h2⟩)
                rw [← htk, prv_nxt ht]
              · exact Or.inl (Or.inl (hhas t ht (Or.inr ⟨by omega, h2⟩))))
      refine ⟨res, hres, hrep.1, fun t ht => ?_⟩
      have hnl : nxt num t < num := by unfold nxt; split <;> omega
      have hv : val t = rotated num a masks W t := by
        rw [hval t ht, ← split_rotation ha0 ham masks W ht]
        unfold valUpTo
        rw [if_pos ht, if_pos hnl]
      rcases hrep.2 t ht with ⟨g1, g2, g3⟩ | ⟨e, g1, g2⟩
      · refine Or.inl ⟨g1, by rw [← hv]; exact g2, ?_⟩
        rintro ⟨s, hs, hmk⟩
        apply g3
        apply hhas t ht
        have htm : (t + 1) * m ≤ num * m := Nat.mul_le_mul_right _ ht
        rw [Nat.add_mul, one_mul] at htm
        unfold Marked src at hmk
        by_cases hlt : s + a < m
        · left
          refine ⟨ht, ?_⟩
          rw [Nat.mod_eq_of_lt (by omega)] at hmk
          have e : place m (t * m + s + a) = ⟨t, s + a⟩ :=
            place_virt (p := ⟨t, s + a⟩) hlt ▸ by unfold virt; simp only [Nat.add_assoc]
          rw [e] at hmk
          rw [Bool.eq_false_iff]
          intro hall
          have := List.all_eq_true.1 hall true (by
            unfold highMask
            refine List.mem_map.2 ⟨s + a, List.mem_range.2 hlt, ?_⟩
            simp only at hmk
            rw [hmk]
            simp)
          simp at this
        · right
          refine ⟨hnl, ?_⟩
          have e2 : place m ((t * m + s + a) % (num * m)) = ⟨nxt num t, s + a - m⟩ := by
            have : (t * m + s + a) % (num * m) = virt m ⟨nxt num t, s + a - m⟩ := by
              unfold virt nxt
              split
              · rename_i h
                subst h
                rw [Nat.add_mul, one_mul, Nat.mod_eq_sub_mod (by omega), Nat.mod_eq_of_lt (by omega)]
                simp only [Nat.zero_mul]
                omega
              · have : (t + 1 + 1) * m ≤ num * m := Nat.mul_le_mul_right _ (by omega)
                simp only [Nat.add_mul, one_mul] at *
                rw [Nat.mod_eq_of_lt (by omega)]
                omega
            rw [this, place_virt (by simp only; omega)]
          rw [e2] at hmk
          rw [Bool.eq_false_iff]
          intro hall
          have := List.all_eq_true.1 hall true (by
            unfold lowMask
            refine List.mem_map.2 ⟨s + a - m, List.mem_range.2 (by omega), ?_⟩
            simp only at hmk
            rw [hmk]
            simp; omega)
          simp at this
      · exact Or.inr ⟨e, g1, by rw [← hv]; exact g2⟩

end Heir.Shift
