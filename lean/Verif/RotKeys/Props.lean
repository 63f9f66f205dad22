import Verif.RotKeys.Main
import Verif.RotKeys.Galois

/-!
# Rotation keys
-/

namespace Heir.RotKeys

open Heir.Dag (Heap Env Lit Kind)

/-! ## C119: every rotation performed has a key -/

/-- The keys found for a function serve every run of it, if each outermost loop rotates by
constants only or its shifts are integers computed by known operations from constants and loop
counters and its results need all its rotations (`tame`).  Without that condition the claim is
false, see below. -/
theorem C119_covers_partial (G : Sig) (F : Block) (cls : Nat → Cls) (W : World) (ρ : Nat → RVal)
    {sc : List Nat} {lo hi p p' : Nat} {keys tr : List Int} {ys : List RVal}
    (hwf : wf lo sc F = some hi) (hsc : ∀ v ∈ sc, v < lo) (ht : tame G F.consts cls sc F = true)
    (hk : rotationIndices G F = some keys) (hx : exec W F ρ p = some (ys, tr, p')) :
    Covers G.slots keys tr :=
  run_covers F hwf hsc (cons_of_wf hwf)
    (fun v hv c hc => by rw [consts_range hwf (hsc v hv)] at hc; simp at hc) ht hk hx

/-- The program `for i in [0, 4) { a = rot(a, i + 1) }; rot(a, -2)`. -/
def exLoop : Block :=
  .op 1 (.const (.int 0)) [] <| .op 2 (.const (.int 4)) [] <| .op 3 (.const (.int 1)) [] <|
  .loop 9 1 2 3 4 [0] [5] [10]
    (.op 6 (.bin .add 64) [4, 3] <| .rot 7 5 [.inr 6] <| .done 8 [7]) <|
  .rot 11 10 [.inl (-2)] <| .done 12 [11]

def exSig : Sig where
  slots := 8
  ty v := if v = 0 ∨ v = 5 ∨ v = 7 ∨ v = 10 then .secret else .scalar

def exCls (v : Nat) : Cls :=
  if v = 0 ∨ v = 5 ∨ v = 7 then .ct1 else if v ≤ 6 then .num else .unk

def exWorld : World := ⟨fun _ => .opaque, fun _ => 1⟩

example : wf 1 [0] exLoop = some 13 ∧ (∀ v ∈ [0], v < 1) ∧
    tame exSig exLoop.consts exCls [0] exLoop = true ∧
    rotationIndices exSig exLoop = some [1, 2, 3, 4, -2] ∧
    (exec exWorld exLoop (fun _ => .opaque) 0).map (·.2.1) = some [1, 2, 3, 4, -2] := by
  decide +kernel

/-- A table of shifts, a conditional on the loop counter, a nested loop and a division:
`for i in [0, 3) { a = i < 1 ? a : rot(a, t[i]); for j in [0, 3) { a = rot(a, (j + 2) / 2) } }`. -/
def exNested : Block :=
  .op 1 (.const (.int 0)) [] <| .op 2 (.const (.int 3)) [] <| .op 3 (.const (.int 1)) [] <|
  .op 4 (.const (.table [7, 5, -3])) [] <| .op 5 (.const (.int 2)) [] <|
  .loop 25 1 2 3 6 [0] [7] [26]
    (.op 8 (.cmp 64 .slt) [6, 3] <|
      .ite 13 8 [14] true (.done 9 [7])
        (.op 10 .extract [4, 6] <| .rot 11 7 [.inr 10] <| .done 12 [11]) <|
      .loop 21 1 2 3 15 [14] [16] [22]
        (.op 17 (.bin .add 64) [15, 5] <| .op 18 (.divs 64) [17, 5] <|
          .rot 19 16 [.inr 18] <| .done 20 [19]) <|
      .done 23 [22]) <|
  .done 27 [26]

def nestedSig : Sig where
  slots := 16
  ty v := if v = 0 then .secret else .scalar

def nestedCls (v : Nat) : Cls :=
  if v ∈ [0, 7, 11, 14, 16, 19, 22] then .ct1 else if v ∈ [1, 2, 3, 5, 6, 10, 15, 17, 18] then .num
  else if v = 4 then .table else if v = 8 then .bool else .unk

example : wf 1 [0] exNested = some 28 ∧
    tame nestedSig exNested.consts nestedCls [0] exNested = true ∧
    rotationIndices nestedSig exNested = some [1, 1, 2, 5, 1, 1, 2, 13, 1, 1, 2] ∧
    (exec exWorld exNested (fun _ => .opaque) 0).map (·.2.1) =
      some [1, 1, 2, 5, 1, 1, 2, -3, 1, 1, 2] := by
  decide +kernel

/-! Programs outside of the condition that run without a key. -/

/-- Constants 0, 4, 1 (values 6, 7, 8) and the loop with counter 9 and iteration argument 10,
initially 4; 4 is a ciphertext, 5 a further argument. -/
def inLoop (body : Block) : Block :=
  .op 6 (.const (.int 0)) [] <| .op 7 (.const (.int 4)) [] <| .op 8 (.const (.int 1)) [] <|
  .loop 40 6 7 8 9 [4] [10] [41] body <| .done 42 [41]

def argSig : Sig where
  slots := 8
  ty v := if v = 4 then .secret else .scalar

/-- Keys are found for the program and a run of it performs a rotation without one. -/
def Missing (G : Sig) (F : Block) : Prop :=
  ∃ (W : World) (ρ : Nat → RVal) (ys : List RVal) (keys tr : List Int) (hi p' : Nat),
    wf 6 [4, 5] F = some hi ∧ rotationIndices G F = some keys ∧
    exec W F ρ 0 = some (ys, tr, p') ∧ ¬ Covers G.slots keys tr

instance (slots : Nat) (keys tr : List Int) : Decidable (Covers slots keys tr) := by
  unfold Covers; infer_instance

theorem Missing.intro (G : Sig) (F : Block) (W : World) (ρ : Nat → RVal)
    (h : (match wf 6 [4, 5] F, rotationIndices G F, exec W F ρ 0 with
      | some _, some keys, some (_, tr, _) => !decide (Covers G.slots keys tr)
      | _, _, _ => false) = true) : Missing G F := by
  split at h
  · next hi keys ys tr p' h1 h2 h3 =>
    exact ⟨W, ρ, ys, keys, tr, hi, p', h1, h2, h3, by simpa using h⟩
  · simp at h

/-- A rotated ciphertext that only an operation without results uses (a store) is not reached from
the results of the loop. -/
theorem C119_store_violated : Missing argSig
    (inLoop (.rot 11 10 [.inr 9] <| .opq [] [(11, true)] <| .done 12 [10])) :=
  .intro _ _ exWorld (fun _ => .opaque) (by decide +kernel)

/-- A condition known at run time only counts as false. -/
theorem C119_condition_violated : Missing argSig
    (inLoop (.ite 14 5 [15] true (.rot 11 10 [.inr 9] <| .done 12 [11]) (.done 13 [10]) <|
      .done 16 [15])) :=
  .intro _ _ exWorld (fun _ => .bool true) (by decide +kernel)

/-- The same for a rotation by a constant after one that is not constant. -/
theorem C119_constant_violated : Missing argSig
    (inLoop (.rot 11 10 [.inr 9] <|
      .ite 15 5 [16] true (.rot 12 11 [.inl 7] <| .done 13 [12]) (.done 14 [11]) <| .done 17 [16])) :=
  .intro _ _ exWorld (fun _ => .bool true) (by decide +kernel)

/-- The result of an operation that is not known (`arith.remsi`) counts as 0. -/
theorem C119_unknown_violated : Missing argSig
    (inLoop (.opq [11] [(9, false)] <| .rot 12 10 [.inr 11] <| .done 13 [12])) :=
  .intro _ _ ⟨fun _ => .int 3, fun _ => 0⟩ (fun _ => .opaque) (by decide +kernel)

/-- An argument of the function counts as 0. -/
theorem C119_argument_violated : Missing argSig
    (inLoop (.rot 11 10 [.inr 5] <| .done 12 [11])) :=
  .intro _ _ exWorld (fun _ => .int 3) (by decide +kernel)

/-- The region of another kind of loop (`affine.for`) is not visited when the loop around it is,
and its rotations, constant or not, count as visited. -/
theorem C119_region_violated : Missing argSig
    (inLoop (.rot 11 10 [.inr 9] <|
      .region [15] [(11, true)] [12] (.rot 13 11 [.inl 7] <| .done 14 [13]) <| .done 16 [15])) :=
  .intro _ _ exWorld (fun _ => .opaque) (by decide +kernel)

/-- A slice of a table of shifts counts as the table: the program
`rot(a, (extract_slice [1, 6, 6, 6] [1] [3])[0])`. -/
theorem C119_slice_violated : Missing argSig
    (inLoop (.op 11 (.const (.table [1, 6, 6, 6])) [] <| .op 12 .slice [11] <|
      .op 13 .extract [12, 6] <| .rot 14 10 [.inr 13] <| .done 15 [14])) :=
  .intro _ _ ⟨fun _ => .table [6, 6, 6], fun _ => 0⟩ (fun _ => .opaque) (by decide +kernel)

/-- Unsigned comparisons are signed: `-1 ult i` is false. -/
theorem C119_unsigned_violated : Missing argSig
    (inLoop (.op 11 (.const (.int (-1))) [] <| .op 12 (.cmp 64 .ult) [11, 9] <|
      .ite 17 12 [18] true (.done 13 [10]) (.op 14 (.bin .add 64) [9, 8] <|
        .rot 15 10 [.inr 14] <| .done 16 [15]) <| .done 19 [18])) :=
  .intro _ _ exWorld (fun _ => .opaque) (by decide +kernel)

/-- Arithmetic on 8 bits does not wrap: 100 + 100 is -56. -/
theorem C119_narrow_violated : Missing { argSig with slots := 1024 }
    (inLoop (.op 11 (.const (.int 100)) [] <| .op 12 (.bin .add 8) [11, 11] <|
      .op 13 (.bin .add 8) [12, 9] <| .rot 14 10 [.inr 13] <| .done 15 [14])) :=
  .intro _ _ exWorld (fun _ => .opaque) (by decide +kernel)

/-- Shifts of a tensor of ciphertexts with two dimensions are reduced modulo its second
dimension, 3 here, not the number of slots. -/
theorem C119_rank_violated :
    Missing ⟨8, fun v => if v = 4 then .secretTensor [2, 3] else .scalar⟩
    (inLoop (.rot 11 10 [.inr 9] <| .done 12 [11])) :=
  .intro _ _ exWorld (fun _ => .opaque) (by decide +kernel)

/-- The division `0 / 2` that the program may perform is a failed assertion of the analysis. -/
theorem C119_division_violated :
    rotationIndices argSig (inLoop (.op 11 (.const (.int 2)) [] <| .op 12 (.divs 64) [9, 11] <|
      .rot 13 10 [.inr 12] <| .done 14 [13])) = none ∧
    (exec exWorld (inLoop (.op 11 (.const (.int 2)) [] <| .op 12 (.divs 64) [9, 11] <|
      .rot 13 10 [.inr 12] <| .done 14 [13])) (fun _ => .opaque) 0).map (·.2.1) =
      some [0, 0, 1, 1] := by
  decide +kernel

/-! ## C120: sharing and caching lose no shift -/

/-- A shift is recorded if and only if the evaluation without a cache, made to stop at that shift,
stops. -/
theorem C120_recorded (D : Heap ROp) (env : Env Lit) (n : Nat) (log : List Int)
    (hD : Dag.Ordered D) (hC : Dag.Closed D [n]) (h : evalRotations D env n = some log) (k : Int) :
    k ∈ log ↔ Dag.den (reject rotSem recOf fun j => decide (j = k)) D env n = none := by
  rw [← evalRotations_iff hD hC h]
  constructor
  · exact fun hk => ⟨k, hk, by simp⟩
  · rintro ⟨j, hj, he⟩
    rw [decide_eq_true_eq] at he
    exact he ▸ hj

/-- A rotation by 3 that two nodes share, and its recorded shift. -/
def sharedDag : Heap ROp
  | 1 => .pure (.konst (.int 3)) []
  | 2 => .pure (.rotate [none]) [0, 1]
  | 3 => .pure (.bin .add) [2, 2]
  | _ => .var

example : evalRotations sharedDag (fun _ => some (.vec [0, 0, 0, 0])) 3 = some [3] := by
  decide +kernel

example : Dag.Ordered sharedDag := by
  intro n c hc
  unfold sharedDag at hc
  split at hc <;> simp [Dag.clearChildren] at hc
  · omega
  · omega

/-! ## C121: Galois elements -/

/-- The Galois element of a rotation by `r` in the ring of degree `2^(m+1)`. -/
theorem C121_power (m : Nat) (r : Int) :
    galoisElement (m + 1) r = 5 ^ (r % 2 ^ m).toNat % 2 ^ (m + 2) := galois_eq m r

example : galoisElement 4 (-3) = 5 ^ 5 % 32 := by decide +kernel

/-- Rotations compose. -/
theorem C121_compose (m : Nat) (r s : Int) :
    galoisElement (m + 1) (r + s) =
      galoisElement (m + 1) r * galoisElement (m + 1) s % 2 ^ (m + 2) := galois_mul m r s

/-- Two rotations share a key if and only if they are the same rotation of half the ring. -/
theorem C121_distinct (m : Nat) (r s : Int) :
    galoisElement (m + 1) r = galoisElement (m + 1) s ↔ (r - s) % 2 ^ m = 0 := galois_inj m r s

/-- The keys generated for the indices found contain the one of each rotation performed. -/
theorem C121_generated {m slots : Nat} {keys tr : List Int} (hs : 2 ^ m ∣ slots)
    (h : Covers slots keys tr) : ∀ x ∈ tr, galoisElement (m + 1) x ∈ keys.map (galoisElement (m + 1)) := by
  intro x hx
  obtain ⟨k, hk, he⟩ := h x hx
  refine List.mem_map.2 ⟨k, hk, (galois_inj m k x).2 ?_⟩
  apply Int.emod_eq_zero_of_dvd
  have h1 : ((2 ^ m : Nat) : Int) ∣ slots := Int.natCast_dvd_natCast.2 hs
  push_cast at h1
  exact h1.trans (Int.dvd_of_emod_eq_zero he)

/-- The Galois elements generated serve every run. -/
theorem C121_keys_partial (G : Sig) (F : Block) (cls : Nat → Cls) (W : World) (ρ : Nat → RVal)
    {sc : List Nat} {lo hi p p' m : Nat} {keys tr : List Int} {ys : List RVal}
    (hwf : wf lo sc F = some hi) (hsc : ∀ v ∈ sc, v < lo) (ht : tame G F.consts cls sc F = true)
    (hk : rotationIndices G F = some keys) (hx : exec W F ρ p = some (ys, tr, p'))
    (hs : 2 ^ m ∣ G.slots) :
    ∀ x ∈ tr, galoisElement (m + 1) x ∈ keys.map (galoisElement (m + 1)) :=
  C121_generated hs (C119_covers_partial G F cls W ρ hwf hsc ht hk hx)

example : 2 ^ 3 ∣ exSig.slots ∧ Covers exSig.slots [1, 2, 3, 4, -2] [1, 2, 3, 4, 6] := by
  decide +kernel

end Heir.RotKeys
