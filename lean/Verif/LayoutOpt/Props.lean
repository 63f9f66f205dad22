import Verif.LayoutOpt.Lemmas2
import Mathlib.Tactic.IntervalCases

/-!
# Rotation counts: properties
-/

namespace Heir.LayoutOpt

/-- The DAG of a list of nodes. -/
def ofList (l : List Node) : Dag := fun n => l.getD n .const

theorem ofList_acyclic (l : List Node)
    (h : ∀ n ∈ List.range l.length, ∀ k ∈ children (l.getD n .const), k < n) :
    Acyclic (ofList l) := by
  intro n k hk
  by_cases hn : n < l.length
  · exact h n (List.mem_range.2 hn) k hk
  · simp [ofList, List.getD, List.getElem?_eq_none (not_lt.1 hn), children] at hk

/-! ## C158: the rotations of a kernel -/

/-- **C158**: in a kernel without loops the count is the number of rotations of ciphertexts when
each node is evaluated once, however often it is used. -/
theorem C158_count_partial {D : Dag} {σ : Nat → Bool} (hD : Acyclic D) (n : Nat)
    (hl : ∀ m ∈ needed D n, noLoop (D m) = true) (hv : VarsDoNotMatter D σ (needed D n)) :
    process D n = total D σ (needed D n) := by
  rw [process_spec hD n hl, total_vars hv]

/-- `r = rot(v)` is used twice, a plaintext is rotated, five shifts at once: six rotations. -/
example : process (ofList [.leaf true, .rot 0, .bin 1 1, .leaf false, .rot 3, .bin 2 4,
    .bulk 5 5]) 6 = 6 ∧
    Acyclic (ofList [.leaf true, .rot 0, .bin 1 1, .leaf false, .rot 3, .bin 2 4, .bulk 5 5]) :=
  ⟨by decide +kernel, ofList_acyclic _ (by decide +kernel)⟩

/-- **C158**: the rotations in the body of a loop are counted once for each iteration, if the body
shares no node with the initial values, the loop has no loops inside, its variables are not rotated
and the step divides the range. -/
theorem C158_loop_partial {D : Dag} {σ : Nat → Bool} (hD : Acyclic D) {n : Nat} {inits : List Nat}
    {body : Nat} {l u st : Int} (hn : D n = .loop inits body l u st) (hst : 0 < st) (hlu : l ≤ u)
    (hdvd : st ∣ u - l) (hl : ∀ m ∈ neededAll D (children (D n)), noLoop (D m) = true)
    (hd : Disjoint (neededAll D inits) (needed D body))
    (hv : VarsDoNotMatter D σ (neededAll D inits ∪ needed D body)) :
    process D n = total D σ (neededAll D inits) + total D σ (needed D body) * trips l u st := by
  rw [process_loop hD hn hl hd,
    total_vars fun m hm => hv m (Finset.mem_union_left _ hm),
    total_vars fun m hm => hv m (Finset.mem_union_right _ hm)]
  congr 2
  obtain ⟨k, hk⟩ := hdvd
  have hk0 : 0 ≤ k := by
    by_contra h
    have : st * k < 0 := mul_neg_of_pos_of_neg hst (by omega)
    omega
  have h1 : (u - l + st - 1) / st = k := by
    rw [hk, show st * k + st - 1 = (st - 1) + st * k by ring, Int.add_mul_ediv_left _ _ hst.ne',
      Int.ediv_eq_zero_of_lt (by omega) (by omega), zero_add]
  rw [trips, h1, hk, Int.mul_tdiv_cancel_left _ hst.ne', Int.toNat_of_nonneg hk0]

/-- Three iterations of `acc + rot(v, i)`: node 1 is the accumulator, node 3 the index. -/
example : process (ofList [.const, .var, .leaf true, .var, .rot 2, .bin 1 4, .yield [5],
    .loop [0] 6 0 6 2]) 7 = 3 ∧ trips 0 6 2 = 3 ∧
    Acyclic (ofList [.const, .var, .leaf true, .var, .rot 2, .bin 1 4, .yield [5],
      .loop [0] 6 0 6 2]) :=
  ⟨by decide +kernel, by decide, ofList_acyclic _ (by decide +kernel)⟩

/-- **C158 violated**: a loop that rotates its accumulator three times counts no rotation, because
variables pass for plaintexts.  The same kernel unrolled counts three. -/
theorem C158_violated_variable :
    process (ofList [.leaf true, .var, .rot 1, .yield [2], .loop [0] 3 0 3 1]) 4 = 0 ∧
    process (ofList [.leaf true, .rot 0, .rot 1, .rot 2]) 3 = 3 ∧
    trips 0 3 1 = 3 ∧
    Secret (ofList [.leaf true, .var, .rot 1, .yield [2], .loop [0] 3 0 3 1]) (fun _ => true) 1 :=
  ⟨by decide +kernel, by decide +kernel, by decide, .var rfl rfl⟩

/-- **C158 violated**: a loop from 0 to 5 in steps of 2 runs three times and is counted twice. -/
theorem C158_violated_trips :
    process (ofList [.const, .leaf true, .rot 1, .yield [2], .loop [0] 3 0 5 2]) 4 = 2 ∧
    trips 0 5 2 = 3 := by
  decide +kernel

/-! ## C159: the cost of a conversion -/

/-- **C159**: the cost is an upper bound of the rotations of every group. -/
theorem C159_least_partial {D : Dag} (hD : Acyclic D) {groups : List (List Nat)} {c : Int}
    (h : conversionCost D groups = some c) :
    ∀ g ∈ groups, rots D (neededAll D g) ≤ c := by
  intro g hg
  obtain ⟨a, ha, hac⟩ := (conversionCost_cases groups c h).1 g hg
  exact (groupCost_least hD g a ha).trans hac

/-- **C159**: the cost is the largest number of rotations of a group, if no rotation is shared: not
between the operands of a node, not between the outputs of a group. -/
theorem C159_exact_partial {D : Dag} (hD : Acyclic D) {groups : List (List Nat)} {c : Int}
    (hs : ∀ g ∈ groups, (∀ v ∈ g, NoSharing D v) ∧ OutputsApart D g)
    (h : conversionCost D groups = some c) :
    (∀ g ∈ groups, rots D (neededAll D g) ≤ c) ∧
      (c = 0 ∨ ∃ g ∈ groups, c = rots D (neededAll D g)) := by
  refine ⟨C159_least_partial hD h, ?_⟩
  rcases (conversionCost_cases groups c h).2.1 with h0 | ⟨g, hg, hgc⟩
  · exact Or.inl h0
  · exact Or.inr ⟨g, hg, groupCost_exact hD g c (hs g hg).1 (hs g hg).2 hgc⟩

/-- Two groups: one rotation, two rotations. -/
example : conversionCost (ofList [.leaf true, .rot 0, .rot 1, .leaf true, .rot 3]) [[4], [2]] =
    some 2 := by
  decide +kernel

/-- The sum of a rotated and of a kept part of one input shares the input, not a rotation. -/
example : NoSharing (ofList [.leaf true, .rot 0, .bin 0 1]) 2 := by
  have hD : Acyclic (ofList [.leaf true, .rot 0, .bin 0 1]) := ofList_acyclic _ (by decide)
  intro m hm l r h x hx
  have hm' := ((mem_needed hD).1 hm).le hD
  have : l = 0 ∧ r = 1 := by interval_cases m <;> simp_all [ofList]
  obtain ⟨rfl, rfl⟩ := this
  have := ((mem_needed hD).1 (Finset.mem_inter.1 hx).1).le hD
  obtain rfl : x = 0 := by omega
  rfl

example : conversionCost (ofList [.leaf true, .rot 0, .bin 0 1]) [[2]] = some 1 := by
  decide +kernel

/-- **C159**: the cost is defined (no assertion fails) exactly when no output of a group needs a
node that the visitor does not know. -/
theorem C159_defined {D : Dag} (hD : Acyclic D) (g : List Nat) :
    (groupCost D g).isSome ↔ ∀ m ∈ neededAll D g, plain (D m) = true :=
  groupCost_some hD g

/-- **C159 violated**: a ciphertext that is no target of a group is a splat of zeros, which the
visitor does not know. -/
theorem C159_violated_splat :
    conversionCost (ofList [.leaf true, .leaf true, .rot 0, .splat]) [[2, 3]] = none := by
  decide +kernel

/-- **C159 violated**: a network of `k` rounds performs `k` rotations and costs `2 ^ k - 1`, for
every `k`: the count of a node is added again for each of its uses. -/
theorem C159_violated_rounds (k : Nat) :
    conversionCost network [[6 * k]] = some (2 ^ k - 1) ∧
      rots network (neededAll network [6 * k]) = k := by
  have hall : neededAll network [6 * k] = needed network (6 * k) := by
    rw [neededAll_cons]; simp [neededAll]
  refine ⟨?_, by rw [hall]; exact network_rots k⟩
  have hp : ∀ n, plain (network n) = true := by
    intro n
    unfold network
    split
    · rfl
    · split <;> rfl
  obtain ⟨c, hc⟩ := Option.isSome_iff_exists.1
    ((groupCost_some network_acyclic [6 * k]).2 fun m _ => hp m)
  have hcv : c = 2 ^ k - 1 := by
    have hc' := hc
    simp only [groupCost, Option.bind_eq_bind, Option.pure_def, Option.bind_eq_some_iff,
      Option.some.injEq] at hc'
    obtain ⟨a, ha, b, hb, rfl⟩ := hc'
    rw [network_cost ha, (networkCount_round k).1, ← hb, add_zero]
  subst hcv
  have h0 : (0 : Int) ≤ 2 ^ k - 1 := by
    have : (1 : Int) ≤ 2 ^ k := one_le_pow₀ (by norm_num)
    omega
  simp [conversionCost, hc, max_eq_left h0]

/-- **C159 violated**: a rotation that two outputs of a group share is counted for each of them. -/
theorem C159_violated_outputs :
    conversionCost (ofList [.leaf true, .rot 0, .const, .bin 1 2, .bin 2 1]) [[3, 4]] = some 2 ∧
      rots (ofList [.leaf true, .rot 0, .const, .bin 1 2, .bin 2 1]) {0, 1, 2, 3, 4} = 1 := by
  constructor <;> decide +kernel

end Heir.LayoutOpt
