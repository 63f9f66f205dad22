import Verif.Preproc.Lemmas6

/-!
# Split functions return what the function returned
-/

namespace Heir.Preproc

variable {V K : Type}

theorem live_eq (m : List Func) : live m = encoders m := by
  induction m with
  | nil => rfl
  | cons f m ih =>
    simp only [live, encoders, List.flatMap_cons, List.filter_cons] at ih ⊢
    rw [ih]
    by_cases hf : f.helper <;> simp [hf]

/-- What `split` did to each function. -/
theorem split_spec {ct : Nat → Bool} {m : List Func} {fs : List (Func × Option Split)} (h : split ct m = some fs) :
    List.Forall₂ (fun f x => ∃ k, x.1 = { f with code := (number f.code k).1 } ∧ x.1 ∈ numberAll m 0 ∧
      convert ct x.1 = some x.2) m fs ∧
    List.Forall₂ (fun f x => (convert ct f).map (fun s => (f, s)) = some x) (numberAll m 0) fs := by
  have h1 := mapM_some h
  refine ⟨(forall2_trans (numberAll_forall₂ m 0) h1).imp ?_, h1⟩
  rintro f x ⟨g, hg, ⟨k, rfl⟩, hx⟩
  obtain ⟨o, ho, rfl⟩ := Option.map_eq_some_iff.mp hx
  exact ⟨k, rfl, hg, ho⟩

theorem good_number {ct : Nat → Bool} {f : Func} (h : Good ct f) (k : Nat) :
    Good ct { f with code := (number f.code k).1 } :=
  ⟨(number_source _ _).mpr h.1, (number_typed _ _ _).mpr h.2.1, by
    have := h.2.2; simpa only [Ssa, number_defs] using this⟩

theorem numberAll_mem {m : List Func} {n : Nat} {g : Func} (h : g ∈ numberAll m n) :
    ∃ f ∈ m, ∃ k, g = { f with code := (number f.code k).1 } := by
  obtain ⟨f, hf, k, hk⟩ := forall2_mem_right (numberAll_forall₂ m n) h
  exact ⟨f, hf, k, hk⟩

theorem source_numberAll {m : List Func} (h : ∀ f ∈ m, Source f.code) (n : Nat) : ∀ f ∈ numberAll m n, Source f.code := by
  intro g hg
  obtain ⟨f, hf, k, rfl⟩ := numberAll_mem hg
  exact (number_source _ _).mpr (h f hf)

theorem flatMap_mem_nodup {α : Type} {g : Func → List α} {h : α → Nat} : ∀ {m : List Func} {f : Func}, f ∈ m →
    ((m.flatMap g).map h).Nodup → ((g f).map h).Nodup := by
  intro m f hf hn
  refine List.Nodup.sublist (List.Sublist.map _ ?_) hn
  exact List.sublist_flatten_of_mem (List.mem_map.mpr ⟨f, hf, rfl⟩)

theorem sites_nodup (m : List Func) : (((numberAll m 0).flatMap fun f => encs [] f.code).map (·.1)).Nodup := by
  rw [numberAll_sites]
  exact List.nodup_range.map fun a b h => by simpa using h

theorem forall2_mem {α β : Type} {R : α → β → Prop} {l : List α} {l' : List β} (h : List.Forall₂ R l l') :
    List.Forall₂ (fun a b => a ∈ l ∧ R a b) l l' := by
  induction h with
  | nil => exact .nil
  | cons hx _ ih => exact .cons ⟨by simp, hx⟩ (ih.imp fun a b ⟨ha, hr⟩ => ⟨by simp [ha], hr⟩)

/-- All ways to place stores. -/
theorem returns_of_key [DecidableEq K] {I : Interp V} (hI : I.Lawful) {ct : Nat → Bool} {m : List Func}
    {fs : List (Func × Option Split)} (hg : ∀ f ∈ m, Good ct f) (h : split ct m = some fs) (key : Ref → Option K)
    (hk : ∀ g ∈ numberAll m 0, g.helper = false → ∀ r, IsRef g.code r → ∃ k, key r = some k)
    (hi : ∀ g ∈ numberAll m 0, g.helper = false → ∀ r r', IsRef g.code r → IsRef g.code r' → key r = key r' →
      r.site = r'.site ∧ r.idx = r'.idx) :
    List.Forall₂ (Returns I key) m fs := by
  obtain ⟨h1, -⟩ := split_spec h
  have h2 : List.Forall₂ (fun f x => f ∈ m ∧ ∃ k, x.1 = { f with code := (number f.code k).1 } ∧ x.1 ∈ numberAll m 0 ∧
      convert ct x.1 = some x.2) m fs := by
    exact forall2_mem h1
  refine h2.imp ?_
  rintro f ⟨g, o⟩ ⟨hf, k, rfl, hmem, hc⟩
  cases o with
  | none => intro vals; simp [number_eval]
  | some s =>
    intro vals dummy
    obtain ⟨g1, g2, g3⟩ := good_number (hg f hf) k
    have hh : f.helper = false := by
      rcases convert_spec hc with ⟨h', -⟩ | ⟨-, h', -⟩
      · cases h'
      · exact h'
    rw [runSplit_spec hI key g1 g2 g3 (flatMap_mem_nodup hmem (sites_nodup m)) hc (hk _ hmem hh) (hi _ hmem hh) vals dummy]
    simp [number_eval]

/-! ## C171 -/

/-- The functions made by `split-preprocessing` return what the original
function returns, whatever the operations mean and whatever is passed for the
arguments that the encoding function does not take. -/
theorem C171_split_partial {I : Interp V} (hI : I.Lawful) {ct : Nat → Bool} {m : List Func}
    {fs : List (Func × Option Split)} (hg : ∀ f ∈ m, Good ct f) (h : split ct m = some fs) :
    List.Forall₂ (Returns I abstractKey) m fs :=
  returns_of_key hI hg h abstractKey (fun _ _ _ r _ => ⟨_, rfl⟩) fun _ _ _ r r' _ _ he => by
    simpa [abstractKey] using he

/-- Numbers as values: function 0 adds, 1 is the constant 5. -/
def sample : Interp Int where
  fn f xs := if f = 0 then [xs.sum] else if f = 1 then [5] else xs
  enc _ _ xs := 100 + xs.sum
  truth x := x = 1
  ofInt k := k
  toInt x := x
  unpack x := x
  pack x := x

theorem sample_lawful : sample.Lawful := ⟨fun _ => rfl, fun _ _ => rfl⟩

/-- `%0` is a ciphertext, `%1` a cleartext; a loop from 2 to 7 by 2 adds to a
ciphertext the encoding of `%1 + i`, as a tensor, and after it that of `%1`. -/
def loopFunc : Func where
  args := [0, 1]
  code := .loop 0 [2] 3 ⟨2, 7, 2⟩ [0] [4]
    (.op 1 [5] 0 [1, 3] (.enc 2 0 6 0 7 [1] [5] (.op 3 [8] 0 [4, 6] .done))) [8]
    (.enc 4 0 9 0 7 [] [1] (.op 5 [10] 0 [2, 9] .done))
  rets := [10]
  helper := false

/-- `%0`, `%2`, `%4`, `%8` and `%10` are ciphertexts. -/
def loopCt : Nat → Bool := fun v => decide (v ∈ [0, 2, 4, 8, 10])

theorem loopFunc_good : Good loopCt loopFunc := by
  refine ⟨?_, ?_, ?_⟩
  · simp [loopFunc, Source]
  · simp [loopFunc, Typed, loopCt]
  · unfold Ssa; decide +kernel

/-- The values of a loop variable are those of the form `lb + k * step` below `ub`, in order. -/
theorem C171_iterations {l : Loop} (hs : 0 < l.step) :
    l.ivals.Pairwise (· < ·) ∧ ∀ v, v ∈ l.ivals ↔ v < l.ub ∧ ∃ k : Nat, v = l.lb + k * l.step := by
  refine ⟨?_, fun v => ?_⟩
  · rw [Loop.ivals, List.pairwise_map]
    refine List.pairwise_lt_range.imp fun {a b} h => ?_
    have : (a : Int) * l.step < b * l.step := Int.mul_lt_mul_of_pos_right (by omega) hs
    omega
  · have ht : ∀ k : Nat, k < l.trip ↔ l.lb + k * l.step < l.ub := by
      intro k
      rw [Loop.trip, if_pos hs, Int.lt_toNat, Int.lt_iff_add_one_le, Int.le_ediv_iff_mul_le hs, Int.add_mul]
      omega
    simp only [Loop.ivals, List.mem_map, List.mem_range]
    constructor
    · rintro ⟨k, hk, rfl⟩; exact ⟨(ht k).1 hk, k, rfl⟩
    · rintro ⟨h, k, rfl⟩; exact ⟨k, (ht k).2 h, rfl⟩

/-- The shapes of all encoded values. -/
def encoded : Code → List (List Nat)
  | .done => []
  | .op _ _ _ _ rest => encoded rest
  | .enc _ _ _ _ _ shape _ rest => shape :: encoded rest
  | .ite _ _ _ t _ e _ rest => encoded t ++ encoded e ++ encoded rest
  | .loop _ _ _ _ _ _ body _ rest => encoded body ++ encoded rest
  | .store _ _ _ _ _ rest => encoded rest
  | .load _ _ _ _ _ rest => encoded rest

/-- Functions are accepted only if each encoded value is one plaintext: a scalar or a tensor of one
element and one dimension. -/
theorem C171_types (c : Code) :
    allowed c = true ↔ ∀ sh ∈ encoded c, sh.prod = 1 ∧ sh.length ≤ 1 := by
  have h : ∀ sh : List Nat, allowedShape sh = true ↔ sh.prod = 1 ∧ sh.length ≤ 1 := by
    intro sh
    rcases sh with _ | ⟨a, _ | ⟨b, r⟩⟩ <;> simp [allowedShape]
  induction c with
  | done => simp [allowed, encoded]
  | op _ _ _ _ _ ih => simpa [allowed, encoded] using ih
  | enc _ _ _ _ _ _ _ _ ih => simp only [allowed, encoded, Bool.and_eq_true, h, ih, List.forall_mem_cons]
  | ite _ _ _ _ _ _ _ _ ih1 ih2 ih3 =>
    simp only [allowed, encoded, Bool.and_eq_true, ih1, ih2, ih3, List.forall_mem_append]
  | loop _ _ _ _ _ _ _ _ _ ih1 ih2 =>
    simp only [allowed, encoded, Bool.and_eq_true, ih1, ih2, List.forall_mem_append]
  | store _ _ _ _ _ _ ih => simpa [allowed, encoded] using ih
  | load _ _ _ _ _ _ ih => simpa [allowed, encoded] using ih

/-- Not vacuous: the split exists, stores two sites, and the results are what the
loop computes, also with other values for the ciphertext in the encoder. -/
example : (∀ f ∈ [loopFunc], Good loopCt f) ∧
    (split loopCt [loopFunc]).map (fun fs => fs.map fun x => x.2.map fun s => (s.inputs,
      runSplit sample abstractKey x.1 s (fun v => if v = 0 then 1000 else 3) (fun _ => 77))) =
        some [some ([1], ([1000 + 105 + 107 + 109 + 103], true))] :=
  ⟨by simpa using loopFunc_good, by decide +kernel⟩

/-- `%2` is computed from the ciphertext `%0` and encoded. -/
def decryptFunc : Func where
  args := [0, 1]
  code := .op 0 [2] 0 [0, 1] (.enc 1 0 3 0 7 [] [2] .done)
  rets := [3]
  helper := false

/-- If a cleartext is computed from a ciphertext and then encoded (as
`lwe.rlwe_decrypt` allows), the encoding function starts without the
ciphertext: the pass succeeds and the result depends on a placeholder. -/
theorem C171_violated_decrypt : Source decryptFunc.code ∧ Ssa decryptFunc ∧
    ∃ s, (split (· == 0) [decryptFunc]).map (fun fs => fs.map (·.2)) = some [some s] ∧ s.inputs = [1] ∧
      ∀ x y d : Int, runSplit sample abstractKey decryptFunc s (fun v => if v = 0 then x else y) (fun _ => d) ≠
        runSplit sample abstractKey decryptFunc s (fun v => if v = 0 then x else y) (fun _ => d + 1) := by
  refine ⟨by simp [decryptFunc, Source], by unfold Ssa; decide +kernel,
    ⟨[1], .op 0 [2] 0 [0, 1] (.enc 1 0 3 0 7 [] [2] (.store 0 7 3 false [] .done)),
      .op 0 [2] 0 [0, 1] (.load 0 7 3 false [] .done)⟩, ?_, rfl, ?_⟩
  · rw [show (split (· == 0) [decryptFunc]) = some [(decryptFunc, some
      ⟨inputs (· == 0) decryptFunc.code, slice (deps decryptFunc.code) [] decryptFunc.code, loads [] decryptFunc.code⟩)]
      from rfl]
    simp only [Option.map_some, List.map_cons, List.map_nil]
    rw [show inputs (· == 0) decryptFunc.code = [1] by decide +kernel,
      show slice (deps decryptFunc.code) [] decryptFunc.code =
        .op 0 [2] 0 [0, 1] (.enc 1 0 3 0 7 [] [2] (.store 0 7 3 false [] .done)) by decide +kernel]
    rfl
  · intro x y d
    simp [runSplit, decryptFunc, run, State.set, State.write, State.read, prepEnv, setAll, abstractKey, sample]

/-! ## C172 -/

/-- The operations cloned into the encoding function are those that encoding
needs, and no others. -/
theorem C172_needed (c : Code) (o : Nat) : o ∈ deps c ↔ Needed c o := by
  obtain ⟨h1, h2, h3⟩ := deps_spec c
  constructor
  · refine h3 (Needed c) (fun r hr he => .enc hr he) (fun o ho x hx => ?_) o
    obtain ⟨r, hr, rfl, hq | ⟨v, hv, d, hd, hvd, rfl⟩⟩ := mem_succs.mp hx
    · exact .around hr ho hq
    · exact .operand hr ho hv hd hvd
  · intro h
    induction h with
    | enc hr he => exact h1 _ hr he
    | around hr _ hq ih => exact h2 _ ih _ (mem_succs.mpr ⟨_, hr, rfl, .inl hq⟩)
    | operand hr _ hv hd hvd ih => exact h2 _ ih _ (mem_succs.mpr ⟨_, hr, rfl, .inr ⟨_, hv, _, hd, hvd, rfl⟩⟩)

/-- The encoding function has exactly the needed operations, in their order
and in the same regions; the other function has all but the encoders; the
encoding function takes the operands of needed operations that no needed
operation defines, and no ciphertext. -/
theorem C172_functions_partial {ct : Nat → Bool} {f : Func} {s : Split} (hs : Source f.code)
    (h : convert ct f = some (some s)) :
    (∃ T : List Nat, (∀ o, o ∈ T ↔ Needed f.code o) ∧ rows none s.prep = (rows none f.code).filter (·.id ∈ T)) ∧
    rows none s.main = (rows none f.code).filter (!·.isEnc) ∧ s.inputs.Nodup ∧
    ∀ v, v ∈ s.inputs ↔ ct v = false ∧ (∃ r ∈ rows none f.code, Needed f.code r.id ∧ v ∈ r.uses) ∧
      ∀ d ∈ rows none f.code, v ∈ d.defs → ¬ Needed f.code d.id := by
  rcases convert_spec h with ⟨h', -⟩ | ⟨h', -, -⟩
  · cases h'
  · cases h'
    refine ⟨⟨deps f.code, C172_needed f.code, (slice_stores f.code none [] [] hs (up_deps _) rfl).2⟩,
      (loads_loads f.code none [] [] hs rfl).2.1, List.nodup_dedup _, fun v => ?_⟩
    simp only [inputs, List.mem_dedup, List.mem_filter, List.mem_flatMap, Bool.and_eq_true, Bool.not_eq_true',
      List.all_eq_true, Bool.and_eq_false_iff, decide_eq_false_iff_not, decide_eq_true_eq, ← C172_needed]
    constructor
    · rintro ⟨⟨o, ho, r, ⟨hr, rfl⟩, hv⟩, hc, hd⟩
      exact ⟨hc, ⟨r, hr, ho, hv⟩, fun d hdm hvd hdn => (hd d hdm).elim (fun h => h hvd) (fun h => h hdn)⟩
    · rintro ⟨hc, ⟨r, hr, ho, hv⟩, hd⟩
      refine ⟨⟨r.id, ho, r, ⟨hr, rfl⟩, hv⟩, hc, fun d hdm => ?_⟩
      by_cases hvd : v ∈ d.defs
      · exact .inr (hd d hdm hvd)
      · exact .inl hvd

/-- Not vacuous: the addition 5 of ciphertexts is not cloned, the addition 1 of cleartexts is. -/
example : Source loopFunc.code ∧ (convert loopCt loopFunc).isSome = true ∧ 5 ∉ deps loopFunc.code ∧
    1 ∈ deps loopFunc.code :=
  ⟨loopFunc_good.1, by decide +kernel, by decide +kernel, by decide +kernel⟩

/-- A loop that carries a ciphertext is cloned with what it computes for it:
the addition of ciphertexts 3 is needed as it defines what the loop yields. -/
theorem C172_ciphertext_operations : Good loopCt loopFunc ∧ Needed loopFunc.code 3 ∧ loopCt 8 = true ∧
    ∃ r ∈ rows none loopFunc.code, r.id = 3 ∧ r.defs = [8] := by
  refine ⟨loopFunc_good, (C172_needed _ _).mp (by decide +kernel), rfl, ⟨3, some 0, false, [4, 6], [8]⟩, ?_, rfl, rfl⟩
  decide +kernel

/-! ## C173 -/

theorem ref_access {m : List Func} {g : Func} (hg : g ∈ numberAll m 0) (hh : g.helper = false) {r : Ref}
    (hr : IsRef g.code r) : ∃ a ∈ (live (numberAll m 0)).map mk, a.site = r.site ∧ a.ty = r.ty ∧ a.loops = r.loops :=
  ⟨mk (r.site, r.ty, r.loops), List.mem_map.mpr ⟨_, List.mem_flatMap.mpr ⟨g, hg, by simpa [hh] using hr.1⟩, rfl⟩,
    rfl, rfl, rfl⟩

/-- After the analysis of a split module, each iteration of each encoder of
each function has a place within the memory of its type, and two have
different places, in all functions together. -/
theorem C173_places_partial {ct : Nat → Bool} {m : List Func} {fs : List (Func × Option Split)} {L : Layout}
    (hs : ∀ f ∈ m, Source f.code) (h : split ct m = some fs)
    (hL : analyze (moduleStores fs) (moduleLoads fs) = some L) :
    (∀ x ∈ fs, x.1.helper = false → ∀ r, IsRef x.1.code r →
      ∃ a, flatKey L r = some (r.ty, a) ∧ 0 ≤ a ∧ a < L.total r.ty) ∧
    ∀ x ∈ fs, ∀ y ∈ fs, x.1.helper = false → y.1.helper = false → ∀ r r', IsRef x.1.code r → IsRef y.1.code r' →
      flatKey L r = flatKey L r' → r.site = r'.site ∧ r.idx = r'.idx := by
  obtain ⟨h1, h2⟩ := split_spec h
  obtain ⟨h3, h4⟩ := module_stores (source_numberAll hs 0) h2
  rw [h3, h4] at hL
  have hmem : ∀ x ∈ fs, x.1 ∈ numberAll m 0 := fun x hx => by
    obtain ⟨f, -, k, -, h5, -⟩ := forall2_mem_right h1 hx
    exact h5
  refine ⟨fun x hx hh r hr => ?_, fun x hx y hy hhx hhy r r' hr hr' he => ?_⟩
  · obtain ⟨a, ha, k1, k2, k3⟩ := ref_access (hmem x hx) hh hr
    obtain ⟨e, he, l1, l2, l3, l4, l5⟩ := flatKey_eq hL ha k1 k2 k3 hr.2
    have := (analyze_spec hL).2.1 e he
    rw [l1] at this
    exact ⟨_, l5, by omega, by omega⟩
  · obtain ⟨a, ha, k1, k2, k3⟩ := ref_access (hmem x hx) hhx hr
    obtain ⟨a', ha', k1', k2', k3'⟩ := ref_access (hmem y hy) hhy hr'
    exact flatKey_inj hL ha k1 k2 k3 hr.2 ha' k1' k2' k3' hr'.2 he

/-- Not vacuous: the three iterations of site 0 are at 0, 1 and 2 and site 1
is at 3 of 4 places. -/
example : ((split loopCt [loopFunc]).bind fun fs => (analyze (moduleStores fs) (moduleLoads fs)).map fun L =>
    (L.total 7, [2, 4, 6].map fun i => flatKey L ⟨0, 7, [⟨2, 7, 2⟩], [i]⟩, flatKey L ⟨1, 7, [], []⟩)) =
    some (4, [some (7, 0), some (7, 1), some (7, 2)], some (7, 3)) := by
  decide +kernel

/-! ## C174 -/

/-- Lowered to flat memory, the functions made from one return what it
returned, and no access is out of bounds or of what was not stored. -/
theorem C174_lowered_partial {I : Interp V} (hI : I.Lawful) {ct : Nat → Bool} {m : List Func}
    {fs : List (Func × Option Split)} {L : Layout} (hg : ∀ f ∈ m, Good ct f) (h : split ct m = some fs)
    (hL : analyze (moduleStores fs) (moduleLoads fs) = some L) :
    List.Forall₂ (Returns I (flatKey L)) m fs := by
  obtain ⟨h1, h2⟩ := split_spec h
  obtain ⟨h3, h4⟩ := module_stores (source_numberAll (fun f hf => (hg f hf).1) 0) h2
  rw [h3, h4] at hL
  refine returns_of_key hI hg h (flatKey L) (fun g hgm hh r hr => ?_) (fun g hgm hh r r' hr hr' he => ?_)
  · obtain ⟨a, ha, k1, k2, k3⟩ := ref_access hgm hh hr
    obtain ⟨e, he, l1, l2, l3, l4, l5⟩ := flatKey_eq hL ha k1 k2 k3 hr.2
    exact ⟨_, l5⟩
  · obtain ⟨a, ha, k1, k2, k3⟩ := ref_access hgm hh hr
    obtain ⟨a', ha', k1', k2', k3'⟩ := ref_access hgm hh hr'
    exact flatKey_inj hL ha k1 k2 k3 hr.2 ha' k1' k2' k3' hr'.2 he

/-- Not vacuous. -/
example : ((split loopCt [loopFunc]).bind fun fs => (analyze (moduleStores fs) (moduleLoads fs)).map fun L =>
    fs.map fun x => x.2.map fun s =>
      runSplit sample (flatKey L) x.1 s (fun v => if v = 0 then 1000 else 3) (fun _ => 77)) =
    some [some ([1000 + 105 + 107 + 109 + 103], true)] := by
  decide +kernel

/-! ## C175 -/

/-- The analysis of a split module fails only if a number of iterations or of
plaintexts of a type does not fit 64 bits, and the memory of a type has as
many places as plaintexts of that type are stored. -/
theorem C175_analysis_partial {ct : Nat → Bool} {m : List Func} {fs : List (Func × Option Split)}
    (hs : ∀ f ∈ m, Source f.code) (h : split ct m = some fs) :
    ((∃ L, analyze (moduleStores fs) (moduleLoads fs) = some L) ↔
      (∀ x ∈ encoders m, ∀ p, p <:+ x.2.2 → iterations p < 2 ^ 63) ∧ ∀ t, plaintexts m t < 2 ^ 63) ∧
    ∀ L, analyze (moduleStores fs) (moduleLoads fs) = some L → ∀ t, L.total t = plaintexts m t := by
  obtain ⟨h1, h2⟩ := split_spec h
  obtain ⟨h3, h4⟩ := module_stores (source_numberAll hs 0) h2
  rw [h3, h4]
  have hl := live_number m 0
  have hsize : ∀ t, sizeOf ((live (numberAll m 0)).map mk) t = plaintexts m t := by
    intro t
    have e1 : ∀ l : List (Nat × Nat × List Loop), sizeOf (l.map mk) t =
        (((l.map (·.2)).filter (·.1 = t)).map fun y => iterations y.2).sum := by
      intro l
      simp only [sizeOf, List.filter_map, List.map_map]
      rfl
    have e2 : plaintexts m t = ((((encoders m).map (·.2)).filter (·.1 = t)).map fun y => iterations y.2).sum := by
      simp only [plaintexts, List.filter_map, List.map_map]
      rfl
    rw [e1, e2, hl, live_eq]
  have hloops : (∀ a ∈ (live (numberAll m 0)).map mk, ∀ p, p <:+ a.loops → trips p < 2 ^ 63) ↔
      ∀ x ∈ encoders m, ∀ p, p <:+ x.2.2 → iterations p < 2 ^ 63 := by
    have e1 : ∀ l : List (Nat × Nat × List Loop), (∀ a ∈ l.map mk, ∀ p, p <:+ a.loops → trips p < 2 ^ 63) ↔
        ∀ y ∈ l.map (·.2), ∀ p, p <:+ y.2 → iterations p < 2 ^ 63 := by
      intro l
      simp only [List.forall_mem_map]
      rfl
    have e2 : (∀ x ∈ encoders m, ∀ p, p <:+ x.2.2 → iterations p < 2 ^ 63) ↔
        ∀ y ∈ (encoders m).map (·.2), ∀ p, p <:+ y.2 → iterations p < 2 ^ 63 := by
      simp only [List.forall_mem_map]
    rw [e1, e2, hl, live_eq]
  obtain ⟨h5, h6⟩ := analyze_iff ((live (numberAll m 0)).map mk) ((live (numberAll m 0)).map mk)
  refine ⟨?_, fun L hL t => by rw [h6 L hL t, hsize]⟩
  rw [h5, hloops]
  simp only [hsize]
  refine ⟨fun hh => hh.2, fun hh => ⟨⟨?_, fun l hl => ⟨l, hl, rfl, rfl⟩⟩, hh⟩⟩
  have := live_nodup m 0
  simpa [mk, Function.comp_def] using this

/-- Not vacuous, and the bound matters: a loop of 2^63 iterations does not
pass although it runs within another that never runs. -/
example : (∃ fs, split loopCt [loopFunc] = some fs) ∧ plaintexts [loopFunc] 7 = 4 ∧
    calcSize [⟨0, 2 ^ 63, 1⟩, ⟨0, 0, 1⟩] 1 = none ∧ iterations [⟨0, 0, 1⟩, ⟨0, 2 ^ 63, 1⟩] = 0 := by
  refine ⟨?_, by decide +kernel, by decide +kernel, by decide +kernel⟩
  rw [← Option.isSome_iff_exists]
  decide +kernel

/-! ## C176 -/

/-- `validate-preprocessing` accepts what `split-preprocessing` makes: each
site is stored once and loaded once, with as many indices and of one type. -/
theorem C176_validate_partial {ct : Nat → Bool} {m : List Func} {fs : List (Func × Option Split)}
    (hs : ∀ f ∈ m, Source f.code) (h : split ct m = some fs) :
    validate (moduleStores fs) (moduleLoads fs) = true := by
  obtain ⟨h1, h2⟩ := split_spec h
  obtain ⟨h3, h4⟩ := module_stores (source_numberAll hs 0) h2
  rw [h3, h4]
  have hn : (((live (numberAll m 0)).map mk).map (·.site)).Nodup := by
    have := live_nodup m 0
    simpa [mk, Function.comp_def] using this
  generalize (live (numberAll m 0)).map mk = as at hn
  have key : ∀ a ∈ as, as.filter (·.site = a.site) = [a] := by
    intro a ha
    have hnd : (as.filter (·.site = a.site)).Nodup := (List.Nodup.of_map _ hn).filter _
    have hsub : ∀ b ∈ as.filter (·.site = a.site), b = a := fun b hb => by
      obtain ⟨hb1, hb2⟩ := List.mem_filter.mp hb
      exact List.inj_on_of_nodup_map hn hb1 ha (by simpa using hb2)
    have hmem : a ∈ as.filter (·.site = a.site) := List.mem_filter.mpr ⟨ha, by simp⟩
    rcases hl : as.filter (·.site = a.site) with _ | ⟨b, _ | ⟨c, l⟩⟩
    · rw [hl] at hmem; simp at hmem
    · rw [hl] at hsub; exact hl.trans (congrArg (fun x => [x]) (hsub b (by simp)))
    · rw [hl] at hsub hnd
      have := hsub b (by simp); have := hsub c (by simp); subst this; simp_all
  simp only [validate, List.all_eq_true, List.mem_append, or_self]
  intro a ha
  rw [key a ha]
  simp

/-- What the checks mean: the sites stored and the sites loaded are the same,
each once, with the same type and number of indices. -/
theorem C176_meaning (stores loads : List Access) : validate stores loads = true →
    (stores.map (·.site)).Nodup ∧ (loads.map (·.site)).Nodup ∧
    ∀ n, (∃ s ∈ stores, s.site = n) ∨ (∃ l ∈ loads, l.site = n) →
      ∃ s ∈ stores, ∃ l ∈ loads, s.site = n ∧ l.site = n ∧ s.ty = l.ty ∧ s.arity = l.arity := by
  intro h
  simp only [validate, List.all_eq_true, List.mem_append] at h
  have one : ∀ a, a ∈ stores ∨ a ∈ loads → ∃ s l, stores.filter (·.site = a.site) = [s] ∧
      loads.filter (·.site = a.site) = [l] ∧ s.arity = l.arity ∧ s.ty = l.ty := by
    intro a ha
    have := h a ha
    split at this
    · rename_i s l hs hl
      simp only [Bool.and_eq_true, decide_eq_true_eq] at this
      exact ⟨s, l, hs, hl, this.1, this.2⟩
    · simp at this
  have nd : ∀ as : List Access, (∀ a ∈ as, ∃ s, as.filter (·.site = a.site) = [s]) → (as.map (·.site)).Nodup := by
    intro as ha
    rw [List.nodup_iff_count_le_one]
    intro n
    by_cases hn : n ∈ as.map (·.site)
    · obtain ⟨a, ham, rfl⟩ := List.mem_map.mp hn
      obtain ⟨s, hs⟩ := ha a ham
      rw [List.count_eq_countP, List.countP_map, List.countP_eq_length_filter]
      have : as.filter ((fun x => x == a.site) ∘ fun x => x.site) = [s] := by
        rw [← hs]
        exact List.filter_congr fun x _ => by simp [Bool.beq_eq_decide_eq]
      rw [this]; simp
    · rw [List.count_eq_zero_of_not_mem hn]; omega
  refine ⟨nd _ fun a ha => ?_, nd _ fun a ha => ?_, ?_⟩
  · obtain ⟨s, l, hs, -, -⟩ := one a (.inl ha); exact ⟨s, hs⟩
  · obtain ⟨s, l, -, hl, -⟩ := one a (.inr ha); exact ⟨l, hl⟩
  · intro n hn
    have : ∃ a, (a ∈ stores ∨ a ∈ loads) ∧ a.site = n := by
      rcases hn with ⟨a, ha, e⟩ | ⟨a, ha, e⟩
      · exact ⟨a, .inl ha, e⟩
      · exact ⟨a, .inr ha, e⟩
    obtain ⟨a, ha, rfl⟩ := this
    obtain ⟨s, l, hs, hl, e1, e2⟩ := one a ha
    have ms : s ∈ stores.filter (·.site = a.site) := by rw [hs]; simp
    have ml : l ∈ loads.filter (·.site = a.site) := by rw [hl]; simp
    obtain ⟨ms1, ms2⟩ := List.mem_filter.mp ms
    obtain ⟨ml1, ml2⟩ := List.mem_filter.mp ml
    exact ⟨s, ms1, l, ml1, by simpa using ms2, by simpa using ml2, e2, e1⟩

/-- Not vacuous. -/
example : (split loopCt [loopFunc, loopFunc]).map (fun fs => ((moduleStores fs).map (·.site),
    validate (moduleStores fs) (moduleLoads fs), validate (moduleStores fs) [])) = some ([0, 1, 2, 3], true, false) := by
  decide +kernel

end Heir.Preproc
