import Verif.Generic.Global

/-! # Properties of the rewriting of generics -/

namespace Heir.Generic

variable {K α : Type} {sem : K → List α → List α → List α}

/-! ## C113: cleartexts do not depend on secrets -/

/-- What a function accepted by the verifier returns in the clear is the same for all secret inputs,
whatever the operations compute. -/
theorem C113_noninterference {p : Prog K} (hv : Valid p) {env env' : Env α} {vs vs' : List α}
    (hc : SameClear p.secret env env') (h : p.eval sem env = some vs) (h' : p.eval sem env' = some vs') :
    ∀ i : Nat, p.signature[i]? = some false → vs[i]? = vs'[i]? := by
  simp only [Prog.eval, Option.bind_eq_some_iff] at h h'
  obtain ⟨e, he, hr⟩ := h
  obtain ⟨e', he', hr'⟩ := h'
  have hs := all_clear hv.typed hc he he'
  intro i hi
  simp only [Prog.signature, List.getElem?_map, Option.map_eq_some_iff] at hi
  obtain ⟨x, hx, hsec⟩ := hi
  have h₁ := readAll_get hr i
  have h₂ := readAll_get hr' i
  rw [hx] at h₁ h₂
  simp only [Option.map_some] at h₁ h₂
  rw [hs x hsec] at h₁
  rw [h₁] at h₂
  revert h₂
  cases vs[i]? <;> cases vs'[i]? <;> simp

/-! ## C114: every rewriting keeps what the function returns -/

/-- Every application of a pattern to a valid function keeps what it returns. -/
theorem C114_step {p p' : Prog K} (hv : Valid p) (h : Step p p') : Sound p p' := by
  obtain ⟨hb, ha⟩ := h
  exact applies_sound hv hb ha

theorem step_valid {p p' : Prog K} (hv : Valid p) (h : Step p p') : Valid p' := by
  obtain ⟨hb, ha⟩ := h
  exact applies_valid hv hb ha

theorem step_params {p p' : Prog K} (h : Step p p') : p'.params = p.params := by
  obtain ⟨-, -⟩ := h
  rfl

/-- Any number of applications in any order. -/
theorem C114_steps {p p' : Prog K} (hv : Valid p) (h : Steps p p') : Sound p p' := by
  induction h with
  | refl => exact fun _ _ _ _ _ h => h
  | step h _ ih =>
    intro α sem env hi vs he
    exact ih (step_valid hv h) α sem env (by rw [Inputs, step_params h]; exact hi) vs
      (C114_step hv h α sem env hi vs he)

/-! ## C115: rewritten functions are valid -/

/-- Rewritten functions are accepted by the verifier, apart from the types of what they return. -/
theorem C115_valid {p p' : Prog K} (hv : Valid p) (h : Steps p p') : Valid p' := by
  induction h with
  | refl => exact hv
  | step h _ ih => exact ih (step_valid hv h)

/-- So what they return in the clear does not depend on secrets. -/
theorem C115_noninterference {p p' : Prog K} (hv : Valid p) (h : Steps p p') {env env' : Env α}
    {vs vs' : List α} (hc : SameClear p'.secret env env') (he : p'.eval sem env = some vs)
    (he' : p'.eval sem env' = some vs') : ∀ i : Nat, p'.signature[i]? = some false → vs[i]? = vs'[i]? :=
  C113_noninterference (C115_valid hv h) hc he he'

/-- Missing: `RemoveUnusedGenericArgs` where the operand passed through is not a secret. -/
theorem C115_signature_partial {p : Prog K} {pre mid post : List (Stmt K)} {r : Repl K} (hv : Valid p)
    (hb : p.body = pre ++ mid ++ post) (h : Applies p pre post mid r)
    (hsec : ∀ q ∈ r.subst, p.secret q.2 = true) :
    (p.replace pre post r).signature = p.signature := by
  refine replace_signature hv fun q hq => ?_
  have key : ∀ {g : Gen K}, p.body = pre ++ [.generic g] ++ post → q.1 ∈ g.outs.map Prod.fst →
      p.secret q.1 = true := fun hb h => (gen_typed hv hb).2 _ h
  cases h with
  | collapse => simp at hq
  | unusedArgs h =>
    have := removeUnusedArgs_subst h q hq
    exact ⟨by rw [key hb this.1, hsec q hq], operand_ok hv hb this.2⟩
  | unusedYields => simp at hq
  | nonSecretArgs => simp at hq
  | capture => simp at hq
  | merge => simp at hq
  | dedupe h =>
    have := dedupe_subst (gen_outs_nodup hv.toSsa hb) h q hq
    exact ⟨by rw [key hb this.1, hsec q hq], gen_below hv hb _ (List.mem_append_right _ this.2)⟩
  | concealThen => simp at hq
  | absorbArg => simp at hq
  | hoistPlain => simp at hq

/-- A generic that yields its cleartext operand. -/
def passes : Prog Nat := ⟨[0], [.generic ⟨[(1, 0)], [], [(2, 1)]⟩], [2], fun x => x == 2, 3⟩

theorem passes_valid : Valid passes :=
  ⟨⟨by decide, by decide⟩, by decide +kernel, by decide⟩

/-- A function that returns a secret is rewritten to one that returns the cleartext. -/
theorem C115_signature_violated : ∃ p p' : Prog Nat, Valid p ∧ Step p p' ∧
    p.signature = [true] ∧ p'.signature = [false] :=
  ⟨passes, _, passes_valid,
    .at (pre := []) (post := []) (mid := [.generic ⟨[(1, 0)], [], [(2, 1)]⟩]) rfl (.unusedArgs rfl),
    by decide, by decide⟩

/-! ## C116: operations moved out of a generic -/

/-- Missing: operations with regions that use results of other operations of the generic. -/
theorem C116_before_partial {p : Prog K} {pre post : List (Stmt K)} {ins outs : List (Nat × Nat)}
    {b₁ b₂ : List (Op K)} {o : Op K} {h g' : Gen K} {n : Nat} (hv : Valid p)
    (hb : p.body = pre ++ [.generic ⟨ins, b₁ ++ o :: b₂, outs⟩] ++ post)
    (hc : canHoistBefore ⟨ins, b₁ ++ o :: b₂, outs⟩ o = true)
    (hcap : ∀ x ∈ o.captured, x ∉ (b₁ ++ o :: b₂).flatMap Op.results)
    (hx : extractBefore p.next ins b₁ o b₂ outs = (h, g', n)) :
    let p' := p.replace pre post ⟨[.generic h, .generic g'], [], h.outs.map Prod.fst, n⟩
    Sound p p' ∧ Valid p' ∧ p'.signature = p.signature ∧ h.body.map Op.kind = [o.kind] ∧
      g'.body = b₁ ++ b₂ := by
  refine ⟨extractBefore_sound hv.toSsa hb (fun x hxu => ?_) hx, extractBefore_valid hv hb hx,
    replace_signature hv (by simp), ?_, ?_⟩
  · rcases List.mem_append.mp hxu with hm | hm
    · simp only [canHoistBefore, List.all_eq_true] at hc
      have := hc x hm
      simpa using this
    · exact hcap x hm
  · simp only [extractBefore, Prod.mk.injEq] at hx
    rw [← hx.1]; rfl
  · simp only [extractBefore, Prod.mk.injEq] at hx
    rw [← hx.2.1]

/-- Missing: results yielded more than once, and values of the generic used only in the regions of the
operation. -/
theorem C116_after_partial {p : Prog K} {pre post : List (Stmt K)} {ins outs : List (Nat × Nat)}
    {b₁ b₂ : List (Op K)} {o : Op K} {h g' : Gen K} {n : Nat} (hv : Valid p)
    (hb : p.body = pre ++ [.generic ⟨ins, b₁ ++ o :: b₂, outs⟩] ++ post)
    (hc : canHoistAfter ⟨ins, b₁ ++ o :: b₂, outs⟩ o = true)
    (hcap : ∀ x ∈ o.captured, x ∈ o.args ∨ x ∉ (⟨ins, b₁ ++ o :: b₂, outs⟩ : Gen K).inner)
    (honce : ∀ q ∈ outs, ∀ q' ∈ outs, q.2 ∈ o.results → q.2 = q'.2 → q = q')
    (hx : extractAfter p.next ins b₁ o b₂ outs = some (g', h, n)) :
    let p' := p.replace pre post ⟨[.generic g', .generic h], [], List.range' p.next o.args.length, n⟩
    Sound p p' ∧ Valid p' ∧ p'.signature = p.signature ∧ h.body.map Op.kind = [o.kind] ∧
      g'.body = b₁ ++ b₂ := by
  refine ⟨extractAfter_sound hv.toSsa hb hc hcap honce hx, extractAfter_valid hv hb hc hx,
    replace_signature hv (by simp), ?_, ?_⟩
  all_goals
    simp only [extractAfter, Option.bind_eq_some_iff, Option.map_eq_some_iff, Prod.mk.injEq] at hx
    obtain ⟨xs, -, qs, -, rfl, rfl, rfl⟩ := hx
    rfl

/-- Operations that add what they read; 7 is a constant. -/
def adds (k : Nat) (a c : List Nat) : List Nat := if k = 7 then [5] else [a.sum + c.sum]

/-- The second operation of the generic reads the result of the first in its region. -/
def nested : Prog Nat := ⟨[0], [.generic ⟨[(1, 0)], [⟨0, [1], [], [2]⟩, ⟨0, [1], [2], [3]⟩], [(4, 3)]⟩],
  [4], fun x => x == 0 || x == 4, 5⟩

theorem nested_valid : Valid nested :=
  ⟨⟨by decide, by decide⟩, by decide +kernel, by decide⟩

/-- The operation moved reads a value that is not visible. -/
theorem C116_captured_violated : ∃ (p : Prog Nat) (ins outs : List (Nat × Nat)) (b₁ : List (Op Nat)) (o : Op Nat)
    (h g' : Gen Nat) (n : Nat), Valid p ∧ p.body = [.generic ⟨ins, b₁ ++ [o], outs⟩] ∧
      canHoistBefore ⟨ins, b₁ ++ [o], outs⟩ o = true ∧
      extractBefore p.next ins b₁ o [] outs = (h, g', n) ∧
      ∃ env : Env Nat, Inputs p env ∧ p.eval adds env = some [6] ∧
        (p.replace [] [] ⟨[.generic h, .generic g'], [], h.outs.map Prod.fst, n⟩).eval adds env = none := by
  refine ⟨nested, [(1, 0)], [(4, 3)], [⟨0, [1], [], [2]⟩], ⟨0, [1], [2], [3]⟩, _, _, _, nested_valid, rfl,
    by decide, rfl, fun x => if x = 0 then some 3 else none, fun x => ?_, by decide, by decide⟩
  by_cases h : x = 0 <;> simp [nested, h]

/-- A generic with one result yielded twice and one not at all. -/
def twice : Prog Nat := ⟨[0], [.generic ⟨[(1, 0)], [⟨0, [1], [], [2]⟩, ⟨0, [1], [], [3]⟩], [(4, 2), (5, 2)]⟩],
  [4, 5], fun x => x == 0 || x == 4 || x == 5, 6⟩

theorem twice_valid : Valid twice :=
  ⟨⟨by decide, by decide⟩, by decide +kernel, by decide⟩

/-- One of the two results has no definition after the operation is moved. -/
theorem C116_twice_violated : ∃ (p : Prog Nat) (ins outs : List (Nat × Nat)) (o : Op Nat) (b₂ : List (Op Nat))
    (h g' : Gen Nat) (n : Nat), Valid p ∧ p.body = [.generic ⟨ins, o :: b₂, outs⟩] ∧
      canHoistAfter ⟨ins, o :: b₂, outs⟩ o = true ∧
      extractAfter p.next ins [] o b₂ outs = some (g', h, n) ∧
      ∃ env : Env Nat, Inputs p env ∧ p.eval adds env = some [3, 3] ∧
        (p.replace [] [] ⟨[.generic g', .generic h], [], List.range' p.next o.args.length, n⟩).eval adds env
          = none := by
  refine ⟨twice, [(1, 0)], [(4, 2), (5, 2)], ⟨0, [1], [], [2]⟩, [⟨0, [1], [], [3]⟩], _, _, _, twice_valid, rfl,
    by decide, rfl, fun x => if x = 0 then some 3 else none, fun x => ?_, by decide, by decide⟩
  by_cases h : x = 0 <;> simp [twice, h]

/-- A result that is not yielded: the end of the list of its uses is read. -/
theorem C116_unused_violated : ∃ (p : Prog Nat) (ins outs : List (Nat × Nat)) (b₁ : List (Op Nat)) (o : Op Nat),
    Valid p ∧ p.body = [.generic ⟨ins, b₁ ++ [o], outs⟩] ∧
      canHoistAfter ⟨ins, b₁ ++ [o], outs⟩ o = true ∧ extractAfter p.next ins b₁ o [] outs = none :=
  ⟨twice, [(1, 0)], [(4, 2), (5, 2)], [⟨0, [1], [], [2]⟩], ⟨0, [1], [], [3]⟩, twice_valid, rfl, by decide,
    by decide⟩

/-! ## C117: replacements outside of the generic -/

/-- Missing: destinations used by insertions elsewhere in the function. -/
theorem C117_insert_partial {insert : K → Bool} {p : Prog K} {pre post : List (Stmt K)} {g : Gen K} {d : Nat}
    {body : List (Stmt K)} (hv : Valid p) (hb : p.body = pre ++ [.generic g] ++ post)
    (hd : plainDest insert p.secret g g.body = some d)
    (hel : ∀ s ∈ pre ++ post, ∀ o ∈ s.ops, insert o.kind = true → d ∉ o.args)
    (h : concealInsert insert p.secret p.next pre g post = some body) :
    let p' : Prog K := ⟨p.params, body, p.rets, retype p.next [p.next] p.secret, p.next + 2⟩
    Sound p p' ∧ Valid p' ∧ p'.signature = p.signature :=
  ⟨concealInsert_sound hv.toSsa hb hd hel h, concealInsert_valid hv hb hd hel h,
    List.map_congr_left fun x hx => retype_lt (hv.known x (List.mem_append_right _ hx))⟩

/-- Missing: constants used elsewhere in the function. -/
theorem C117_constant_partial {isConst : K → Bool} {p p' : Prog K} {pre post : List (Stmt K)} {g : Gen K} {x : Nat}
    (hv : Valid p) (hb : p.body = pre ++ [.generic g] ++ post)
    (hel : x ∉ pre.flatMap Stmt.uses ++ g.ins.map Prod.snd ++ post.flatMap Stmt.uses ++ p.rets)
    (h : absorbAmbient isConst p.next p pre g post x = some p') :
    Sound p p' ∧ Valid p' ∧ p'.signature = p.signature := by
  refine ⟨absorbAmbient_sound hv.toSsa hb hel h, absorbAmbient_valid hv hb hel h, ?_⟩
  obtain ⟨-, -, k, -, rfl⟩ := absorbAmbient_eq hel h
  exact List.map_congr_left fun x hx => retype_lt (hv.known x (List.mem_append_right _ hx))

/-- A cleartext tensor into which a secret is inserted, and outside a cleartext; the operation 1 inserts. -/
def shared : Prog Nat := ⟨[0, 1], [.generic ⟨[(2, 0)], [⟨1, [2, 1], [], [3]⟩], [(4, 3)]⟩, .op ⟨1, [1, 1], [], [5]⟩],
  [4, 5], fun x => x == 0 || x == 4, 6⟩

theorem shared_valid : Valid shared :=
  ⟨⟨by decide, by decide⟩, by decide +kernel, by decide⟩

/-- The insertion outside reads the block argument. -/
theorem C117_insert_violated : ∃ (p : Prog Nat) (g : Gen Nat) (post body : List (Stmt Nat)), Valid p ∧
    p.body = [.generic g] ++ post ∧
    concealInsert (· == 1) p.secret p.next [] g post = some body ∧
    ∃ env : Env Nat, Inputs p env ∧ p.eval adds env = some [7, 8] ∧
      (⟨p.params, body, p.rets, retype p.next [p.next] p.secret, p.next + 2⟩ : Prog Nat).eval adds env = none := by
  refine ⟨shared, ⟨[(2, 0)], [⟨1, [2, 1], [], [3]⟩], [(4, 3)]⟩, [.op ⟨1, [1, 1], [], [5]⟩], _, shared_valid, rfl,
    rfl, fun x => if x = 0 then some 3 else if x = 1 then some 4 else none, fun x => ?_, by decide, by decide⟩
  by_cases h : x = 0
  · simp [shared, h]
  · by_cases h' : x = 1 <;> simp [shared, h, h']

/-- A constant used in a generic and returned. -/
def returned : Prog Nat := ⟨[0], [.op ⟨7, [], [], [1]⟩, .generic ⟨[(2, 0)], [⟨0, [2, 1], [], [3]⟩], [(4, 3)]⟩],
  [4, 1], fun x => x == 0 || x == 4, 5⟩

theorem returned_valid : Valid returned :=
  ⟨⟨by decide, by decide⟩, by decide +kernel, by decide⟩

/-- The function returns the copy in the generic. -/
theorem C117_constant_violated : ∃ (p p' : Prog Nat) (pre : List (Stmt Nat)) (g : Gen Nat) (x : Nat), Valid p ∧
    p.body = pre ++ [.generic g] ∧ absorbAmbient (· == 7) p.next p pre g [] x = some p' ∧
    ∃ env : Env Nat, Inputs p env ∧ p.eval adds env = some [8, 5] ∧ p'.eval adds env = none := by
  refine ⟨returned, _, [.op ⟨7, [], [], [1]⟩], ⟨[(2, 0)], [⟨0, [2, 1], [], [3]⟩], [(4, 3)]⟩, 1, returned_valid, rfl,
    rfl, fun x => if x = 0 then some 3 else none, fun x => ?_, by decide, by decide⟩
  by_cases h : x = 0 <;> simp [returned, h]

/-! ## C118: what is left when no pattern applies -/

theorem scanArgs_all {g : Gen K} : ∀ {l : List (Nat × Nat)}, (scanArgs g l).2 = none →
    (scanArgs g l).1.length = l.length → ∀ a ∈ l, a.1 ∈ g.bodyUses ∧ a.1 ∉ g.outs.map Prod.snd
  | [], _, _, a, ha => by simp at ha
  | b :: l, h, hl, a, ha => by
    have hle := (scanArgs_sublist g l).length_le
    unfold scanArgs at h hl
    split at h
    · rename_i hc
      rw [if_pos hc] at hl
      simp only [List.length_cons] at hl
      omega
    · rename_i hc
      rw [if_neg hc] at hl
      split at h
      · simp at h
      · rename_i hc'
        rw [if_neg hc'] at hl
        simp only [Bool.not_eq_true, Bool.not_eq_false', List.contains_eq_mem, decide_eq_true_eq] at hc
        simp only [List.contains_eq_mem, decide_eq_true_eq] at hc'
        simp only [List.length_cons] at hl
        rcases List.mem_cons.mp ha with rfl | ha
        · exact ⟨hc, hc'⟩
        · exact scanArgs_all h (by omega) a ha

theorem dupYield_none : ∀ {l seen : List (Nat × Nat)}, dupYield seen l = none →
    (seen.map Prod.snd).Nodup → ((seen ++ l).map Prod.snd).Nodup
  | [], seen, _, hn => by simpa using hn
  | q :: l, seen, h, hn => by
    unfold dupYield at h
    cases hf : seen.find? (fun s => s.2 == q.2) with
    | some s => rw [hf] at h; simp at h
    | none =>
      rw [hf] at h
      have := dupYield_none h (by
        rw [List.map_append]
        refine List.nodup_append.mpr ⟨hn, by simp, ?_⟩
        intro a ha b hb hab
        simp only [List.map_cons, List.map_nil, List.mem_singleton] at hb
        obtain ⟨s, hs, rfl⟩ := List.mem_map.mp ha
        have := List.find?_eq_none.mp hf s hs
        simp [hab, hb] at this)
      simpa using this

/-- The generics on which no pattern applies: all arguments are used and none is yielded, all operands
are secrets, all results are used, and none is there twice. -/
theorem C118_normal {secret used : Nat → Bool} {g : Gen K} (h₁ : removeUnusedArgs g = none)
    (h₂ : removeNonSecretArgs secret g = none) (h₃ : removeUnusedYields used g = none)
    (h₄ : dedupe g = none) :
    (∀ a ∈ g.ins, a.1 ∈ g.bodyUses ∧ a.1 ∉ g.outs.map Prod.snd ∧ secret a.2 = true) ∧
      (∀ q ∈ g.outs, used q.1 = true) ∧ (g.outs.map Prod.snd).Nodup := by
  refine ⟨fun a ha => ?_, ?_, ?_⟩
  · have hs : secret a.2 = true := by
      unfold removeNonSecretArgs at h₂
      split at h₂
      · rename_i h; exact List.all_eq_true.mp h a ha
      · simp at h₂
    have : a.1 ∈ g.bodyUses ∧ a.1 ∉ g.outs.map Prod.snd := by
      unfold removeUnusedArgs at h₁
      split at h₁
      · simp at h₁
      · rename_i kept hsc
        split at h₁
        · simp at h₁
        · rename_i hl
          have hle := (scanArgs_sublist g g.ins).length_le
          refine scanArgs_all (l := g.ins) (by rw [hsc]) ?_ a ha
          rw [hsc] at hle ⊢
          simp only at hle ⊢
          omega
    exact ⟨this.1, this.2, hs⟩
  · unfold removeUnusedYields at h₃
    split at h₃
    · rename_i h; exact List.all_eq_true.mp h
    · simp at h₃
  · simp only [dedupe, Option.map_eq_none_iff] at h₄
    simpa using dupYield_none h₄ (by simp)

/-- The number of uses of values from outside. -/
def ambientUses (g : Gen K) : Nat := (g.bodyUses.filter fun x => !g.inner.contains x).length

/-- Each application of `CaptureAmbientScope` leaves fewer uses of values from outside. -/
theorem C118_capture_progress {n : Nat} {g g' : Gen K} (hn : ∀ x ∈ g.inner ++ g.bodyUses, x < n)
    (h : captureAmbient n g = some g') : ambientUses g' < ambientUses g := by
  simp only [captureAmbient, Option.map_eq_some_iff] at h
  obtain ⟨x, hx, rfl⟩ := h
  have hxu := List.mem_of_find?_eq_some hx
  have hxi : x ∉ g.inner := by simpa using List.find?_some hx
  unfold ambientUses
  have hbu : (⟨g.ins ++ [(n, x)], g.body.map (Op.rename (sub [(x, n)])), renameSnd (sub [(x, n)]) g.outs⟩ :
      Gen K).bodyUses = g.bodyUses.map (sub [(x, n)]) := by
    simp only [Gen.bodyUses, body_rename_uses, renameSnd_snd, List.map_append]
  have hin : ∀ y, y ∈ (⟨g.ins ++ [(n, x)], g.body.map (Op.rename (sub [(x, n)])),
      renameSnd (sub [(x, n)]) g.outs⟩ : Gen K).inner ↔ y = n ∨ y ∈ g.inner := by
    intro y
    simp only [Gen.inner, body_rename_results, List.map_append, List.map_cons, List.map_nil, List.mem_append,
      List.mem_singleton]
    tauto
  rw [hbu]
  have hle : ∀ l : List Nat, (∀ y ∈ l, y < n) →
      ((l.map (sub [(x, n)])).filter fun y => !(⟨g.ins ++ [(n, x)], g.body.map (Op.rename (sub [(x, n)])),
        renameSnd (sub [(x, n)]) g.outs⟩ : Gen K).inner.contains y).length ≤
        (l.filter fun y => !g.inner.contains y).length ∧
      (x ∈ l → ((l.map (sub [(x, n)])).filter fun y => !(⟨g.ins ++ [(n, x)],
        g.body.map (Op.rename (sub [(x, n)])), renameSnd (sub [(x, n)]) g.outs⟩ : Gen K).inner.contains y).length <
        (l.filter fun y => !g.inner.contains y).length) := by
    intro l
    induction l with
    | nil => intro _; simp
    | cons y l ih =>
      intro hl
      obtain ⟨ih₁, ih₂⟩ := ih fun z hz => hl z (List.mem_cons_of_mem _ hz)
      have hyn := hl y (by simp)
      by_cases hy : y = x
      · subst hy
        have h₁ : sub [(y, n)] y = n := sub_of_mem (p := (y, n)) (by simp) (by simp)
        rw [List.map_cons, h₁, List.filter_cons_of_neg (by
            simp only [Bool.not_eq_true', List.contains_eq_mem, decide_eq_false_iff_not, not_not]
            exact (hin n).mpr (Or.inl rfl)),
          List.filter_cons_of_pos (by simpa using hxi)]
        simp only [List.length_cons]
        exact ⟨by omega, fun _ => by omega⟩
      · have h₁ : sub [(x, n)] y = y := sub_of_notMem (by simpa using hy)
        rw [List.map_cons, h₁]
        by_cases hm : y ∈ g.inner
        · rw [List.filter_cons_of_neg (by
            simp only [Bool.not_eq_true', List.contains_eq_mem, decide_eq_false_iff_not, not_not]
            exact (hin y).mpr (Or.inr hm)), List.filter_cons_of_neg (by simpa using hm)]
          exact ⟨ih₁, fun hx => ih₂ ((List.mem_cons.mp hx).resolve_left (Ne.symm hy))⟩
        · rw [List.filter_cons_of_pos (by
            simp only [Bool.not_eq_true', List.contains_eq_mem, decide_eq_false_iff_not]
            intro hc
            rcases (hin y).mp hc with h | h
            · omega
            · exact hm h), List.filter_cons_of_pos (by simpa using hm)]
          simp only [List.length_cons]
          exact ⟨by omega, fun hx => by
            have := ih₂ ((List.mem_cons.mp hx).resolve_left (Ne.symm hy)); omega⟩
  exact (hle g.bodyUses fun y hy => hn y (List.mem_append_right _ hy)).2 hxu

/-- When `CaptureAmbientScope` does not apply, what a generic computes depends on its operands only. -/
theorem C118_isolated {n : Nat} {g : Gen K} {e e' e₁ : Env α} (h : captureAmbient n g = none)
    (hn : (Stmt.generic g).binders.Nodup) (hb : ∀ b ∈ g.inner, e b = none)
    (heq : ∀ x ∈ g.ins.map Prod.snd, e x = e' x) (hr : g.run sem e = some e₁) :
    ∃ e₁', g.run sem e' = some e₁' ∧ ∀ x ∈ g.outs.map Prod.fst, e₁' x = e₁ x := by
  have hin : ∀ x ∈ g.bodyUses, x ∈ g.inner := by
    simp only [captureAmbient, Option.map_eq_none_iff, List.find?_eq_none] at h
    intro x hx
    simpa using h x hx
  have hi : (g.ins.map Prod.fst).Nodup := (List.nodup_append.mp (List.nodup_append.mp hn).1).1
  have ho : (g.outs.map Prod.fst).Nodup := (List.nodup_append.mp hn).2.1
  obtain ⟨eb, hd, hbd, hod, rfl⟩ := gen_run_eq.mp hr
  have hs : Sim (· ∈ g.inner) id (assign e e g.ins) (assign e' e' g.ins) := by
    intro x hx v hv
    rcases assign_cases e e g.ins x with ⟨q, hq, rfl, ha⟩ | ⟨-, ha⟩
    · rw [id, assign_of_mem hi hq, ← heq q.2 (List.mem_map_of_mem hq), ← ha, hv]
    · rw [ha, hb x hx] at hv
      exact absurd hv (by simp)
  obtain ⟨eb', hb', hs'⟩ := ops_sim hs (fun x hx => hin x (List.mem_append_left _ hx))
    (fun b _ => ⟨rfl, fun _ _ h => h⟩) hbd
  rw [op_rename_id, List.map_id] at hb'
  have hout : ∀ q ∈ g.outs, ∃ v, eb q.2 = some v ∧ eb' q.2 = some v := fun q hq => by
    obtain ⟨v, hv⟩ := hod q hq
    exact ⟨v, hv, hs' q.2 (hin _ (List.mem_append_right _ (List.mem_map_of_mem hq))) v hv⟩
  refine ⟨assign e' eb' g.outs, gen_run_eq.mpr ⟨eb', fun q hq => ?_, hb', fun q hq => ?_, rfl⟩, fun x hx => ?_⟩
  · obtain ⟨v, hv⟩ := hd q hq
    exact ⟨v, by rw [← heq q.2 (List.mem_map_of_mem hq), hv]⟩
  · obtain ⟨v, -, hv⟩ := hout q hq
    exact ⟨v, hv⟩
  · obtain ⟨q, hq, rfl⟩ := List.mem_map.mp hx
    obtain ⟨v, h₁, h₂⟩ := hout q hq
    rw [assign_of_mem ho hq, assign_of_mem ho hq, h₁, h₂]

/-! ## Examples -/

/-- Two generics: the second uses a result of the first, an ambient value and a cleartext operand. -/
def sample : Prog Nat := ⟨[0, 1], [.op ⟨7, [], [], [2]⟩, .conceal 3 2,
  .generic ⟨[(4, 0), (5, 3), (6, 1)], [⟨0, [4, 5, 6], [], [7]⟩], [(8, 7), (9, 7)]⟩,
  .generic ⟨[(10, 8), (11, 9), (12, 1)], [⟨0, [10, 2], [], [13]⟩, ⟨0, [12, 2], [], [14]⟩,
    ⟨0, [13, 14, 11], [], [15]⟩], [(16, 15), (17, 14)]⟩],
  [16, 1], fun x => [0, 3, 8, 9, 16, 17].contains x, 18⟩

theorem sample_valid : Valid sample :=
  ⟨⟨by decide, by decide⟩, by decide +kernel, by decide⟩

def sampleEnv (x : Nat) : Env Nat := fun y => if y = 0 then some x else if y = 1 then some 2 else none

example : sample.eval adds (sampleEnv 3) = some [32, 2] ∧ sample.eval adds (sampleEnv 4) = some [34, 2] := by
  decide +kernel

/-- The second returned value is the same for both secrets. -/
example : SameClear sample.secret (sampleEnv 3) (sampleEnv 4) ∧ sample.signature = [true, false] := by
  refine ⟨fun x hx => ?_, by decide⟩
  have : x ≠ 0 := by rintro rfl; simp [sample] at hx
  simp [sampleEnv, this]

/-- Merging. -/
example : ∃ p', Step sample p' ∧ p'.eval adds (sampleEnv 3) = some [32, 2] ∧ p'.body.length = 3 :=
  ⟨_, .at (pre := [.op ⟨7, [], [], [2]⟩, .conceal 3 2]) (post := []) rfl .merge, by decide +kernel, rfl⟩

/-- The first result of the first generic replaces the second, in the second generic. -/
example : ∃ p', Step sample p' ∧ p'.eval adds (sampleEnv 3) = some [32, 2] ∧
    (p'.body.flatMap Stmt.uses).count 9 = 0 :=
  ⟨_, .at (pre := [.op ⟨7, [], [], [2]⟩, .conceal 3 2])
    (mid := [.generic ⟨[(4, 0), (5, 3), (6, 1)], [⟨0, [4, 5, 6], [], [7]⟩], [(8, 7), (9, 7)]⟩])
    (post := [.generic ⟨[(10, 8), (11, 9), (12, 1)], [⟨0, [10, 2], [], [13]⟩, ⟨0, [12, 2], [], [14]⟩,
      ⟨0, [13, 14, 11], [], [15]⟩], [(16, 15), (17, 14)]⟩]) rfl (.dedupe rfl), by decide +kernel, by decide +kernel⟩

/-- The second operation of the second generic reads no secret. -/
example : ∃ p', Step sample p' ∧ p'.eval adds (sampleEnv 3) = some [32, 2] ∧ p'.body.length = 5 :=
  ⟨_, .at (pre := [.op ⟨7, [], [], [2]⟩, .conceal 3 2, .generic ⟨[(4, 0), (5, 3), (6, 1)],
      [⟨0, [4, 5, 6], [], [7]⟩], [(8, 7), (9, 7)]⟩])
    (mid := [.generic ⟨[(10, 8), (11, 9), (12, 1)], [⟨0, [10, 2], [], [13]⟩] ++ ⟨0, [12, 2], [], [14]⟩ ::
      [⟨0, [13, 14, 11], [], [15]⟩], [(16, 15), (17, 14)]⟩])
    (post := []) rfl (.hoistPlain (by decide +kernel) rfl), by decide +kernel, rfl⟩

/-- The result that is not used goes, the constant is captured, the conceal is seen through. -/
example : (∃ p', Step sample p' ∧ p'.eval adds (sampleEnv 3) = some [32, 2] ∧ (bindersOf p'.body).count 17 = 0) ∧
    (∃ p', Step sample p' ∧ p'.eval adds (sampleEnv 3) = some [32, 2] ∧ p'.next = 19) ∧
    (∃ p', Step sample p' ∧ p'.eval adds (sampleEnv 3) = some [32, 2] ∧ (p'.body.flatMap Stmt.uses).count 3 = 0) :=
  ⟨⟨_, .at (pre := [.op ⟨7, [], [], [2]⟩, .conceal 3 2, .generic ⟨[(4, 0), (5, 3), (6, 1)],
      [⟨0, [4, 5, 6], [], [7]⟩], [(8, 7), (9, 7)]⟩]) (post := []) rfl (.unusedYields rfl), by decide +kernel,
      by decide +kernel⟩,
    ⟨_, .at (pre := [.op ⟨7, [], [], [2]⟩, .conceal 3 2, .generic ⟨[(4, 0), (5, 3), (6, 1)],
      [⟨0, [4, 5, 6], [], [7]⟩], [(8, 7), (9, 7)]⟩]) (post := []) rfl (.capture rfl), by decide +kernel, rfl⟩,
    ⟨_, .at (pre := [.op ⟨7, [], [], [2]⟩, .conceal 3 2])
      (mid := [.generic ⟨[(4, 0), (5, 3), (6, 1)], [⟨0, [4, 5, 6], [], [7]⟩], [(8, 7), (9, 7)]⟩])
      (post := [.generic ⟨[(10, 8), (11, 9), (12, 1)], [⟨0, [10, 2], [], [13]⟩, ⟨0, [12, 2], [], [14]⟩,
        ⟨0, [13, 14, 11], [], [15]⟩], [(16, 15), (17, 14)]⟩]) rfl (.concealThen (insert := fun _ => false) rfl),
      by decide +kernel, by decide +kernel⟩⟩

/-- An operation moved after its generic: the hypotheses of `C116_after_partial` hold. -/
example : let g : Gen Nat := ⟨[(1, 0)], [⟨0, [1], [], [2]⟩] ++ ⟨0, [2, 1], [], [3]⟩ :: [], [(4, 2), (5, 3)]⟩
    canHoistAfter g ⟨0, [2, 1], [], [3]⟩ = true ∧
    (extractAfter 6 g.ins [⟨0, [1], [], [2]⟩] ⟨0, [2, 1], [], [3]⟩ [] g.outs).isSome := by decide

/-- An insertion with the hypotheses of `C117_insert_partial`. -/
example : plainDest (· == 1) (· == 0) (⟨[(2, 0)], [⟨1, [2, 1], [], [3]⟩], [(4, 3)]⟩ : Gen Nat)
    [⟨1, [2, 1], [], [3]⟩] = some 1 := by decide

/-- A generic on which no pattern applies. -/
example : let g : Gen Nat := ⟨[(2, 0)], [⟨0, [2, 2], [], [3]⟩], [(4, 3)]⟩
    removeUnusedArgs g = none ∧ removeNonSecretArgs (· == 0) g = none ∧ removeUnusedYields (· == 4) g = none ∧
      dedupe g = none ∧ captureAmbient 5 g = none := by decide

end Heir.Generic
