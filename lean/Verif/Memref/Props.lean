import Verif.Memref.Erase
import Verif.Memref.CopyLemmas
import Verif.Memref.ExtractDone

/-!
# Properties of the passes that remove memrefs
-/

namespace Heir.Memref

/-! ## C122: forwarding stores to loads -/

/-- A forwarded load changes neither the returned scalars nor the memory, and the program after it
is one the forwarding is meant for.  Partial: requires static offsets and strides and that only
`affine.store` writes to what is loaded. -/
theorem C122_forward_partial {V : Type} {W : World V} {T : Types} {p q : Prog} {i : Nat}
    (hp : Good T W p) (h : forward T p i = .ok q) :
    Good T W q ∧ SameResult W p q (fun _ => False) :=
  forward_good hp h

/-- The same for any sequence of loads. -/
theorem C122_forwards_partial {V : Type} {W : World V} {T : Types} {p q : Prog}
    (hp : Good T W p) (h : Forwards T p q) : Good T W q ∧ SameResult W p q (fun _ => False) := by
  induction h with
  | refl => exact ⟨hp, sameResult_refl _ _⟩
  | step h _ ih =>
    obtain ⟨h1, h2⟩ := forward_good hp h
    obtain ⟨h3, h4⟩ := ih h1
    refine ⟨h3, fun s s1 hr => ?_⟩
    obtain ⟨s2, e1, e2, e3⟩ := sameResult_trans h2 h4 s s1 hr
    exact ⟨s2, e1, e2, fun b hb => e3 b (by simp)⟩

/-- A load from a local memref does not remain. -/
theorem C122_local_partial {V : Type} {W : World V} {T : Types} {p q : Prog} {pre after : List Op}
    {r m : Nat} {idx : List Idx} (hp : Good T W p) (hb : p.body = pre ++ .load r m idx :: after)
    (hm : .alloc m ∈ pre) (h : forward T p pre.length = .ok q) :
    ∃ v, q.body = pre ++ after.map (Op.rename r v) ∧ q.rets = p.rets.map (ren r v) := by
  have hd : p.body.drop pre.length = .load r m idx :: after := by rw [hb]; simp
  have ht : p.body.take pre.length = pre := by rw [hb]; simp
  simp only [forward, hd, ht] at h
  have key_m : ∀ k, key T pre.reverse m idx = .ok k → isAlloc pre.reverse k.1 = true := by
    intro k hk
    obtain ⟨h1, h2⟩ := load_src hp hb hk
    have : k.1 = m := hp.laid.apart k.1 m (h2.imp_right fun h => by rw [hb]; simp [h])
      (.inr (by rw [hb]; simp [hm])) h1
    simp [isAlloc, this, hm]
  split at h
  · simp at h
  · simp at h
  · next ha =>
    exfalso
    unfold action at ha
    split at ha
    · simp at ha
    · split at ha
      · simp at ha
      · simp at ha
      · next k hk =>
        split at ha
        · split at ha <;> simp at ha
        · simp [key_m k hk] at ha
  · next v ha =>
    simp only [Res.ok.injEq] at h
    subst h
    exact ⟨v, rfl, rfl⟩
  · next s is ha =>
    exfalso
    unfold action at ha
    split at ha
    · simp at ha
    · split at ha
      · simp at ha
      · simp at ha
      · next k hk =>
        split at ha
        · split at ha <;> simp at ha
        · simp [key_m k hk] at ha

/-- Afterwards the load is gone or is a load from an argument: no load through a view remains. -/
theorem C122_view_partial {V : Type} {W : World V} {T : Types} {p q : Prog} {pre after : List Op}
    {r m : Nat} {idx : List Idx} (hp : Good T W p) (hb : p.body = pre ++ .load r m idx :: after)
    (h : forward T p pre.length = .ok q) :
    (∃ v, q.body = pre ++ after.map (Op.rename r v) ∧ q.rets = p.rets.map (ren r v)) ∨
      ∃ a ∈ p.margs, ∃ idx', q.body = pre ++ .load r a idx' :: after ∧ q.rets = p.rets := by
  have hd : p.body.drop pre.length = .load r m idx :: after := by rw [hb]; simp
  have ht : p.body.take pre.length = pre := by rw [hb]; simp
  simp only [forward, hd, ht] at h
  have arg : ∀ k, key T pre.reverse m idx = .ok k → isAlloc pre.reverse k.1 = false →
      k.1 ∈ p.margs := by
    intro k hk ha
    refine (load_src hp hb hk).2.resolve_right fun h => ?_
    simp [isAlloc, h] at ha
  split at h
  · simp at h
  · simp at h
  · next ha =>
    simp only [Res.ok.injEq] at h
    subst h
    unfold action at ha
    split at ha
    · simp at ha
    · split at ha
      · simp at ha
      · simp at ha
      · next k hk =>
        split at ha
        · split at ha <;> simp at ha
        · split at ha
          · simp at ha
          · next hal =>
            split at ha
            · next hkm => exact .inr ⟨m, hkm ▸ arg k hk (by simpa using hal), idx, hb, rfl⟩
            · split at ha <;> simp at ha
  · next v ha =>
    simp only [Res.ok.injEq] at h
    subst h
    exact .inl ⟨v, rfl, rfl⟩
  · next s is ha =>
    simp only [Res.ok.injEq] at h
    subst h
    unfold action at ha
    split at ha
    · simp at ha
    · split at ha
      · simp at ha
      · simp at ha
      · next k hk =>
        split at ha
        · split at ha <;> simp at ha
        · split at ha
          · simp at ha
          · next hal =>
            split at ha
            · simp at ha
            · split at ha
              · simp only [Res.ok.injEq, Action.reload.injEq] at ha
                exact .inr ⟨s, ha.1 ▸ arg k hk (by simpa using hal), _, rfl, rfl⟩
              · simp at ha

/-- Two views of one memref with dynamic offsets (0 and 4): the key of both accesses is the same,
and the load returns what was stored through the other view. -/
theorem C122_dynamic_offset_violated :
    ∃ (W : World Int) (T : Types) (p q : Prog), p.wf ∧ Laid W p ∧ Quiet W p ∧
      storeMap T p.body.reverse = .ok () ∧ forward T p 5 = .ok q ∧
      (∀ m, T.lay m = ⟨[some 1], none⟩ ∨ T.lay m = ⟨[some 1], some 0⟩) ∧
      ¬ SameResult W p q (fun _ => False) := by
  refine ⟨⟨fun m => ⟨0, if m = 2 then 4 else 0, [1]⟩, id, fun _ vs fs => (vs, fs)⟩,
    ⟨fun _ => 0, fun m => if m = 0 then ⟨[some 1], some 0⟩ else ⟨[some 1], none⟩⟩,
    ⟨[0, 1], [], [.alloc 0, .view 1 0, .view 2 0, .store 0 1 [.inl 0], .store 1 2 [.inl 0],
      .load 2 1 [.inl 0]], [2], []⟩,
    ⟨[0, 1], [], [.alloc 0, .view 1 0, .view 2 0, .store 0 1 [.inl 0], .store 1 2 [.inl 0]],
      [1], []⟩, ?_, ⟨?_, ?_⟩, ?_, by decide +kernel, by decide +kernel, ?_, ?_⟩
  · simp [Prog.wf, wf, scope, mscope, Op.uses, Op.defs, Op.muses, Op.mdefs, idxUses]
  · intro m s _; rfl
  · intro s t hs ht _
    simp at hs ht
    rw [hs, ht]
  · intro f rs ms args mems h
    simp at h
  · intro m
    by_cases h : m = 0
    · exact .inr (by simp [h])
    · exact .inl (by simp [h])
  · intro h
    obtain ⟨s2, h1, h2, -⟩ := h ⟨fun x => if x = 0 then 7 else 8, fun _ _ => 0⟩ _ rfl
    have h3 := congrArg (Option.map fun s => [1].map s.env) h1
    rw [Option.map_some, h2] at h3
    revert h3
    decide +kernel

/-- A write that is not an `affine.store` (a `memref.copy`, a store in a conditional or in a loop
that stays) is not seen: the load gets the stale value. -/
theorem C122_other_write_violated :
    ∃ (W : World Int) (T : Types) (p q : Prog), p.wf ∧ Laid W p ∧ AllStatic T W p ∧
      storeMap T p.body.reverse = .ok () ∧ forward T p 2 = .ok q ∧
      ¬ SameResult W p q (fun _ => False) := by
  refine ⟨⟨fun _ => ⟨0, 0, [1]⟩, id, fun _ vs fs => (vs, fs.map fun _ _ => 9)⟩,
    ⟨fun _ => 0, fun _ => ⟨[some 1], some 0⟩⟩,
    ⟨[0], [0], [.store 0 0 [.inl 0], .other 0 [] [] [] [0], .load 1 0 [.inl 0]], [1], []⟩,
    ⟨[0], [0], [.store 0 0 [.inl 0], .other 0 [] [] [] [0]], [0], []⟩,
    ?_, ⟨?_, ?_⟩, ⟨?_, ?_, ?_⟩, by decide +kernel, by decide +kernel, ?_⟩
  · simp [Prog.wf, wf, scope, mscope, Op.uses, Op.defs, Op.muses, Op.mdefs, idxUses]
  · intro m s _; rfl
  · intro s t hs ht _
    simp at hs ht
    rw [hs, ht]
  · intro _ _ _ _; rfl
  · intro _ _ _ _; rfl
  · exact fun _ _ => ⟨rfl, [], rfl⟩
  · intro h
    obtain ⟨s2, h1, h2, -⟩ := h ⟨fun x => 7, fun _ _ => 0⟩ _ rfl
    have h3 := congrArg (Option.map fun s => [0].map s.env) h1
    rw [Option.map_some, h2] at h3
    revert h3
    decide +kernel

/-- A load from a local memref that another operation has filled, or from a view of a global, is
undefined behaviour of the pass. -/
theorem C122_undefined_violated :
    forward ⟨fun _ => 0, fun _ => ⟨[some 1], some 0⟩⟩
      ⟨[], [0], [.alloc 1, .other 0 [] [] [] [0, 1], .load 0 1 [.inl 0]], [0], []⟩ 2 = .ub ∧
    forward ⟨fun _ => 0, fun _ => ⟨[some 1], some 0⟩⟩
      ⟨[], [], [.global 0, .view 1 0, .load 0 1 [.inl 0]], [0], []⟩ 2 = .ub := by
  decide +kernel

/-- Two stores to overlapping views of an argument, loads from both. -/
def sample : Prog :=
  ⟨[0, 1], [0], [.view 1 0, .store 0 1 [.inl 0], .store 1 0 [.inl 1, .inl 2], .load 2 1 [.inl 0],
    .load 3 1 [.inl 1], .store 2 0 [.inl 0, .inl 0]], [2, 3], []⟩

def sampleTypes : Types :=
  ⟨fun _ => 0, fun m => if m = 0 then ⟨[some 3, some 1], some 0⟩ else ⟨[some 1], some 4⟩⟩

def sampleWorld : World Int :=
  ⟨fun m => if m = 0 then ⟨0, 0, [3, 1]⟩ else ⟨0, 4, [1]⟩, id, fun _ vs fs => (vs, fs)⟩

example : Good sampleTypes sampleWorld sample := by
  refine ⟨?_, ⟨?_, ?_⟩, ⟨?_, ?_, ?_⟩, ?_, by decide +kernel⟩
  · simp [sample, Prog.wf, wf, scope, mscope, Op.uses, Op.defs, Op.muses, Op.mdefs, idxUses]
  · intro m s h
    simp [sample] at h
    simp [h, sampleWorld]
  · intro s t hs ht _
    simp [sample] at hs ht
    rw [hs, ht]
  · intro v m idx h
    simp [sample] at h
    rcases h with h | h | h <;> simp [h, Static, sampleTypes, sampleWorld]
  · intro v m idx h
    simp [sample] at h
    rcases h with h | h <;> simp [h, Static, sampleTypes, sampleWorld]
  · intro m h
    simp [sample] at h
    simp [h, Static, sampleTypes, sampleWorld]
    exact ⟨[3], rfl⟩
  · intro f rs ms args mems h
    simp [sample] at h

example : Forwards sampleTypes sample
    ⟨[0, 1], [0], [.view 1 0, .store 0 1 [.inl 0], .store 1 0 [.inl 1, .inl 2],
      .store 0 0 [.inl 0, .inl 0]], [0, 1], []⟩ :=
  .step (i := 3) rfl (.step (i := 3) rfl (.refl _))

/-- A load through a view of an argument that has not been written becomes one of the argument. -/
example : forward sampleTypes ⟨[], [0], [.view 1 0, .load 0 1 [.inl 1]], [0], []⟩ 1 =
    .ok ⟨[], [0], [.view 1 0, .load 0 0 [.inl 1, .inl 2]], [0], []⟩ := by decide +kernel

/-! ## C123: memrefs that are only written -/

/-- Erasing a memref with its views and the stores to them changes neither the returned scalars nor
any other buffer, and leaves a valid program.  Partial: fails for views of views, see below. -/
theorem C123_erase_partial {V : Type} {W : World V} {p q : Prog} {a : Nat} (hp : p.wf)
    (ha : Own W p a) (h : eraseUnused p a = .ok q) :
    q.wf ∧ SameResult W p q (· = (W.desc a).buf) :=
  erase_good hp ha h

/-- A view of a view is undefined behaviour: the parent goes first. -/
theorem C123_nested_violated :
    eraseUnused ⟨[0], [], [.alloc 0, .view 1 0, .view 2 1, .store 0 2 [.inl 0]], [0], []⟩ 0 = .ub := by
  decide +kernel

example : eraseUnused ⟨[0], [5], [.alloc 0, .view 1 0, .store 0 1 [.inl 0], .store 0 5 [.inl 0],
      .store 0 0 [.inl 3], .load 1 5 [.inl 0]], [1], []⟩ 0 =
    .ok ⟨[0], [5], [.store 0 5 [.inl 0], .load 1 5 [.inl 0]], [1], []⟩ := by decide +kernel

example : Own (⟨fun m => ⟨if m = 5 then 1 else 0, 0, [1]⟩, id, fun _ vs fs => (vs, fs)⟩ : World Int)
    ⟨[0], [5], [.alloc 0, .view 1 0, .store 0 1 [.inl 0], .store 0 5 [.inl 0],
      .store 0 0 [.inl 3], .load 1 5 [.inl 0]], [1], []⟩ 0 := by
  refine ⟨?_, ?_, ?_⟩
  · intro m h
    simp at h
    simp [h]
  · intro o ho m hm hv hne
    simp at ho
    rcases ho with rfl | rfl | rfl | rfl | rfl | rfl <;> simp [Op.mdefs] at hm
    · exact absurd hm hne
    · exact absurd (by rw [hm]) (hv 0)
  · intro m s h
    simp at h
    simp [h]

/-- What is read is not erased. -/
example : eraseUnused ⟨[0], [], [.alloc 0, .view 1 0, .store 0 0 [.inl 0], .load 1 1 [.inl 0]], [1],
    []⟩ 0 = .fail := by decide +kernel

/-! ## C124: copies -/

/-- For a static type, the loops copy every element and change nothing else; the memrefs are
disjoint or the same, and of any rank.  Partial: not for dynamic dimensions. -/
theorem C124_copy_partial {V A : Type} [DecidableEq A] (dims : List Nat) (src dst : List Int → A)
    (h : Separate dims src dst) (mem : A → V) :
    Copied dims src dst mem (copyLoops (dims.map some) src dst mem) := by
  obtain ⟨h1, h2⟩ := copy_fold (V := V) (nest (dims.map Int.ofNat))
    (fun is his js hjs => h.inj is js ((nest_mem dims is).1 his) ((nest_mem dims js).1 hjs))
    (fun is his js hjs => h.apart is js ((nest_mem dims is).1 his) ((nest_mem dims js).1 hjs)) mem
  unfold copyLoops
  rw [shapeVals_static]
  exact ⟨fun is his => h1 is ((nest_mem dims is).2 his),
    fun x hx => h2 x fun is his => hx is ((nest_mem dims is).1 his)⟩

/-- For a type with a dynamic dimension, nothing is copied. -/
theorem C124_dynamic_violated {V A : Type} [DecidableEq A] (ty : List (Option Nat))
    (h : none ∈ ty) (src dst : List Int → A) (mem : A → V) : copyLoops ty src dst mem = mem := by
  have : nest (shapeVals ty) = [] := by
    induction ty with
    | nil => simp at h
    | cons d ty ih =>
      cases d with
      | none =>
        have : loopValues kDynamic = [] := by decide +kernel
        simp [shapeVals, nest, this]
      | some d =>
        have := ih (by simpa using h)
        simp only [shapeVals] at this
        simp [shapeVals, nest, this]
  simp [copyLoops, this]

example : copyLoops [some 2, some 1, some 3] (fun is => (0, is)) (fun is => (1, is))
    (fun (x : Nat × List Int) => if x.1 = 0 then x.2.sum else 9) (1, [1, 0, 2]) = 3 := by
  decide +kernel

example : Separate (A := Nat × List Int) [2, 1, 3] (fun is => (0, is)) (fun is => (1, is)) :=
  ⟨fun is js _ _ h => by simpa using h, fun is js _ _ h => by simp at h⟩

example : TypeOf [none, some 3] [2, 3] ∧ ∃ mem : Nat × List Int → Int,
    ¬ Copied [2, 3] (fun is => (0, is)) (fun is => (1, is)) mem
      (copyLoops [none, some 3] (fun is => (0, is)) (fun is => (1, is)) mem) := by
  refine ⟨by simp [TypeOf], fun x => x.1, fun h => ?_⟩
  rw [C124_dynamic_violated _ (by simp)] at h
  have := h.elems [0, 0] (by simp [InBounds])
  simp at this

/-! ## C126: constant globals -/

/-- The constant that replaces an `affine.load` is the element at its indices, whatever the layout
of the global. -/
theorem C126_affine {V : Type} (vals : List V) (shape idx : List Nat)
    (hl : vals.length = shape.foldr (· * ·) 1) (hi : Within shape idx) :
    globalAffine vals shape idx = element vals shape idx ∧
      (globalAffine vals shape idx).isSome := by
  refine ⟨(element_eq shape idx vals hi hl).symm, ?_⟩
  unfold globalAffine
  rw [List.getElem?_eq_getElem (by rw [hl]; exact foldr_pos_len shape idx hi)]
  rfl

/-- For the identity layout also the constant that replaces a `memref.load`.  Partial: not for
other layouts. -/
theorem C126_load_partial {V : Type} (vals : List V) (shape idx : List Nat)
    (hl : vals.length = shape.foldr (· * ·) 1) (hi : Within shape idx) :
    globalLoad vals ⟨(rowMajor shape).map some, some 0⟩ idx = element vals shape idx := by
  rw [← (C126_affine vals shape idx hl hi).1]
  have : (⟨(rowMajor shape).map some, some 0⟩ : Layout).strideVals = rowMajor shape := by
    simp [Layout.strideVals]
  simp only [globalLoad, this, Layout.offsetVal, Option.getD_some, flatten_rowMajor shape idx hi]
  rw [if_neg (by omega), Int.toNat_natCast]
  rfl

/-- A global of 2 by 3 elements stored by columns. -/
theorem C126_load_violated :
    globalLoad [10, 11, 12, 20, 21, 22] ⟨[some 1, some 2], some 0⟩ [0, 1] = some 12 ∧
    element [10, 11, 12, 20, 21, 22] [2, 3] [0, 1] = some 11 := by decide +kernel

example : globalAffine [10, 11, 12, 20, 21, 22] [2, 3] [1, 0] = some 20 := by decide +kernel

end Heir.Memref

/-! ## C125: the body of a loop as a function -/

namespace Heir.Memref.Extract

/-- If the extracted function returns the stored value and the verifier accepts the function and
the new body, then an iteration with the call has the effect of one without.  Partial: the pass
ensures none of these. -/
theorem C125_extract_partial {V M : Type} (S : Sem V M) {L : Loop} {c v : Nat} {F : Fun}
    {body : List Op} (hL : L.wf) (hnc : ∀ x as, .call x as ∉ L.body)
    (hc : c ∉ scope L.scope L.body) (h : extract L c = .ok (F, body)) (hF : F.wf)
    (hB : wf L.scope body) (hv : results L.body = [v]) (hret : F.ret = v) :
    SameEffect S L F body :=
  extract_same hL hnc hc h hF hB hv hret

/-- A body of the intended form is extracted, into a function and a body that the verifier accepts,
without a change of effect: loads with what computes their indices, then a computation from loaded
values and constants whose last result is stored.  Partial: for the other bodies see below. -/
theorem C125_done_partial {V M : Type} (S : Sem V M) {L : Loop} {A B : List Op} {f v c : Nat}
    {args : List Nat} (h : Shape L A B f v args) (hL : L.wf) (hn : (L.consts.map (·.1)).Nodup)
    (hiv : ∀ x ∈ L.ivs, x ∉ L.consts.map (·.1)) (hc : c ∉ scope L.scope L.body) :
    ∃ F, extract L c = .ok (F, A ++ [.call c F.inputs, .store f c args]) ∧
      F.wf ∧ F.ret = v ∧ wf L.scope (A ++ [.call c F.inputs, .store f c args]) ∧
      SameEffect S L F (A ++ [.call c F.inputs, .store f c args]) := by
  have hd := extract_done h hL hiv hc
  obtain ⟨hF, hB⟩ := extract_wf h hL hn hc
  refine ⟨_, hd, hF, rfl, hB, extract_same hL ?_ hc hd hF hB ?_ rfl⟩
  · intro x as hm
    rw [h.body, List.append_assoc] at hm
    rcases List.mem_append.1 hm with hm | hm
    · rcases h.loads _ hm with hl | ⟨_, _, _, he, -⟩
      · exact hl
      · simp at he
    · rcases List.mem_append.1 hm with hm | hm
      · obtain ⟨_, _, _, he, -⟩ := h.comp _ hm
        simp at he
      · simp at hm
  · have : ∀ o ∈ A ++ B, ¬ IsStore o := by
      intro o ho
      rcases List.mem_append.1 ho with ho | ho
      · rcases h.loads o ho with hl | ⟨_, _, _, rfl, -⟩
        · cases o <;> simp [IsLoad, IsStore] at hl ⊢
        · exact fun h => h
      · exact (h.ops o ho).2
    rw [h.body, results_append, results_none this]
    simp [results]

/-- The search for the loads that a value is used for finds those, through any number of
operations. -/
theorem C125_search {L : Loop} (hL : L.wf) (r : Nat) :
    (reachesLoad [r] L.body = true ↔ Feeds IsLoad L.body r) ∧
      (reachesStore [r] L.body = true ↔ Feeds IsStore L.body r) := by
  rw [reachesLoad_iff hL, reachesStore_iff hL]
  simp

/-- When the last operation that is copied is not the one whose result is stored, the call returns
its result: the verifier accepts, and another value is stored. -/
theorem C125_last_violated :
    ∃ (S : Sem Int Int) (L : Loop) (F : Fun) (body : List Op), L.wf ∧
      extract L 9 = .ok (F, body) ∧ F.wf ∧ wf L.scope body ∧ ¬ SameEffect S L F body := by
  refine ⟨⟨fun f vs => vs.sum + f, fun _ _ _ => 0, fun _ x _ _ => x⟩,
    ⟨[0], [], [], [.load 0 1 [0], .op 1 2 [1], .op 5 3 [1], .store 0 2 [0]]⟩,
    ⟨[1], [.op 1 2 [1], .op 5 3 [1]], 3⟩, [.load 0 1 [0], .call 9 [1], .store 0 9 [0]],
    ?_, by decide +kernel, ?_, ?_, ?_⟩
  · simp [Loop.wf, wf, Loop.scope, Op.args, Op.res]
  · simp [Fun.wf, wf, scope, Op.args, Op.res]
  · simp [wf, Loop.scope, Op.args, Op.res]
  · intro h
    obtain ⟨s2, h1, h2⟩ := h ⟨fun x => if x = 0 then some 0 else none, 0⟩ _
      (by simp [Consts]) rfl
    have h3 := congrArg (Option.map fun s => s.mem) h1
    rw [Option.map_some, h2] at h3
    revert h3
    decide +kernel

/-- A loaded value that is stored as it is: the call has itself as operand. -/
theorem C125_direct_violated :
    extract ⟨[0], [], [], [.load 0 1 [0], .op 1 2 [1], .store 0 1 [0]]⟩ 9 =
      .ok (⟨[1], [.op 1 2 [1]], 2⟩, [.load 0 1 [0], .call 9 [9], .store 0 9 [0]]) ∧
    ¬ wf [0] [.load 0 1 [0], .call 9 [9], .store 0 9 [0]] := by
  refine ⟨by decide +kernel, ?_⟩
  simp [wf, Op.args, Op.res]

/-- A load after the stored value is computed: it is an argument of the call before. -/
theorem C125_late_load_violated :
    extract ⟨[0], [], [], [.load 0 1 [0], .op 1 2 [1], .load 1 3 [0], .store 0 2 [0]]⟩ 9 =
      .ok (⟨[1, 3], [.op 1 2 [1]], 2⟩,
        [.load 0 1 [0], .call 9 [1, 3], .load 1 3 [0], .store 0 9 [0]]) ∧
    ¬ wf [0] [.load 0 1 [0], .call 9 [1, 3], .load 1 3 [0], .store 0 9 [0]] := by
  refine ⟨by decide +kernel, ?_⟩
  simp [wf, Op.args, Op.res]

/-- A value from outside the loop that is not a constant: the function refers to it. -/
theorem C125_outer_violated :
    extract ⟨[0], [], [5], [.load 0 1 [0], .op 1 2 [1, 5], .store 0 2 [0]]⟩ 9 =
      .ok (⟨[1], [.op 1 2 [1, 5]], 2⟩, [.load 0 1 [0], .call 9 [1], .store 0 9 [0]]) ∧
    ¬ Fun.wf ⟨[1], [.op 1 2 [1, 5]], 2⟩ := by
  refine ⟨by decide +kernel, ?_⟩
  simp [Fun.wf, wf, Op.args]

/-- An induction variable that is an operand of the computation: undefined. -/
theorem C125_induction_variable_violated :
    extract ⟨[0], [], [], [.load 0 1 [0], .op 1 2 [1, 0], .store 0 2 [0]]⟩ 9 = .ub := by
  decide +kernel

/-- A table look-up: the index computed for the second load stays, the computation goes. -/
def sample : Loop :=
  ⟨[0], [(1, 7)], [], [.op 3 2 [0], .load 0 3 [2], .op 4 4 [3, 1], .op 5 5 [4, 3], .store 0 5 [0]]⟩

def sampleFun : Fun := ⟨[3], [.op 7 1 [], .op 4 4 [3, 1], .op 5 5 [4, 3]], 5⟩

def sampleBody : List Op := [.op 3 2 [0], .load 0 3 [2], .call 9 [3], .store 0 9 [0]]

example : sample.wf ∧ extract sample 9 = .ok (sampleFun, sampleBody) ∧ sampleFun.wf ∧
    wf sample.scope sampleBody ∧ results sample.body = [sampleFun.ret] ∧
    9 ∉ scope sample.scope sample.body := by
  refine ⟨?_, by decide +kernel, ?_, ?_, by decide +kernel, by decide +kernel⟩
  · simp [sample, Loop.wf, wf, Loop.scope, Op.args, Op.res]
  · simp [sampleFun, Fun.wf, wf, scope, Op.args, Op.res]
  · simp [sample, sampleBody, wf, Loop.scope, Op.args, Op.res]

example : Shape sample [.op 3 2 [0], .load 0 3 [2]] [.op 4 4 [3, 1], .op 5 5 [4, 3]] 0 5 [0] := by
  refine ⟨rfl, ?_, ⟨.load 0 3 [2], by simp, trivial⟩, ?_, ⟨5, [4, 3], rfl⟩, ?_⟩
  · intro o ho
    simp only [List.mem_cons, List.not_mem_nil, or_false] at ho
    rcases ho with rfl | rfl
    · exact .inr ⟨3, 2, [0], rfl, .here (o := .load 0 3 [2]) (by simp) (by simp [Op.args]) trivial,
        by simp [Op.args]⟩
    · exact .inl trivial
  · intro o ho
    simp only [List.mem_cons, List.not_mem_nil, or_false] at ho
    rcases ho with rfl | rfl
    · exact ⟨4, 4, [3, 1], rfl, by simp [sample, Op.res]⟩
    · exact ⟨5, 5, [4, 3], rfl, by simp [Op.res]⟩
  · simp [Op.res]

end Heir.Memref.Extract
