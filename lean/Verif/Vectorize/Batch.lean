import Verif.Vectorize.Rank

/-! # What the pass batches -/

namespace Heir.Vectorize

open Graph (upd)

variable {K : Type}

theorem sequence_length {β : Type} {l : List (Option β)} {r : List β} (h : sequence l = some r) :
    r.length = l.length := by
  rw [sequence_some] at h
  rw [h, List.length_map]

/-- A property of operations that renaming keeps. -/
structure Stable (Q : Node K → Prop) : Prop where
  rename : ∀ old new n, Q n → Q (n.rename old new)
  extract : ∀ i src lane, Q (.extract i src lane)

theorem replaceAll_all {Q : Node K → Prop} (hQ : Stable Q) (pid : Nat) : ∀ (l : List (Nat × Nat))
    (st : State K), (∀ n ∈ st.nodes, Q n) → ∀ n ∈ (l.foldl (replaceOp pid) st).nodes, Q n
  | [], _, h => h
  | ol :: l, st, h => by
    rw [List.foldl_cons]
    apply replaceAll_all hQ pid l
    intro n hn
    obtain ⟨m, hm, rfl⟩ := List.mem_map.1 hn
    apply hQ.rename
    rcases List.mem_append.1 hm with hm | hm
    · exact h m hm
    · rw [List.mem_singleton.1 hm]
      exact hQ.extract _ _ _

theorem rewriteBucket_all {Q : Node K → Prop} (hQ : Stable Q) {st st' : State K} {b : List Nat}
    (hp : ∀ i lanes, lanes.length = b.length → Q (.packed i lanes)) (h : ∀ n ∈ st.nodes, Q n)
    (hr : rewriteBucket st b = some st') : ∀ n ∈ st'.nodes, Q n := by
  unfold rewriteBucket at hr
  rw [Option.map_eq_some_iff] at hr
  obtain ⟨lanes, hl, rfl⟩ := hr
  apply replaceAll_all hQ
  intro n hn
  rcases List.mem_append.1 hn with hn | hn
  · exact h n hn
  · rw [List.mem_singleton.1 hn]
    exact hp _ _ (by simpa using sequence_length hl)

theorem rewriteBuckets_all {Q : Node K → Prop} (hQ : Stable Q) : ∀ {bs : List (List Nat)}
    {st st' : State K}, (∀ b ∈ bs, ∀ i lanes, lanes.length = b.length → Q (.packed i lanes)) →
    (∀ n ∈ st.nodes, Q n) → bs.foldlM rewriteBucket st = some st' → ∀ n ∈ st'.nodes, Q n
  | [], st, st', _, h, hr => by
    obtain rfl : st = st' := by simpa using hr
    exact h
  | b :: bs, st, st', hp, h, hr => by
    rw [List.foldlM_cons] at hr
    obtain ⟨s1, h1, h2⟩ := Option.bind_eq_some_iff.1 hr
    exact rewriteBuckets_all hQ (fun b' hb' => hp b' (List.mem_cons_of_mem _ hb'))
      (rewriteBucket_all hQ (hp b List.mem_cons_self) h h1) h2

theorem eraseOp_sub {st st' : State K} {o : Nat} (h : eraseOp st o = some st') :
    st'.next = st.next ∧ st'.nodes = st.nodes.filter fun n => n.id != o := by
  unfold eraseOp at h
  split at h
  · obtain rfl := Option.some.inj h
    exact ⟨rfl, rfl⟩
  · cases h

theorem eraseAll_sub : ∀ {l : List Nat} {st st' : State K}, l.foldlM eraseOp st = some st' →
    st'.next = st.next ∧ (∀ n ∈ st'.nodes, n ∈ st.nodes) ∧ ∀ o ∈ l, ¬ Defined st'.nodes o
  | [], st, st', h => by
    obtain rfl : st = st' := by simpa using h
    exact ⟨rfl, fun _ hn => hn, by simp⟩
  | o :: l, st, st', h => by
    rw [List.foldlM_cons] at h
    obtain ⟨s1, h1, h2⟩ := Option.bind_eq_some_iff.1 h
    obtain ⟨n1, f1⟩ := eraseOp_sub h1
    obtain ⟨n2, f2, g2⟩ := eraseAll_sub h2
    refine ⟨n2.trans n1, ?_, ?_⟩
    · intro n hn
      have := f2 n hn
      rw [f1] at this
      exact (List.mem_filter.1 this).1
    · intro o' ho'
      rcases List.mem_cons.1 ho' with rfl | ho'
      · rintro ⟨n, hn, e⟩
        have := f2 n hn
        rw [f1] at this
        have := (List.mem_filter.1 this).2
        simp [e] at this
      · exact g2 o' ho'

theorem rewriteKey_all {Q : Node K → Prop} (hQ : Stable Q) {kb : Nat × List (List Nat)}
    {st st' : State K} (hp : ∀ b ∈ kb.2, ∀ i lanes, lanes.length = b.length → Q (.packed i lanes))
    (h : ∀ n ∈ st.nodes, Q n) (hr : rewriteKey st kb = some st') : ∀ n ∈ st'.nodes, Q n := by
  unfold rewriteKey at hr
  split at hr
  · obtain rfl := Option.some.inj hr
    exact h
  · obtain ⟨s1, h1, h2⟩ := Option.bind_eq_some_iff.1 hr
    intro n hn
    exact rewriteBuckets_all hQ hp h h1 n ((eraseAll_sub h2).2.1 n hn)

theorem rewriteKeys_all {Q : Node K → Prop} (hQ : Stable Q) : ∀ {m : Buckets} {st st' : State K},
    (∀ kb ∈ m, ∀ b ∈ kb.2, ∀ i lanes, lanes.length = b.length → Q (.packed i lanes)) →
    (∀ n ∈ st.nodes, Q n) → m.foldlM rewriteKey st = some st' → ∀ n ∈ st'.nodes, Q n
  | [], st, st', _, h, hr => by
    obtain rfl : st = st' := by simpa using hr
    exact h
  | kb :: m, st, st', hp, h, hr => by
    rw [List.foldlM_cons] at hr
    obtain ⟨s1, h1, h2⟩ := Option.bind_eq_some_iff.1 hr
    exact rewriteKeys_all hQ (fun b' hb' => hp b' (List.mem_cons_of_mem _ hb'))
      (rewriteKey_all hQ (hp kb List.mem_cons_self) h h1) h2

/-! ## The size of the buckets -/

/-- A property of a nonempty bucket that room for one more keeps. -/
structure BucketProp (par : Int) (P : Nat → Prop) : Prop where
  one : P 1
  more : ∀ b : List Nat, P b.length → hasRoom par b = true → P (b.length + 1)

theorem addToBuckets_all {par : Int} {P : Nat → Prop} (hP : BucketProp par P) (o : Nat) :
    ∀ {bs : List (List Nat)}, (∀ b ∈ bs, P b.length) → ∀ b ∈ addToBuckets par o bs, P b.length
  | [], _, b, hb => by
    rw [addToBuckets, List.mem_singleton] at hb
    rw [hb]
    exact hP.one
  | [b0], h, b, hb => by
    unfold addToBuckets at hb
    have h0 := h b0 (by simp)
    split at hb
    · rename_i hr
      rw [List.mem_singleton.1 hb, List.length_append]
      exact hP.more b0 h0 hr
    · rcases List.mem_cons.1 hb with rfl | hb
      · exact h0
      · rw [List.mem_singleton.1 hb]
        exact hP.one
  | b0 :: b1 :: bs, h, b, hb => by
    rw [addToBuckets] at hb
    · rcases List.mem_cons.1 hb with rfl | hb
      · exact h _ (by simp)
      · exact addToBuckets_all hP o (fun b' hb' => h b' (List.mem_cons_of_mem _ hb')) b hb
    · simp

theorem buildCompatibleOps_all {par : Int} {P : Nat → Prop} (hP : BucketProp par P)
    (compat : Nat → Nat → Bool) (level : List Nat) :
    ∀ kb ∈ buildCompatibleOps compat par level, ∀ b ∈ kb.2, P b.length := by
  have key : ∀ (l : List Nat) (m : Buckets), (∀ kb ∈ m, ∀ b ∈ kb.2, P b.length) →
      ∀ kb ∈ l.foldl (addOp compat par) m, ∀ b ∈ kb.2, P b.length := by
    intro l
    induction l with
    | nil => intro m h; exact h
    | cons o l ih =>
      intro m h
      apply ih
      intro kb hkb
      unfold addOp at hkb
      split at hkb
      · obtain ⟨kb', hkb', rfl⟩ := List.mem_map.1 hkb
        split
        · exact addToBuckets_all hP o (h kb' hkb')
        · exact h kb' hkb'
      · rcases List.mem_append.1 hkb with hkb | hkb
        · exact h kb hkb
        · rw [List.mem_singleton.1 hkb]
          intro b hb
          rw [List.mem_singleton.1 hb]
          exact hP.one
  exact key level [] (by simp)

theorem rewriteLevels_all {Q : Node K → Prop} (hQ : Stable Q) {compat : Node K → Node K → Bool}
    {par : Int} {P : Nat → Prop} (hP : BucketProp par P)
    (hp : ∀ i lanes, P lanes.length → Q (.packed i lanes)) : ∀ {levels : List (List Nat)}
    {st st' : State K}, (∀ n ∈ st.nodes, Q n) →
    levels.foldlM (rewriteLevel compat par) st = some st' → ∀ n ∈ st'.nodes, Q n
  | [], st, st', h, hr => by
    obtain rfl : st = st' := by simpa using hr
    exact h
  | level :: levels, st, st', h, hr => by
    rw [List.foldlM_cons] at hr
    obtain ⟨s1, h1, h2⟩ := Option.bind_eq_some_iff.1 hr
    refine rewriteLevels_all hQ hP hp ?_ h2
    exact rewriteKeys_all hQ (fun kb hkb b hb i lanes hl =>
      hp i lanes (hl ▸ buildCompatibleOps_all hP _ level kb hkb b hb)) h h1

/-! ## Compatible operations of a level are batched -/

/-- The kind, of an operation of the block. -/
def Node.kind : Node K → Option K
  | .op _ k _ _ => some k
  | _ => none

theorem rename_kind (old new : Nat) (n : Node K) : (n.rename old new).kind = n.kind := by
  cases n <;> rfl

/-- Nothing that was gone comes back, and the kinds are kept. -/
structure Shrinks (st st' : State K) : Prop where
  next : st.next ≤ st'.next
  node : ∀ n ∈ st'.nodes, n.id < st.next → ∃ m ∈ st.nodes, m.id = n.id ∧ m.kind = n.kind

theorem Shrinks.ids {st st' : State K} (h : Shrinks st st') {i : Nat} (hi : i < st.next)
    (hd : Defined st'.nodes i) : Defined st.nodes i := by
  obtain ⟨n, hn, rfl⟩ := hd
  obtain ⟨m, hm, e, -⟩ := h.node n hn hi
  exact ⟨m, hm, e⟩

theorem Shrinks.refl (st : State K) : Shrinks st st := ⟨le_refl _, fun n h _ => ⟨n, h, rfl, rfl⟩⟩

theorem Shrinks.trans {s1 s2 s3 : State K} (h1 : Shrinks s1 s2) (h2 : Shrinks s2 s3) :
    Shrinks s1 s3 := by
  refine ⟨le_trans h1.next h2.next, fun n hn hi => ?_⟩
  obtain ⟨m, hm, e1, e2⟩ := h2.node n hn (lt_of_lt_of_le hi h1.next)
  obtain ⟨m', hm', e3, e4⟩ := h1.node m hm (e1 ▸ hi)
  exact ⟨m', hm', e3.trans e1, e4.trans e2⟩

theorem replaceAll_shrinks (pid : Nat) : ∀ (l : List (Nat × Nat)) (st : State K),
    Shrinks st (l.foldl (replaceOp pid) st)
  | [], st => .refl st
  | ol :: l, st => by
    rw [List.foldl_cons]
    refine Shrinks.trans ⟨?_, ?_⟩ (replaceAll_shrinks pid l _)
    · simp [replaceOp]
    · intro n hn hi
      obtain ⟨m, hm, rfl⟩ := List.mem_map.1 hn
      rw [rename_id] at hi ⊢
      rw [rename_kind]
      rcases List.mem_append.1 hm with hm | hm
      · exact ⟨m, hm, rfl, rfl⟩
      · rw [List.mem_singleton.1 hm] at hi
        simp [Node.id] at hi

theorem rewriteBucket_shrinks {st st' : State K} {b : List Nat} (h : rewriteBucket st b = some st') :
    Shrinks st st' := by
  unfold rewriteBucket at h
  obtain ⟨lanes, -, rfl⟩ := Option.map_eq_some_iff.1 h
  refine Shrinks.trans ⟨?_, ?_⟩ (replaceAll_shrinks _ _ _)
  · simp
  · intro n hn hi
    rcases List.mem_append.1 hn with hn | hn
    · exact ⟨n, hn, rfl, rfl⟩
    · rw [List.mem_singleton.1 hn] at hi
      simp [Node.id] at hi

theorem foldlM_shrinks {β : Type} {f : State K → β → Option (State K)}
    (hf : ∀ s s' b, f s b = some s' → Shrinks s s') : ∀ {l : List β} {st st' : State K},
    l.foldlM f st = some st' → Shrinks st st'
  | [], st, st', h => by
    obtain rfl : st = st' := by simpa using h
    exact .refl st
  | b :: l, st, st', h => by
    rw [List.foldlM_cons] at h
    obtain ⟨s1, h1, h2⟩ := Option.bind_eq_some_iff.1 h
    exact (hf _ _ _ h1).trans (foldlM_shrinks hf h2)

theorem eraseAll_shrinks {l : List Nat} {st st' : State K} (h : l.foldlM eraseOp st = some st') :
    Shrinks st st' := by
  obtain ⟨h1, h2, -⟩ := eraseAll_sub h
  exact ⟨by rw [h1], fun n hn _ => ⟨n, h2 n hn, rfl, rfl⟩⟩

theorem rewriteKey_shrinks {st st' : State K} {kb : Nat × List (List Nat)}
    (h : rewriteKey st kb = some st') : Shrinks st st' ∧
      (2 ≤ kb.2.flatten.length → ∀ o ∈ kb.2.flatten, ¬ Defined st'.nodes o) := by
  unfold rewriteKey at h
  split at h
  · rename_i hlt
    obtain rfl := Option.some.inj h
    refine ⟨.refl _, fun h2 => ?_⟩
    rw [List.length_flatten] at h2
    omega
  · obtain ⟨s1, h1, h2⟩ := Option.bind_eq_some_iff.1 h
    exact ⟨(foldlM_shrinks (fun _ _ _ h => rewriteBucket_shrinks h) h1).trans (eraseAll_shrinks h2),
      fun _ => (eraseAll_sub h2).2.2⟩

theorem rewriteKeys_gone {m : Buckets} {st st' : State K} (h : m.foldlM rewriteKey st = some st')
    {kb : Nat × List (List Nat)} (hkb : kb ∈ m) (h2 : 2 ≤ kb.2.flatten.length) {o : Nat}
    (ho : o ∈ kb.2.flatten) (hlt : o < st.next) : ¬ Defined st'.nodes o := by
  induction m generalizing st with
  | nil => simp at hkb
  | cons a m ih =>
    rw [List.foldlM_cons] at h
    obtain ⟨s1, h1, h3⟩ := Option.bind_eq_some_iff.1 h
    obtain ⟨sh, gone⟩ := rewriteKey_shrinks h1
    rcases List.mem_cons.1 hkb with rfl | hkb
    · intro hd
      exact gone h2 o ho
        ((foldlM_shrinks (fun _ _ _ h => (rewriteKey_shrinks h).1) h3).ids
          (lt_of_lt_of_le hlt sh.next) hd)
    · exact ih h3 hkb (lt_of_lt_of_le hlt sh.next)

/-- The operations of a key are compatible with it. -/
theorem buildCompatibleOps_keys {compat : Nat → Nat → Bool} (hc : PartialEquiv compat) (par : Int)
    (level : List Nat) :
    (buildCompatibleOps compat par level).Pairwise (fun a b => compat a.1 b.1 = false) ∧
      ∀ kb ∈ buildCompatibleOps compat par level, ∀ o ∈ kb.2.flatten,
        o = kb.1 ∨ compat kb.1 o = true := by
  have key : ∀ (l : List Nat) (m : Buckets), (m.Pairwise fun a b => compat a.1 b.1 = false) →
      (∀ kb ∈ m, ∀ o ∈ kb.2.flatten, o = kb.1 ∨ compat kb.1 o = true) →
      (l.foldl (addOp compat par) m).Pairwise (fun a b => compat a.1 b.1 = false) ∧
      ∀ kb ∈ l.foldl (addOp compat par) m, ∀ o ∈ kb.2.flatten, o = kb.1 ∨ compat kb.1 o = true := by
    intro l
    induction l with
    | nil => intro m h1 h2; exact ⟨h1, h2⟩
    | cons o l ih =>
      intro m h1 h2
      refine ih _ (addOp_ok hc par o m h1).2 ?_
      intro kb hkb o' ho'
      unfold addOp at hkb
      split at hkb
      · obtain ⟨kb', hkb', rfl⟩ := List.mem_map.1 hkb
        split at ho' <;> rename_i hco
        · rw [if_pos hco]
          rw [addToBuckets_flatten, List.mem_append] at ho'
          rcases ho' with ho' | ho'
          · exact h2 kb' hkb' o' ho'
          · rw [List.mem_singleton.1 ho']
            exact Or.inr hco
        · rw [if_neg hco]
          exact h2 kb' hkb' o' ho'
      · rcases List.mem_append.1 hkb with hkb | hkb
        · exact h2 kb hkb o' ho'
        · rw [List.mem_singleton.1 hkb] at ho' ⊢
          left
          simpa using ho'
  exact key level [] List.Pairwise.nil (by simp)

/-- Two compatible operations of a level have the same key. -/
theorem same_key {compat : Nat → Nat → Bool} (hc : PartialEquiv compat) (par : Int) {level : List Nat}
    {u v : Nat} (hu : u ∈ level) (hv : v ∈ level) (huv : compat u v = true) :
    ∃ kb ∈ buildCompatibleOps compat par level, u ∈ kb.2.flatten ∧ v ∈ kb.2.flatten := by
  have hperm := buildCompatibleOps_perm hc par level
  obtain ⟨hpw, hk⟩ := buildCompatibleOps_keys hc par level
  obtain ⟨k1, hk1, hu1⟩ := List.mem_flatMap.1 (hperm.mem_iff.2 hu)
  obtain ⟨k2, hk2, hv2⟩ := List.mem_flatMap.1 (hperm.mem_iff.2 hv)
  have h1 : compat k1.1 v = true := by
    rcases hk k1 hk1 u hu1 with rfl | h
    · exact huv
    · exact hc.trans _ _ _ h huv
  have h12 : compat k1.1 k2.1 = true := by
    rcases hk k2 hk2 v hv2 with h | h
    · rwa [← h]
    · exact hc.trans _ _ _ h1 (hc.symm _ _ h)
  have : k1 = k2 := by
    by_contra hne
    obtain ⟨i, hi, rfl⟩ := List.getElem_of_mem hk1
    obtain ⟨j, hj, rfl⟩ := List.getElem_of_mem hk2
    rw [List.pairwise_iff_getElem] at hpw
    rcases Nat.lt_trichotomy i j with hij | rfl | hij
    · rw [hpw i j hi hj hij] at h12
      simp at h12
    · exact hne rfl
    · have := hc.symm _ _ h12
      rw [hpw j i hj hi hij] at this
      simp at this
  subst this
  exact ⟨k1, hk1, hu1, hv2⟩

theorem two_le_length {l : List Nat} {u v : Nat} (hu : u ∈ l) (hv : v ∈ l) (h : u ≠ v) :
    2 ≤ l.length := by
  match l with
  | [] => simp at hu
  | [a] => exact absurd ((List.mem_singleton.1 hu).trans (List.mem_singleton.1 hv).symm) h
  | _ :: _ :: _ => simp

/-! ## Other operations are kept -/

theorem replaceAll_keep (pid : Nat) {i : Nat} : ∀ (l : List (Nat × Nat)) (st : State K),
    Defined st.nodes i → Defined (l.foldl (replaceOp pid) st).nodes i
  | [], _, h => h
  | ol :: l, st, h => by
    rw [List.foldl_cons]
    apply replaceAll_keep pid l
    obtain ⟨n, hn, rfl⟩ := h
    exact ⟨n.rename ol.1 st.next, List.mem_map_of_mem (List.mem_append_left _ hn), rename_id _ _ _⟩

theorem rewriteBucket_keep {i : Nat} {st st' : State K} {b : List Nat}
    (h : rewriteBucket st b = some st') (hd : Defined st.nodes i) : Defined st'.nodes i := by
  unfold rewriteBucket at h
  obtain ⟨lanes, -, rfl⟩ := Option.map_eq_some_iff.1 h
  apply replaceAll_keep
  obtain ⟨n, hn, e⟩ := hd
  exact ⟨n, List.mem_append_left _ hn, e⟩

theorem foldlM_keep {β : Type} {f : State K → β → Option (State K)} {i : Nat} {l : List β}
    (hf : ∀ s s', ∀ b ∈ l, f s b = some s' → Defined s.nodes i → Defined s'.nodes i)
    {st st' : State K} (h : l.foldlM f st = some st') (hd : Defined st.nodes i) :
    Defined st'.nodes i := by
  induction l generalizing st with
  | nil =>
    obtain rfl : st = st' := by simpa using h
    exact hd
  | cons b l ih =>
    rw [List.foldlM_cons] at h
    obtain ⟨s1, h1, h2⟩ := Option.bind_eq_some_iff.1 h
    exact ih (fun s s' b hb => hf s s' b (List.mem_cons_of_mem _ hb)) h2
      (hf st s1 b List.mem_cons_self h1 hd)

theorem rewriteKey_keep {i : Nat} {st st' : State K} {kb : Nat × List (List Nat)}
    (h : rewriteKey st kb = some st') (hi : i ∉ kb.2.flatten) (hd : Defined st.nodes i) :
    Defined st'.nodes i := by
  unfold rewriteKey at h
  split at h
  · obtain rfl := Option.some.inj h
    exact hd
  · obtain ⟨s1, h1, h2⟩ := Option.bind_eq_some_iff.1 h
    refine foldlM_keep ?_ h2 (foldlM_keep (fun _ _ _ _ h => rewriteBucket_keep h) h1 hd)
    rintro s s' o ho he ⟨n, hn, rfl⟩
    rw [Defined, (eraseOp_sub he).2]
    refine ⟨n, List.mem_filter.2 ⟨hn, ?_⟩, rfl⟩
    simp only [bne_iff_ne, ne_eq]
    rintro rfl
    exact hi ho

/-- What is asked of compatibility in a state. -/
def compatIn (compat : Node K → Node K → Bool) (nodes : List (Node K)) (a b : Nat) : Bool :=
  match nodes.find? (fun n => n.id == a), nodes.find? (fun n => n.id == b) with
  | some x, some y => compat x y
  | _, _ => false

theorem rewriteLevel_eq (compat : Node K → Node K → Bool) (par : Int) (st : State K)
    (level : List Nat) : rewriteLevel compat par st level =
      (buildCompatibleOps (compatIn compat st.nodes) par level).foldlM rewriteKey st := rfl

theorem compatIn_equiv {compat : Node K → Node K → Bool} (hc : PartialEquiv compat)
    (nodes : List (Node K)) : PartialEquiv (compatIn compat nodes) := by
  constructor
  · intro a b h
    unfold compatIn at h ⊢
    cases ha : nodes.find? (fun n => n.id == a) <;> cases hb : nodes.find? (fun n => n.id == b) <;>
      rw [ha, hb] at h <;> simp_all [hc.symm]
  · intro a b d h1 h2
    unfold compatIn at h1 h2 ⊢
    cases ha : nodes.find? (fun n => n.id == a) <;> cases hb : nodes.find? (fun n => n.id == b) <;>
      cases hd : nodes.find? (fun n => n.id == d) <;> rw [ha, hb] at h1 <;> rw [hb, hd] at h2 <;>
      first | exact hc.trans _ _ _ h1 h2 | exact absurd h1 Bool.false_ne_true | exact absurd h2 Bool.false_ne_true

theorem rewriteLevel_keep {compat : Node K → Node K → Bool} (hc : PartialEquiv compat) {par : Int}
    {i : Nat} {st st' : State K} {level : List Nat} (h : rewriteLevel compat par st level = some st')
    (hi : i ∉ level) (hd : Defined st.nodes i) : Defined st'.nodes i := by
  rw [rewriteLevel_eq] at h
  refine foldlM_keep ?_ h hd
  intro s s' kb hkb hk hs
  refine rewriteKey_keep hk ?_ hs
  intro hm
  exact hi ((buildCompatibleOps_perm (compatIn_equiv hc st.nodes) par level).mem_iff.1
    (List.mem_flatMap.2 ⟨kb, hkb, hm⟩))

theorem rewriteLevel_shrinks {compat : Node K → Node K → Bool} {par : Int} {st st' : State K}
    {level : List Nat} (h : rewriteLevel compat par st level = some st') : Shrinks st st' :=
  foldlM_shrinks (fun _ _ _ h => (rewriteKey_shrinks h).1) h

theorem find_kind {nodes : List (Node K)} {i : Nat} {k : K} (hd : Defined nodes i)
    (hk : ∀ n ∈ nodes, n.id = i → n.kind = some k) :
    ∃ args captured, nodes.find? (fun n => n.id == i) = some (.op i k args captured) := by
  cases hf : nodes.find? (fun n => n.id == i) with
  | none =>
    obtain ⟨n, hn, rfl⟩ := hd
    have := List.find?_eq_none.1 hf n hn
    simp at this
  | some n =>
    have h1 : n.id = i := by simpa using List.find?_some hf
    have h2 := hk n (List.mem_of_find?_eq_some hf) h1
    cases n with
    | op j k' args captured =>
      simp only [Node.kind, Option.some.injEq] at h2
      simp only [Node.id] at h1
      subst h1 h2
      exact ⟨args, captured, rfl⟩
    | packed => simp [Node.kind] at h2
    | extract => simp [Node.kind] at h2

/-- Two operations of one level with compatible kinds are gone after the levels. -/
theorem levels_gone {c : K → K → Bool} (hc : PartialEquiv (byKind c)) {par : Int} {ku kv : K} {u v : Nat}
    (huv : c ku kv = true) (hne : u ≠ v) {A B : List (List Nat)} {level : List Nat} {st st' : State K}
    (h : (A ++ level :: B).foldlM (rewriteLevel (byKind c) par) st = some st')
    (hu : u ∈ level) (hv : v ∈ level) (hA : ∀ l ∈ A, u ∉ l ∧ v ∉ l)
    (hlt : u < st.next ∧ v < st.next) (hd : Defined st.nodes u ∧ Defined st.nodes v)
    (hku : ∀ n ∈ st.nodes, n.id = u → n.kind = some ku)
    (hkv : ∀ n ∈ st.nodes, n.id = v → n.kind = some kv) :
    ¬ Defined st'.nodes u ∧ ¬ Defined st'.nodes v := by
  rw [List.foldlM_append] at h
  obtain ⟨s1, h1, h⟩ := Option.bind_eq_some_iff.1 h
  rw [List.foldlM_cons] at h
  obtain ⟨s2, h2, h3⟩ := Option.bind_eq_some_iff.1 h
  have sh1 : Shrinks st s1 := foldlM_shrinks (fun _ _ _ h => rewriteLevel_shrinks h) h1
  have sh2 : Shrinks s1 s2 := rewriteLevel_shrinks h2
  have sh3 : Shrinks s2 st' := foldlM_shrinks (fun _ _ _ h => rewriteLevel_shrinks h) h3
  have du : Defined s1.nodes u :=
    foldlM_keep (fun _ _ l hl h => rewriteLevel_keep hc h (hA l hl).1) h1 hd.1
  have dv : Defined s1.nodes v :=
    foldlM_keep (fun _ _ l hl h => rewriteLevel_keep hc h (hA l hl).2) h1 hd.2
  have kind : ∀ w k, w < st.next → (∀ n ∈ st.nodes, n.id = w → n.kind = some k) →
      ∀ n ∈ s1.nodes, n.id = w → n.kind = some k := by
    intro w k hw hk n hn e
    obtain ⟨m, hm, e1, e2⟩ := sh1.node n hn (e ▸ hw)
    rw [← e2]
    exact hk m hm (e1.trans e)
  obtain ⟨a1, c1, f1⟩ := find_kind du (kind u ku hlt.1 hku)
  obtain ⟨a2, c2, f2⟩ := find_kind dv (kind v kv hlt.2 hkv)
  have hcomp : compatIn (byKind c) s1.nodes u v = true := by
    rw [compatIn, f1, f2]
    exact huv
  obtain ⟨kb, hkb, m1, m2⟩ := same_key (compatIn_equiv hc s1.nodes) par hu hv hcomp
  rw [rewriteLevel_eq] at h2
  have l1 := lt_of_lt_of_le hlt.1 sh1.next
  have l2 := lt_of_lt_of_le hlt.2 sh1.next
  have len := two_le_length m1 m2 hne
  exact ⟨fun h => rewriteKeys_gone h2 hkb len m1 l1 (sh3.ids (lt_of_lt_of_le l1 sh2.next) h),
    fun h => rewriteKeys_gone h2 hkb len m2 l2 (sh3.ids (lt_of_lt_of_le l2 sh2.next) h)⟩

end Heir.Vectorize
