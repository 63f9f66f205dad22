import Verif.Vectorize.Spec
import Mathlib.Data.List.Basic
import Mathlib.Data.List.Nodup
import Mathlib.Tactic.Ring
import Mathlib.Tactic.ByContra

/-! # The steps of the rewriting keep values and order -/

namespace Heir.Vectorize

open Graph (upd)

variable {K α : Type}

theorem sequence_some {β : Type} : ∀ {l : List (Option β)} {r : List β},
    sequence l = some r ↔ l = r.map some
  | [], r => by cases r <;> simp [sequence]
  | none :: l, r => by cases r <;> simp [sequence]
  | some a :: l, r => by
    cases r with
    | nil =>
      simp only [sequence, List.map_nil, reduceCtorEq, iff_false]
      cases sequence l <;> simp
    | cons b r =>
      simp only [sequence, Option.map_eq_some_iff, List.map_cons, List.cons.injEq,
        Option.some.injEq, ← sequence_some (l := l) (r := r)]
      constructor
      · rintro ⟨a', h, rfl, rfl⟩; exact ⟨rfl, h⟩
      · rintro ⟨rfl, h⟩; exact ⟨r, h, rfl, rfl⟩

theorem sequence_total {β : Type} (σ : Nat → β) (l : List Nat) :
    sequence (l.map fun i => some (σ i)) = some (l.map σ) := by
  rw [sequence_some, List.map_map]; rfl

/-- All values known. -/
abbrev total (σ : Nat → Val α) : Nat → Option (Val α) := fun i => some (σ i)

variable (sem : K → List (Val α) → List (Val α) → Val α)

theorem sequence_mono {β : Type} {f g : Nat → Option β} (l : List Nat)
    (h : ∀ i v, f i = some v → g i = some v) {r : List β} (hr : sequence (l.map f) = some r) :
    sequence (l.map g) = some r := by
  rw [sequence_some] at hr ⊢
  apply List.ext_getElem
  · simpa using congrArg List.length hr
  · intro i h1 h2
    have h3 : i < (l.map f).length := by simpa using h1
    have h4 : i < r.length := by simpa using h2
    have h5 : (l.map f)[i] = (r.map some)[i] := List.getElem_of_eq hr h3
    simp only [List.getElem_map] at h5 ⊢
    exact h _ _ h5

theorem eval_mono {f g : Nat → Option (Val α)} (h : ∀ i v, f i = some v → g i = some v) (n : Node K)
    {v : Val α} (hv : n.eval sem f = some v) : n.eval sem g = some v := by
  cases n with
  | op i k args captured =>
    simp only [Node.eval, Option.bind_eq_some_iff, Option.map_eq_some_iff] at hv ⊢
    obtain ⟨a, ha, c, hc, rfl⟩ := hv
    exact ⟨a, sequence_mono args h ha, c, sequence_mono captured h hc, rfl⟩
  | packed i lanes =>
    simp only [Node.eval, Option.map_eq_some_iff] at hv ⊢
    obtain ⟨a, ha, rfl⟩ := hv
    refine ⟨a, ?_, rfl⟩
    rw [sequence_some] at ha ⊢
    apply List.ext_getElem
    · simpa using congrArg List.length ha
    · intro j h1 h2
      have h3 : j < lanes.length := by simpa using h1
      have h5 := List.getElem_of_eq ha (by simpa using h3)
      simp only [List.getElem_map, Option.map_eq_some_iff] at h5 ⊢
      obtain ⟨b, hb, e⟩ := h5
      exact ⟨b, sequence_mono _ h hb, e⟩
  | extract i src lane =>
    simp only [Node.eval, Option.bind_eq_some_iff] at hv ⊢
    obtain ⟨a, ha, e⟩ := hv
    exact ⟨a, h _ _ ha, e⟩

/-- An operation depends on what it uses only. -/
theorem eval_congr {f g : Nat → Option (Val α)} (n : Node K) (h : ∀ r ∈ n.refs, f r = g r) :
    n.eval sem f = n.eval sem g := by
  cases n with
  | op i k args captured =>
    have h1 : args.map f = args.map g :=
      List.map_congr_left fun r hr => h r (by simp [Node.refs, hr])
    have h2 : captured.map f = captured.map g :=
      List.map_congr_left fun r hr => h r (by simp [Node.refs, hr])
    simp only [Node.eval, h1, h2]
  | packed i lanes =>
    have h1 : (lanes.map fun l => (sequence (l.2.map f)).map fun a => sem l.1 a []) =
        lanes.map fun l => (sequence (l.2.map g)).map fun a => sem l.1 a [] := by
      apply List.map_congr_left
      intro l hl
      rw [List.map_congr_left fun r hr => h r (by
        simp only [Node.refs, List.mem_flatMap]; exact ⟨l, hl, hr⟩)]
    simp only [Node.eval, h1]
  | extract i src lane =>
    simp only [Node.eval, h src (by simp [Node.refs])]

/-- A renamed operation has the value it had when the two values are equal. -/
theorem eval_rename {f : Nat → Option (Val α)} (old new : Nat) (h : f new = f old) (n : Node K) :
    (n.rename old new).eval sem f = n.eval sem f := by
  have hm : ∀ l : List Nat, (l.map fun r => if r = old then new else r).map f = l.map f := by
    intro l
    rw [List.map_map]
    apply List.map_congr_left
    intro r _
    simp only [Function.comp]
    split
    · rename_i e; rw [h, e]
    · rfl
  cases n with
  | op i k args captured => simp only [Node.rename, Node.eval, hm]
  | packed i lanes =>
    simp only [Node.rename, Node.eval, List.map_map, Function.comp_def]
    have : ∀ l : K × List Nat, (sequence ((l.2.map fun r => if r = old then new else r).map f)) =
        sequence (l.2.map f) := fun l => by rw [hm]
    simp only [List.map_map, Function.comp_def] at this
    simp only [this]
  | extract i src lane =>
    simp only [Node.rename, Node.eval]
    split
    · rename_i e; rw [h, e]
    · rfl

theorem rename_id (old new : Nat) (n : Node K) : (n.rename old new).id = n.id := by
  cases n <;> rfl

theorem mem_rename_refs {old new : Nat} {n : Node K} {r : Nat} (h : r ∈ (n.rename old new).refs) :
    (r = new ∧ old ∈ n.refs) ∨ (r ≠ old ∧ r ∈ n.refs) ∨ (r = new ∧ r = old ∧ old ∈ n.refs) := by
  have key : ∀ s, (if s = old then new else s) = r → s ∈ n.refs →
      (r = new ∧ old ∈ n.refs) ∨ (r ≠ old ∧ r ∈ n.refs) ∨ (r = new ∧ r = old ∧ old ∈ n.refs) := by
    intro s hs hm
    by_cases e : s = old
    · rw [if_pos e] at hs
      exact Or.inl ⟨hs.symm, e ▸ hm⟩
    · rw [if_neg e] at hs
      subst hs
      exact Or.inr (Or.inl ⟨e, hm⟩)
  cases n with
  | op i k args captured =>
    simp only [Node.rename, Node.refs, List.mem_append, List.mem_map] at h
    rcases h with ⟨s, hs, e⟩ | ⟨s, hs, e⟩
    · exact key s e (by simp [Node.refs, hs])
    · exact key s e (by simp [Node.refs, hs])
  | packed i lanes =>
    simp only [Node.rename, Node.refs, List.mem_flatMap, List.mem_map] at h
    obtain ⟨l, ⟨l', hl', rfl⟩, hr⟩ := h
    obtain ⟨s, hs, e⟩ := List.mem_map.1 hr
    exact key s e (by simp only [Node.refs, List.mem_flatMap]; exact ⟨l', hl', hs⟩)
  | extract i src lane =>
    simp only [Node.rename, Node.refs, List.mem_singleton] at h
    exact key src h.symm (by simp [Node.refs])

/-- What holds of the operations during the rewriting: `σ` are the values, `R` the ranks, `W` the
candidates of the block. -/
structure Inv (env : Nat → Option (Val α)) (W : Nat → Prop) (st : State K) (σ : Nat → Val α)
    (R : Nat → Nat) : Prop where
  nodup : (st.nodes.map Node.id).Nodup
  lt : ∀ n ∈ st.nodes, n.id < st.next
  rlt : ∀ n ∈ st.nodes, ∀ r ∈ n.refs, r < st.next
  rank : ∀ n ∈ st.nodes, ∀ r ∈ n.refs, Defined st.nodes r → R r < R n.id
  rankW : ∀ n ∈ st.nodes, ∀ r ∈ n.refs, W r → R r + 1 < R n.id
  sat : ∀ n ∈ st.nodes, n.eval sem (total σ) = some (σ n.id)
  known : ∀ n ∈ st.nodes, ∀ r ∈ n.refs, Defined st.nodes r ∨ (env r).isSome
  isOp : ∀ n ∈ st.nodes, W n.id → ∃ i k args, n = .op i k args []
  wlt : ∀ i, W i → i < st.next
  envlt : ∀ i, (env i).isSome → i < st.next

/-- The ranks and values of the numbers used are kept, and no definition of the state is lost. -/
structure Ext (W : Nat → Prop) (st st' : State K) (σ σ' : Nat → Val α) (R R' : Nat → Nat) : Prop where
  next : st.next ≤ st'.next
  val : ∀ i < st.next, σ' i = σ i
  rank : ∀ i < st.next, R' i = R i
  keep : ∀ i, Defined st.nodes i → Defined st'.nodes i
  unref : ∀ i, W i → (∀ n ∈ st.nodes, i ∉ n.refs) → ∀ n ∈ st'.nodes, i ∉ n.refs

theorem Ext.refl (W : Nat → Prop) (st : State K) (σ : Nat → Val α) (R : Nat → Nat) : Ext W st st σ σ R R :=
  ⟨le_refl _, fun _ _ => rfl, fun _ _ => rfl, fun _ h => h, fun _ _ h => h⟩

theorem Ext.trans {W : Nat → Prop} {s1 s2 s3 : State K} {σ1 σ2 σ3 : Nat → Val α} {R1 R2 R3 : Nat → Nat}
    (h1 : Ext W s1 s2 σ1 σ2 R1 R2) (h2 : Ext W s2 s3 σ2 σ3 R2 R3) : Ext W s1 s3 σ1 σ3 R1 R3 :=
  ⟨le_trans h1.next h2.next,
    fun i hi => (h2.val i (lt_of_lt_of_le hi h1.next)).trans (h1.val i hi),
    fun i hi => (h2.rank i (lt_of_lt_of_le hi h1.next)).trans (h1.rank i hi),
    fun i hi => h2.keep i (h1.keep i hi),
    fun i hi h => h2.unref i hi (h1.unref i hi h)⟩

theorem upd_ne {β : Type} (f : Nat → β) {a b : Nat} (w : β) (h : b ≠ a) : upd f a w b = f b := by
  simp [upd, h]

theorem upd_eq {β : Type} (f : Nat → β) (a : Nat) (w : β) : upd f a w a = w := by simp [upd]

theorem find_id {nodes : List (Node K)} (hn : (nodes.map Node.id).Nodup) {n : Node K}
    (h : n ∈ nodes) : nodes.find? (fun m => m.id == n.id) = some n := by
  induction nodes with
  | nil => simp at h
  | cons a l ih =>
    simp only [List.map_cons, List.nodup_cons] at hn
    rcases List.mem_cons.1 h with rfl | h
    · simp
    · have : a.id ≠ n.id := fun e => hn.1 (e ▸ List.mem_map.2 ⟨n, h, rfl⟩)
      rw [List.find?_cons_of_neg (by simpa using this)]
      exact ih hn.2 h

section

variable {sem} {env : Nat → Option (Val α)} {W : Nat → Prop} {st : State K} {σ : Nat → Val α}
  {R : Nat → Nat}

/-- The lane of an operation of a bucket. -/
theorem laneOf_ok (h : Inv sem env W st σ R) {o : Nat} (hd : Defined st.nodes o) (hw : W o) :
    ∃ k args, laneOf st.nodes o = some (k, args) ∧ Node.op o k args [] ∈ st.nodes := by
  obtain ⟨n, hn, rfl⟩ := hd
  obtain ⟨i, k, args, rfl⟩ := h.isOp n hn hw
  refine ⟨k, args, ?_, hn⟩
  unfold laneOf
  rw [find_id h.nodup hn]

/-- A new operation with a rank above what it uses. -/
theorem Inv.add (h : Inv sem env W st σ R) (mk : Node K) (v : Val α) (ρ : Nat)
    (hid : mk.id = st.next) (hlt : ∀ r ∈ mk.refs, r < st.next)
    (hrank : ∀ r ∈ mk.refs, Defined st.nodes r → R r < ρ)
    (hrankW : ∀ r ∈ mk.refs, W r → R r + 1 < ρ)
    (hsat : mk.eval sem (total σ) = some v)
    (hknown : ∀ r ∈ mk.refs, Defined st.nodes r ∨ (env r).isSome)
    (hused : ∀ r ∈ mk.refs, W r → ∃ n ∈ st.nodes, r ∈ n.refs) :
    Inv sem env W ⟨st.nodes ++ [mk], st.next + 1⟩ (upd σ st.next v) (upd R st.next ρ) ∧
      Ext W st ⟨st.nodes ++ [mk], st.next + 1⟩ σ (upd σ st.next v) R (upd R st.next ρ) := by
  have hdef : ∀ r, r < st.next → Defined (st.nodes ++ [mk]) r → Defined st.nodes r := by
    rintro r hr ⟨n, hn, rfl⟩
    rcases List.mem_append.1 hn with hn | hn
    · exact ⟨n, hn, rfl⟩
    · rw [List.mem_singleton.1 hn, hid] at hr
      omega
  have hdef' : ∀ r, Defined st.nodes r → Defined (st.nodes ++ [mk]) r := by
    rintro r ⟨n, hn, e⟩
    exact ⟨n, List.mem_append_left _ hn, e⟩
  have hσ : ∀ n : Node K, (∀ r ∈ n.refs, r < st.next) →
      n.eval sem (total (upd σ st.next v)) = n.eval sem (total σ) := fun n hn =>
    eval_congr sem n fun r hr => by
      simp only [total]; rw [upd_ne _ _ (by have := hn r hr; omega)]
  refine ⟨⟨?_, ?_, ?_, ?_, ?_, ?_, ?_, ?_, ?_, ?_⟩, ⟨by simp, ?_, ?_, hdef', ?_⟩⟩
  · rw [List.map_append, List.nodup_append]
    refine ⟨h.nodup, by simp, ?_⟩
    intro a ha b hb
    obtain ⟨n, hn, rfl⟩ := List.mem_map.1 ha
    have hb' : b = mk.id := by simpa using hb
    have := h.lt n hn
    omega
  · intro n hn
    rcases List.mem_append.1 hn with hn | hn
    · have := h.lt n hn; simp only; omega
    · rw [List.mem_singleton.1 hn, hid]; simp
  · intro n hn r hr
    rcases List.mem_append.1 hn with hn | hn
    · have := h.rlt n hn r hr; simp only; omega
    · have := hlt r (by rwa [List.mem_singleton.1 hn] at hr); simp only; omega
  · intro n hn r hr hd
    rcases List.mem_append.1 hn with hn | hn
    · have h1 := h.rlt n hn r hr
      have h2 := h.lt n hn
      rw [upd_ne _ _ (by omega), upd_ne _ _ (by omega)]
      exact h.rank n hn r hr (hdef r h1 hd)
    · rw [List.mem_singleton.1 hn] at hr ⊢
      have h1 := hlt r hr
      rw [hid, upd_eq, upd_ne _ _ (by omega)]
      exact hrank r hr (hdef r h1 hd)
  · intro n hn r hr hw
    rcases List.mem_append.1 hn with hn | hn
    · have h1 := h.rlt n hn r hr
      have h2 := h.lt n hn
      rw [upd_ne _ _ (by omega), upd_ne _ _ (by omega)]
      exact h.rankW n hn r hr hw
    · rw [List.mem_singleton.1 hn] at hr ⊢
      have h1 := hlt r hr
      rw [hid, upd_eq, upd_ne _ _ (by omega)]
      exact hrankW r hr hw
  · intro n hn
    rcases List.mem_append.1 hn with hn | hn
    · have h2 := h.lt n hn
      rw [hσ n (h.rlt n hn), upd_ne _ _ (by omega)]
      exact h.sat n hn
    · rw [List.mem_singleton.1 hn, hσ mk hlt, hid, upd_eq]
      exact hsat
  · intro n hn r hr
    rcases List.mem_append.1 hn with hn | hn
    · exact (h.known n hn r hr).imp (hdef' r) id
    · rw [List.mem_singleton.1 hn] at hr
      exact (hknown r hr).imp (hdef' r) id
  · intro n hn hw
    rcases List.mem_append.1 hn with hn | hn
    · exact h.isOp n hn hw
    · rw [List.mem_singleton.1 hn, hid] at hw
      have := h.wlt _ hw
      omega
  · intro i hw; have := h.wlt i hw; simp only; omega
  · intro i hw; have := h.envlt i hw; simp only; omega
  · intro i hi; exact upd_ne _ _ (by omega)
  · intro i hi; exact upd_ne _ _ (by omega)
  · intro i hi hu n hn
    rcases List.mem_append.1 hn with hn | hn
    · exact hu n hn
    · rw [List.mem_singleton.1 hn]
      intro hr
      obtain ⟨m, hm, hmr⟩ := hused i hr hi
      exact hu m hm hmr

/-- All uses of a candidate replaced by a new value of the next rank. -/
theorem Inv.rename (h : Inv sem env W st σ R) {old new : Nat} (hw : W old) (hnw : ¬ W new)
    (hnew : Defined st.nodes new) (hσ : σ new = σ old) (hR : R new = R old + 1) :
    Inv sem env W ⟨st.nodes.map (Node.rename old new), st.next⟩ σ R ∧
      Ext W st ⟨st.nodes.map (Node.rename old new), st.next⟩ σ σ R R ∧
      ∀ n ∈ st.nodes.map (Node.rename old new), old ∉ n.refs := by
  have hne : new ≠ old := fun e => hnw (e ▸ hw)
  have hids : (st.nodes.map (Node.rename old new)).map Node.id = st.nodes.map Node.id := by
    rw [List.map_map]
    exact List.map_congr_left fun n _ => rename_id old new n
  have hdef : ∀ r, Defined (st.nodes.map (Node.rename old new)) r ↔ Defined st.nodes r := by
    intro r
    constructor
    · rintro ⟨n, hn, rfl⟩
      obtain ⟨m, hm, rfl⟩ := List.mem_map.1 hn
      exact ⟨m, hm, (rename_id _ _ _).symm⟩
    · rintro ⟨n, hn, rfl⟩
      exact ⟨_, List.mem_map.2 ⟨n, hn, rfl⟩, rename_id _ _ _⟩
  have hnewlt : new < st.next := by
    obtain ⟨n, hn, rfl⟩ := hnew
    exact h.lt n hn
  have hrefs : ∀ m : Node K, ∀ r ∈ (m.rename old new).refs,
      (r = new ∧ old ∈ m.refs) ∨ (r ≠ old ∧ r ∈ m.refs) := by
    intro m r hr
    rcases mem_rename_refs hr with h1 | h1 | ⟨h1, h2, h3⟩
    · exact Or.inl h1
    · exact Or.inr h1
    · exact absurd (h1.symm.trans h2) hne
  refine ⟨⟨?_, ?_, ?_, ?_, ?_, ?_, ?_, ?_, h.wlt, h.envlt⟩, ⟨le_refl _, fun _ _ => rfl,
    fun _ _ => rfl, fun i hi => (hdef i).2 hi, ?_⟩, ?_⟩
  · rw [hids]; exact h.nodup
  · intro n hn
    obtain ⟨m, hm, rfl⟩ := List.mem_map.1 hn
    rw [rename_id]
    exact h.lt m hm
  · intro n hn r hr
    obtain ⟨m, hm, rfl⟩ := List.mem_map.1 hn
    rcases hrefs m r hr with ⟨rfl, h1⟩ | ⟨-, h1⟩
    · exact hnewlt
    · exact h.rlt m hm r h1
  · intro n hn r hr hd
    obtain ⟨m, hm, rfl⟩ := List.mem_map.1 hn
    rw [rename_id]
    rcases hrefs m r hr with ⟨rfl, h1⟩ | ⟨-, h1⟩
    · rw [hR]; exact h.rankW m hm old h1 hw
    · exact h.rank m hm r h1 ((hdef r).1 hd)
  · intro n hn r hr hwr
    obtain ⟨m, hm, rfl⟩ := List.mem_map.1 hn
    rw [rename_id]
    rcases hrefs m r hr with ⟨rfl, h1⟩ | ⟨-, h1⟩
    · exact absurd hwr hnw
    · exact h.rankW m hm r h1 hwr
  · intro n hn
    obtain ⟨m, hm, rfl⟩ := List.mem_map.1 hn
    rw [rename_id, eval_rename sem old new (by simp [total, hσ])]
    exact h.sat m hm
  · intro n hn r hr
    obtain ⟨m, hm, rfl⟩ := List.mem_map.1 hn
    rcases hrefs m r hr with ⟨rfl, h1⟩ | ⟨-, h1⟩
    · exact Or.inl ((hdef _).2 hnew)
    · exact (h.known m hm r h1).imp (hdef r).2 id
  · intro n hn hwn
    obtain ⟨m, hm, rfl⟩ := List.mem_map.1 hn
    rw [rename_id] at hwn
    obtain ⟨i, k, args, rfl⟩ := h.isOp m hm hwn
    exact ⟨i, k, args.map fun r => if r = old then new else r, rfl⟩
  · intro i hi hu n hn hr
    obtain ⟨m, hm, rfl⟩ := List.mem_map.1 hn
    rcases hrefs m i hr with ⟨rfl, h1⟩ | ⟨-, h1⟩
    · exact hnw hi
    · exact hu m hm h1
  · intro n hn hr
    obtain ⟨m, hm, rfl⟩ := List.mem_map.1 hn
    rcases hrefs m old hr with ⟨e, -⟩ | ⟨e, -⟩
    · exact hne e.symm
    · exact e rfl

/-- One extraction. -/
theorem replaceOp_ok (h : Inv sem env W st σ R) {pid o k : Nat} (hpid : Defined st.nodes pid)
    (hpw : ¬ W pid) (hw : W o) (hR : R pid = R o) (hσ : (σ pid).get k = some (σ o)) :
    ∃ σ' R', Inv sem env W (replaceOp pid st (o, k)) σ' R' ∧
      Ext W st (replaceOp pid st (o, k)) σ σ' R R' ∧
      ∀ n ∈ (replaceOp pid st (o, k)).nodes, o ∉ n.refs := by
  have hplt : pid < st.next := by
    obtain ⟨n, hn, rfl⟩ := hpid
    exact h.lt n hn
  have holt : o < st.next := h.wlt o hw
  obtain ⟨h1, e1⟩ := h.add (Node.extract st.next pid k) (σ o) (R o + 1) rfl
    (by simp [Node.refs, hplt]) (by simp [Node.refs, hR])
    (by
      intro r hr hwr
      simp only [Node.refs, List.mem_singleton] at hr
      exact absurd (hr ▸ hwr) hpw)
    (by simp [Node.eval, total, hσ])
    (by
      intro r hr
      simp only [Node.refs, List.mem_singleton] at hr
      exact Or.inl (hr ▸ hpid))
    (by
      intro r hr hwr
      simp only [Node.refs, List.mem_singleton] at hr
      exact absurd (hr ▸ hwr) hpw)
  have hnw : ¬ W st.next := fun hw' => by have := h.wlt _ hw'; omega
  obtain ⟨h2, e2, u2⟩ := h1.rename (old := o) (new := st.next) hw hnw
    ⟨Node.extract st.next pid k, by simp, rfl⟩
    (by rw [upd_eq, upd_ne _ _ (by omega)]) (by rw [upd_eq, upd_ne _ _ (by omega)])
  exact ⟨_, _, h2, e1.trans e2, u2⟩

/-- The extractions of a bucket. -/
theorem replaceAll_ok {pid : Nat} (hpw : ¬ W pid) : ∀ (l : List (Nat × Nat)) {st : State K}
    {σ : Nat → Val α} {R : Nat → Nat}, Inv sem env W st σ R → Defined st.nodes pid →
    (∀ ol ∈ l, W ol.1 ∧ R pid = R ol.1 ∧ (σ pid).get ol.2 = some (σ ol.1)) →
    ∃ σ' R', Inv sem env W (l.foldl (replaceOp pid) st) σ' R' ∧
      Ext W st (l.foldl (replaceOp pid) st) σ σ' R R' ∧
      ∀ ol ∈ l, ∀ n ∈ (l.foldl (replaceOp pid) st).nodes, ol.1 ∉ n.refs
  | [], st, σ, R, h, _, _ => ⟨σ, R, h, Ext.refl W st σ R, by simp⟩
  | ol :: l, st, σ, R, h, hpid, hl => by
    obtain ⟨hw, hR, hσ⟩ := hl ol List.mem_cons_self
    obtain ⟨σ1, R1, h1, e1, u1⟩ := replaceOp_ok h (o := ol.1) (k := ol.2) hpid hpw hw hR hσ
    have hplt : pid < st.next := by
      obtain ⟨n, hn, rfl⟩ := hpid
      exact h.lt n hn
    obtain ⟨σ2, R2, h2, e2, u2⟩ := replaceAll_ok hpw l h1 (e1.keep _ hpid) (fun ol' hol' => by
      obtain ⟨a, b, c⟩ := hl ol' (List.mem_cons_of_mem _ hol')
      have hlt := h.wlt _ a
      exact ⟨a, by rw [e1.rank _ hplt, e1.rank _ hlt, b], by rw [e1.val _ hplt, e1.val _ hlt, c]⟩)
    refine ⟨σ2, R2, h2, e1.trans e2, ?_⟩
    intro ol' hol'
    rcases List.mem_cons.1 hol' with rfl | hol'
    · exact e2.unref _ hw u1
    · exact u2 ol' hol'

/-- A bucket of candidates of one rank. -/
theorem rewriteBucket_ok (h : Inv sem env W st σ R) (bucket : List Nat) (ρ : Nat)
    (hb : ∀ o ∈ bucket, Defined st.nodes o ∧ W o ∧ R o = ρ) :
    ∃ st' σ' R', rewriteBucket st bucket = some st' ∧ Inv sem env W st' σ' R' ∧
      Ext W st st' σ σ' R R' ∧ ∀ o ∈ bucket, ∀ n ∈ st'.nodes, o ∉ n.refs := by
  have hlane : ∀ o ∈ bucket, ∃ k args, laneOf st.nodes o = some (k, args) ∧
      Node.op o k args [] ∈ st.nodes := fun o ho => laneOf_ok h (hb o ho).1 (hb o ho).2.1
  obtain ⟨lanes, hlanes⟩ : ∃ lanes : List (K × List Nat), bucket.map (laneOf st.nodes) = lanes.map some := by
    clear hb
    induction bucket with
    | nil => exact ⟨[], rfl⟩
    | cons o l ih =>
      obtain ⟨k, args, e, -⟩ := hlane o List.mem_cons_self
      obtain ⟨lanes, hl⟩ := ih fun o ho => hlane o (List.mem_cons_of_mem _ ho)
      exact ⟨(k, args) :: lanes, by simp [e, hl]⟩
  have hlen : lanes.length = bucket.length := by simpa using (congrArg List.length hlanes).symm
  have hget : ∀ i (h1 : i < bucket.length) (h2 : i < lanes.length),
      Node.op bucket[i] lanes[i].1 lanes[i].2 [] ∈ st.nodes := by
    intro i h1 h2
    obtain ⟨k, args, e, hm⟩ := hlane bucket[i] (List.getElem_mem h1)
    have h3 := List.getElem_of_eq hlanes (by simpa using h1 : i < (bucket.map (laneOf st.nodes)).length)
    simp only [List.getElem_map] at h3
    rw [e, Option.some.injEq] at h3
    rw [← h3]
    exact hm
  have hmem : ∀ r ∈ (Node.packed st.next lanes).refs, ∃ o ∈ bucket, ∃ k args,
      Node.op o k args [] ∈ st.nodes ∧ r ∈ args := by
    intro r hr
    obtain ⟨l, hl, hr⟩ := List.mem_flatMap.1 hr
    obtain ⟨i, hi, rfl⟩ := List.getElem_of_mem hl
    exact ⟨bucket[i], List.getElem_mem _, _, _, hget i (by omega) hi, hr⟩
  obtain ⟨h1, e1⟩ := h.add (Node.packed st.next lanes) (.tensor (bucket.map σ)) ρ rfl
    (fun r hr => by
      obtain ⟨o, ho, k, args, hm, hr⟩ := hmem r hr
      exact h.rlt _ hm r (by simp [Node.refs, hr]))
    (fun r hr hd => by
      obtain ⟨o, ho, k, args, hm, hr⟩ := hmem r hr
      have := h.rank _ hm r (by simp [Node.refs, hr]) hd
      rwa [show (Node.op o k args []).id = o from rfl, (hb o ho).2.2] at this)
    (fun r hr hd => by
      obtain ⟨o, ho, k, args, hm, hr⟩ := hmem r hr
      have := h.rankW _ hm r (by simp [Node.refs, hr]) hd
      rwa [show (Node.op o k args []).id = o from rfl, (hb o ho).2.2] at this)
    (by
      simp only [Node.eval]
      have : sequence (lanes.map fun l => (sequence (l.2.map (total σ))).map fun a => sem l.1 a []) =
          some (bucket.map σ) := by
        rw [sequence_some]
        apply List.ext_getElem
        · simp [hlen]
        · intro i g1 g2
          have g3 : i < bucket.length := by simpa using g2
          have g4 : i < lanes.length := by omega
          have hs := h.sat _ (hget i g3 g4)
          simp only [Node.eval, List.map_nil, sequence, Option.map_some] at hs
          simp only [List.getElem_map]
          rw [Option.bind_eq_some_iff] at hs
          obtain ⟨a, ha, hs⟩ := hs
          rw [ha, Option.map_some]
          exact hs
      rw [this]
      rfl)
    (fun r hr => by
      obtain ⟨o, ho, k, args, hm, hr⟩ := hmem r hr
      exact h.known _ hm r (by simp [Node.refs, hr]))
    (fun r hr _ => by
      obtain ⟨o, ho, k, args, hm, hr⟩ := hmem r hr
      exact ⟨_, hm, by simp [Node.refs, hr]⟩)
  have hnw : ¬ W st.next := fun hw' => by have := h.wlt _ hw'; omega
  obtain ⟨σ2, R2, h2, e2, u2⟩ := replaceAll_ok hnw bucket.zipIdx h1
    ⟨Node.packed st.next lanes, by simp, rfl⟩ (fun ol hol => by
      obtain ⟨-, hi, he⟩ := List.mem_zipIdx hol
      have hi' : ol.2 < bucket.length := by omega
      have he' : ol.1 = bucket[ol.2] := by simpa using he
      have hm : ol.1 ∈ bucket := he' ▸ List.getElem_mem hi'
      obtain ⟨-, hw, hρ⟩ := hb _ hm
      have hlt := h.wlt _ hw
      refine ⟨hw, by rw [upd_eq, upd_ne _ _ (by omega), hρ], ?_⟩
      rw [upd_eq, upd_ne _ _ (by omega)]
      simp only [Val.get, List.getElem?_map, List.getElem?_eq_getElem hi', Option.map_some, he'])
  refine ⟨_, σ2, R2, ?_, h2, e1.trans e2, ?_⟩
  · unfold rewriteBucket
    rw [sequence_some.2 hlanes]
    rfl
  · intro o ho
    obtain ⟨i, hi, rfl⟩ := List.getElem_of_mem ho
    exact u2 (bucket[i], i) (by rw [List.mem_zipIdx_iff_getElem?]; simp [hi])

/-- All buckets of a key. -/
theorem rewriteBuckets_ok (ρ : Nat) : ∀ (bs : List (List Nat)) {st : State K} {σ : Nat → Val α}
    {R : Nat → Nat}, Inv sem env W st σ R →
    (∀ b ∈ bs, ∀ o ∈ b, Defined st.nodes o ∧ W o ∧ R o = ρ) →
    ∃ st' σ' R', bs.foldlM rewriteBucket st = some st' ∧ Inv sem env W st' σ' R' ∧
      Ext W st st' σ σ' R R' ∧ ∀ b ∈ bs, ∀ o ∈ b, ∀ n ∈ st'.nodes, o ∉ n.refs
  | [], st, σ, R, h, _ => ⟨st, σ, R, rfl, h, Ext.refl W st σ R, by simp⟩
  | b :: bs, st, σ, R, h, hb => by
    obtain ⟨s1, σ1, R1, r1, h1, e1, u1⟩ := rewriteBucket_ok h b ρ (hb b List.mem_cons_self)
    obtain ⟨s2, σ2, R2, r2, h2, e2, u2⟩ := rewriteBuckets_ok ρ bs h1 (fun b' hb' o ho => by
      obtain ⟨a, w, r⟩ := hb b' (List.mem_cons_of_mem _ hb') o ho
      exact ⟨e1.keep _ a, w, by rw [e1.rank _ (h.wlt _ w), r]⟩)
    refine ⟨s2, σ2, R2, ?_, h2, e1.trans e2, ?_⟩
    · rw [List.foldlM_cons, r1]; exact r2
    · intro b' hb' o ho
      rcases List.mem_cons.1 hb' with rfl | hb'
      · exact e2.unref o (hb _ List.mem_cons_self o ho).2.1 (u1 o ho)
      · exact u2 b' hb' o ho

/-- Erasing an operation that is not used. -/
theorem eraseOp_ok (h : Inv sem env W st σ R) {o : Nat} (hd : Defined st.nodes o)
    (hu : ∀ n ∈ st.nodes, o ∉ n.refs) :
    ∃ st', eraseOp st o = some st' ∧ st'.next = st.next ∧
      st'.nodes = st.nodes.filter (fun n => n.id != o) ∧ Inv sem env W st' σ R := by
  have hc : (st.nodes.any (fun n => n.id == o) && !st.nodes.any (fun n => n.refs.contains o)) =
      true := by
    obtain ⟨n, hn, e⟩ := hd
    simp only [Bool.and_eq_true, List.any_eq_true, Bool.not_eq_true', beq_iff_eq]
    refine ⟨⟨n, hn, e⟩, ?_⟩
    rw [List.any_eq_false]
    intro m hm
    simpa using hu m hm
  refine ⟨⟨st.nodes.filter fun n => n.id != o, st.next⟩, by rw [eraseOp, if_pos hc], rfl, rfl, ?_⟩
  have hsub : ∀ n ∈ st.nodes.filter (fun n => n.id != o), n ∈ st.nodes := fun n hn =>
    (List.mem_filter.1 hn).1
  have hdef : ∀ r, Defined (st.nodes.filter fun n => n.id != o) r → Defined st.nodes r := by
    rintro r ⟨n, hn, e⟩
    exact ⟨n, hsub n hn, e⟩
  refine ⟨?_, fun n hn => h.lt n (hsub n hn), fun n hn => h.rlt n (hsub n hn),
    fun n hn r hr hd => h.rank n (hsub n hn) r hr (hdef r hd), fun n hn => h.rankW n (hsub n hn),
    fun n hn => h.sat n (hsub n hn), ?_, fun n hn => h.isOp n (hsub n hn), h.wlt, h.envlt⟩
  · exact h.nodup.sublist (List.filter_sublist.map _)
  · intro n hn r hr
    have hn' := hsub n hn
    rcases h.known n hn' r hr with ⟨m, hm, e⟩ | hk
    · left
      refine ⟨m, List.mem_filter.2 ⟨hm, ?_⟩, e⟩
      simp only [bne_iff_ne, ne_eq]
      intro e'
      exact hu n hn' (by rw [← e', e]; exact hr)
    · exact Or.inr hk

/-- Erasing all operations of a key. -/
theorem eraseAll_ok : ∀ (l : List Nat) {st : State K}, Inv sem env W st σ R → l.Nodup →
    (∀ o ∈ l, Defined st.nodes o ∧ ∀ n ∈ st.nodes, o ∉ n.refs) →
    ∃ st', l.foldlM eraseOp st = some st' ∧ Inv sem env W st' σ R ∧ st'.next = st.next ∧
      (∀ n ∈ st'.nodes, n ∈ st.nodes) ∧ ∀ i, i ∉ l → Defined st.nodes i → Defined st'.nodes i
  | [], st, h, _, _ => ⟨st, rfl, h, rfl, fun _ hn => hn, fun _ _ hd => hd⟩
  | o :: l, st, h, hn, hl => by
    obtain ⟨hd, hu⟩ := hl o List.mem_cons_self
    obtain ⟨s1, r1, n1, f1, h1⟩ := eraseOp_ok h hd hu
    rw [List.nodup_cons] at hn
    have hkeep : ∀ i, i ≠ o → Defined st.nodes i → Defined s1.nodes i := by
      rintro i hi ⟨n, hn, e⟩
      refine ⟨n, ?_, e⟩
      rw [f1]
      exact List.mem_filter.2 ⟨hn, by simp [e, hi]⟩
    obtain ⟨s2, r2, h2, n2, sub2, k2⟩ := eraseAll_ok l h1 hn.2 (fun o' ho' => by
      obtain ⟨a, b⟩ := hl o' (List.mem_cons_of_mem _ ho')
      refine ⟨hkeep o' (fun e => hn.1 (e ▸ ho')) a, fun n hn => b n ?_⟩
      rw [f1] at hn
      exact (List.mem_filter.1 hn).1)
    refine ⟨s2, ?_, h2, n2.trans n1, ?_, ?_⟩
    · rw [List.foldlM_cons, r1]; exact r2
    · intro n hn
      have := sub2 n hn
      rw [f1] at this
      exact (List.mem_filter.1 this).1
    · intro i hi hdi
      rw [List.mem_cons, not_or] at hi
      exact k2 i hi.2 (hkeep i hi.1 hdi)

/-- What is kept by the rewriting of a key, a level or all levels: values and ranks of the numbers used,
and the definitions but those of the operations listed. -/
structure Step (st st' : State K) (σ σ' : Nat → Val α) (R R' : Nat → Nat) (gone : List Nat) : Prop where
  next : st.next ≤ st'.next
  val : ∀ i < st.next, σ' i = σ i
  rank : ∀ i < st.next, R' i = R i
  keep : ∀ i, i ∉ gone → Defined st.nodes i → Defined st'.nodes i

theorem rewriteKey_ok (h : Inv sem env W st σ R) (kb : Nat × List (List Nat)) (ρ : Nat)
    (hn : kb.2.flatten.Nodup) (hb : ∀ o ∈ kb.2.flatten, Defined st.nodes o ∧ W o ∧ R o = ρ) :
    ∃ st' σ' R', rewriteKey st kb = some st' ∧ Inv sem env W st' σ' R' ∧
      Step st st' σ σ' R R' kb.2.flatten := by
  unfold rewriteKey
  split
  · exact ⟨st, σ, R, rfl, h, le_refl _, fun _ _ => rfl, fun _ _ => rfl, fun _ _ hd => hd⟩
  · have hb' : ∀ b ∈ kb.2, ∀ o ∈ b, Defined st.nodes o ∧ W o ∧ R o = ρ := fun b hb1 o ho =>
      hb o (List.mem_flatten.2 ⟨b, hb1, ho⟩)
    obtain ⟨s1, σ1, R1, r1, h1, e1, u1⟩ := rewriteBuckets_ok ρ kb.2 h hb'
    obtain ⟨s2, r2, h2, n2, -, k2⟩ := eraseAll_ok kb.2.flatten h1 hn (fun o ho => by
      obtain ⟨b, hb1, ho1⟩ := List.mem_flatten.1 ho
      exact ⟨e1.keep _ (hb' b hb1 o ho1).1, u1 b hb1 o ho1⟩)
    refine ⟨s2, σ1, R1, ?_, h2, by rw [n2]; exact e1.next, e1.val, e1.rank, fun i hi hd =>
      k2 i hi (e1.keep i hd)⟩
    rw [r1]; exact r2

theorem rewriteKeys_ok (ρ : Nat) : ∀ (m : Buckets) {st : State K} {σ : Nat → Val α} {R : Nat → Nat},
    Inv sem env W st σ R → (m.flatMap fun kb => kb.2.flatten).Nodup →
    (∀ o ∈ m.flatMap (fun kb => kb.2.flatten), Defined st.nodes o ∧ W o ∧ R o = ρ) →
    ∃ st' σ' R', m.foldlM rewriteKey st = some st' ∧ Inv sem env W st' σ' R' ∧
      Step st st' σ σ' R R' (m.flatMap fun kb => kb.2.flatten)
  | [], st, σ, R, h, _, _ =>
      ⟨st, σ, R, rfl, h, le_refl _, fun _ _ => rfl, fun _ _ => rfl, fun _ _ hd => hd⟩
  | kb :: m, st, σ, R, h, hn, hb => by
    rw [List.flatMap_cons, List.nodup_append] at hn
    obtain ⟨hn1, hn2, hdis⟩ := hn
    have hb1 : ∀ o ∈ kb.2.flatten, Defined st.nodes o ∧ W o ∧ R o = ρ := fun o ho =>
      hb o (by rw [List.flatMap_cons]; exact List.mem_append_left _ ho)
    obtain ⟨s1, σ1, R1, r1, h1, t1⟩ := rewriteKey_ok h kb ρ hn1 hb1
    obtain ⟨s2, σ2, R2, r2, h2, t2⟩ := rewriteKeys_ok ρ m h1 hn2 (fun o ho => by
      obtain ⟨a, w, r⟩ := hb o (by rw [List.flatMap_cons]; exact List.mem_append_right _ ho)
      exact ⟨t1.keep o (fun hk => hdis o hk o ho rfl) a, w, by rw [t1.rank _ (h.wlt _ w), r]⟩)
    refine ⟨s2, σ2, R2, ?_, h2, le_trans t1.next t2.next,
      fun i hi => (t2.val i (lt_of_lt_of_le hi t1.next)).trans (t1.val i hi),
      fun i hi => (t2.rank i (lt_of_lt_of_le hi t1.next)).trans (t1.rank i hi), ?_⟩
    · rw [List.foldlM_cons, r1]; exact r2
    · intro i hi hd
      rw [List.flatMap_cons, List.mem_append, not_or] at hi
      exact t2.keep i hi.2 (t1.keep i hi.1 hd)

end

end Heir.Vectorize
