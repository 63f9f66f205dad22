import Verif.Preproc.Spec
import Mathlib.Data.List.Nodup
import Mathlib.Data.List.Dedup
import Mathlib.Data.List.Forall2
import Mathlib.Tactic.Ring
import Mathlib.Tactic.Linarith

namespace Heir.Preproc

variable {V K : Type}

/-! ## Binding names -/

theorem setAll_notMem (e : Nat → V) (vs : List Nat) (xs : List V) {v : Nat} (h : v ∉ vs) :
    setAll e vs xs v = e v := by
  induction vs generalizing e xs with
  | nil => simp [setAll]
  | cons w vs ih =>
    cases xs with
    | nil => simp [setAll]
    | cons x xs =>
      simp only [List.mem_cons, not_or] at h
      simp [setAll, ih _ _ h.2, h.1]

theorem map_setAll (e : Nat → V) (vs ws : List Nat) (xs : List V) (h : ∀ w ∈ ws, w ∉ vs) :
    ws.map (setAll e vs xs) = ws.map e :=
  List.map_congr_left fun w hw => setAll_notMem e vs xs (h w hw)

/-- Values that agree on `A`. -/
def Agree (A : Nat → Prop) (e e' : Nat → V) : Prop := ∀ v, A v → e v = e' v

theorem Agree.set {A : Nat → Prop} {e e' : Nat → V} (h : Agree A e e') (vs : List Nat) (xs xs' : List V)
    (hx : (∃ v ∈ vs, A v) → xs = xs') : Agree A (setAll e vs xs) (setAll e' vs xs') := by
  by_cases hv : ∃ v ∈ vs, A v
  · rw [hx hv]
    clear hx hv xs
    induction vs generalizing e e' xs' with
    | nil => simpa [setAll]
    | cons w vs ih =>
      cases xs' with
      | nil => simpa [setAll]
      | cons x xs =>
        simp only [setAll]
        refine ih (fun v hv => ?_) _
        by_cases hw : v = w <;> simp [hw, h v hv]
  · intro v hA
    have : v ∉ vs := fun hm => hv ⟨v, hm, hA⟩
    rw [setAll_notMem _ _ _ this, setAll_notMem _ _ _ this, h v hA]

theorem Agree.setPairs {A : Nat → Prop} {e e' : Nat → V} (h : Agree A e e') {g g' : Nat → V} (hg : Agree A g g')
    {vs ws : List Nat} (hp : List.Forall₂ (fun a b => A a → A b) vs ws) :
    Agree A (setAll e vs (ws.map g)) (setAll e' vs (ws.map g')) := by
  induction hp generalizing e e' with
  | nil => simpa [setAll]
  | @cons a b vs ws hab _ ih =>
    simp only [setAll, List.map_cons]
    refine ih (fun v hv => ?_)
    by_cases hw : v = a
    · simp [hw, hg b (hab (hw ▸ hv))]
    · simp [hw, h v hv]

theorem Agree.setDead {A : Nat → Prop} {e e' : Nat → V} (h : Agree A e e') (vs : List Nat) (xs : List V)
    (hv : ∀ v ∈ vs, ¬ A v) : Agree A e (setAll e' vs xs) := by
  intro v hA
  have : v ∉ vs := fun hm => hv v hm hA
  rw [setAll_notMem _ _ _ this, h v hA]

/-! ## What code leaves alone -/

theorem foldl_inv {α β : Type*} (P : β → Prop) (f : β → α → β) (l : List α) (b : β) (h0 : P b)
    (hs : ∀ b a, a ∈ l → P b → P (f b a)) : P (l.foldl f b) := by
  induction l generalizing b with
  | nil => exact h0
  | cons a l ih =>
    exact ih _ (hs b a (by simp) h0) fun b a' ha => hs b a' (by simp [ha])

theorem eval_frame (I : Interp V) {v : Nat} : ∀ (c : Code) (e : Nat → V), v ∉ defs c → eval I c e v = e v := by
  intro c
  induction c with
  | done => intro e _; rfl
  | op id res f args rest ih =>
    intro e h; simp only [defs, List.mem_append, not_or] at h
    simp [eval, ih _ h.2, setAll_notMem _ _ _ h.1]
  | enc id site res f ty shape args rest ih =>
    intro e h; simp only [defs, List.mem_cons, not_or] at h
    rw [eval, ih _ h.2, setAll_notMem]; simpa using h.1
  | ite id res c t ty el ey rest iht ihe ih =>
    intro e h; simp only [defs, List.mem_append, not_or] at h
    rw [eval, ih _ h.2]
    split
    · rw [setAll_notMem _ _ _ h.1.2, iht _ h.1.1.1]
    · rw [setAll_notMem _ _ _ h.1.2, ihe _ h.1.1.2]
  | loop id res iv l inits iters body ys rest ihb ih =>
    intro e h; simp only [defs, List.mem_append, List.mem_cons, not_or] at h
    obtain ⟨⟨⟨⟨h1, h2⟩, h3⟩, h4⟩, h5⟩ := h
    rw [eval, ih _ h5, setAll_notMem _ _ _ h4]
    refine foldl_inv (fun e' : Nat → V => e' v = e v) _ _ _ (setAll_notMem _ _ _ h2) fun b k _ hb => ?_
    rw [setAll_notMem _ _ _ h2, ihb _ h3, setAll_notMem _ _ _ (by simpa using h1), hb]
  | store site ty v' one idx rest ih => intro e h; exact ih e h
  | load site ty res one idx rest ih =>
    intro e h; simp only [defs, List.mem_cons, not_or] at h; exact ih e h.2

@[simp] theorem State.set_env (s : State V K) (vs : List Nat) (xs : List V) :
    (s.set vs xs).env = setAll s.env vs xs := rfl

theorem write_env [DecidableEq K] (s : State V K) (k : Option K) (x : V) : (s.write k x).env = s.env := by
  cases k <;> rfl

theorem read_env_ne (s : State V K) (k : Option K) (g : V → V) (res v : Nat) (h : v ≠ res) :
    (s.read k g res).env v = s.env v := by
  unfold State.read
  split
  · exact setAll_notMem _ _ _ (by simpa using h)
  · rfl

theorem run_frame [DecidableEq K] (I : Interp V) (key : Ref → Option K) {v : Nat} :
    ∀ (c : Code) (ls : List Loop) (s : State V K), v ∉ defs c → (run I key ls c s).env v = s.env v := by
  intro c
  induction c with
  | done => intro ls s _; rfl
  | op id res f args rest ih =>
    intro ls s h; simp only [defs, List.mem_append, not_or] at h
    simp [run, ih _ _ h.2, State.set_env, setAll_notMem _ _ _ h.1]
  | enc id site res f ty shape args rest ih =>
    intro ls s h; simp only [defs, List.mem_cons, not_or] at h
    rw [run, ih _ _ h.2, State.set_env, setAll_notMem]; simpa using h.1
  | ite id res c t ty el ey rest iht ihe ih =>
    intro ls s h; simp only [defs, List.mem_append, not_or] at h
    rw [run, ih _ _ h.2]
    split
    · rw [State.set_env, setAll_notMem _ _ _ h.1.2, iht _ _ h.1.1.1]
    · rw [State.set_env, setAll_notMem _ _ _ h.1.2, ihe _ _ h.1.1.2]
  | loop id res iv l inits iters body ys rest ihb ih =>
    intro ls s h; simp only [defs, List.mem_append, List.mem_cons, not_or] at h
    obtain ⟨⟨⟨⟨h1, h2⟩, h3⟩, h4⟩, h5⟩ := h
    rw [run, ih _ _ h5, State.set_env, setAll_notMem _ _ _ h4]
    refine foldl_inv (fun s' : State V K => s'.env v = s.env v) _ _ _ (setAll_notMem _ _ _ h2) fun b k _ hb => ?_
    rw [State.set_env, setAll_notMem _ _ _ h2, ihb _ _ h3, State.set_env, setAll_notMem _ _ _ (by simpa using h1), hb]
  | store site ty v' one idx rest ih =>
    intro ls s h; rw [run, ih _ _ h, write_env]
  | load site ty res one idx rest ih =>
    intro ls s h; simp only [defs, List.mem_cons, not_or] at h
    rw [run, ih _ _ h.2, read_env_ne _ _ _ _ _ h.1]

theorem defs_slice (S : List Nat) : ∀ (c : Code) (ivs : List Nat), ∀ v ∈ defs (slice S ivs c), v ∈ defs c := by
  intro c
  induction c with
  | done => intro ivs v h; simpa [slice] using h
  | op id res f args rest ih =>
    intro ivs v h; simp only [slice] at h; split at h <;> simp only [defs, List.mem_append] at h ⊢
    · exact h.imp_right (ih _ _)
    · exact .inr (ih _ _ h)
  | enc id site res f ty shape args rest ih =>
    intro ivs v h; simp only [slice] at h; split at h <;> simp only [defs, List.mem_cons] at h ⊢
    · exact h.imp_right (ih _ _)
    · exact .inr (ih _ _ h)
  | ite id res c t ty el ey rest iht ihe ih =>
    intro ivs v h; simp only [slice] at h; split at h <;> simp only [defs, List.mem_append] at h ⊢
    · exact Or.imp (Or.imp_left (Or.imp (iht _ _) (ihe _ _))) (ih _ _) h
    · exact .inr (ih _ _ h)
  | loop id res iv l inits iters body ys rest ihb ih =>
    intro ivs v h; simp only [slice] at h; split at h <;> simp only [defs, List.mem_append, List.mem_cons] at h ⊢
    · exact Or.imp (Or.imp_left (Or.imp_right (ihb _ _))) (ih _ _) h
    · exact .inr (ih _ _ h)
  | store site ty v' one idx rest ih => intro ivs v h; exact ih _ _ h
  | load site ty res one idx rest ih =>
    intro ivs v h; simp only [slice, defs, List.mem_cons] at h ⊢; exact h.imp_right (ih _ _)

theorem defs_loads : ∀ (c : Code) (ivs : List Nat), defs (loads ivs c) = defs c := by
  intro c
  induction c <;> intro ivs <;> simp_all [loads, defs]

/-! ## The encoded values of an execution -/

/-- Outputs of the iterations of a loop. -/
def collect {α β : Type} (next : Int → α → α) (out : Int → α → List β) : List Int → α → List β
  | [], _ => []
  | k :: ks, a => out k a ++ collect next out ks (next k a)

/-- What the encoders store, with the place; `p` are the values of the
induction variables around the code. -/
def trace (I : Interp V) : List Loop → List Int → Code → (Nat → V) → List (Ref × V)
  | _, _, .done, _ => []
  | ls, p, .op _ res f args rest, e => trace I ls p rest (setAll e res (I.fn f (args.map e)))
  | ls, p, .enc _ site res f ty shape args rest, e =>
    (⟨site, ty, ls, p⟩, if isOne shape then I.unpack (I.enc f (isOne shape) (args.map e))
        else I.enc f (isOne shape) (args.map e)) ::
      trace I ls p rest (setAll e [res] [I.enc f (isOne shape) (args.map e)])
  | ls, p, .ite _ res c t ty el ey rest, e =>
    (if I.truth (e c) then trace I ls p t e else trace I ls p el e) ++
    trace I ls p rest (if I.truth (e c) then setAll (eval I t e) res (ty.map (eval I t e))
      else setAll (eval I el e) res (ey.map (eval I el e)))
  | ls, p, .loop _ res iv l inits iters body ys rest, e =>
    let e1 := l.ivals.foldl (fun e k =>
      setAll (eval I body (setAll e [iv] [I.ofInt k])) iters
        (ys.map (eval I body (setAll e [iv] [I.ofInt k])))) (setAll e iters (inits.map e))
    collect (fun k e => setAll (eval I body (setAll e [iv] [I.ofInt k])) iters
        (ys.map (eval I body (setAll e [iv] [I.ofInt k]))))
      (fun k e => trace I (ls ++ [l]) (p ++ [k]) body (setAll e [iv] [I.ofInt k]))
      l.ivals (setAll e iters (inits.map e)) ++
    trace I ls p rest (setAll e1 res (iters.map e1))
  | ls, p, .store _ _ _ _ _ rest, e => trace I ls p rest e
  | ls, p, .load _ _ _ _ _ rest, e => trace I ls p rest e

/-- Store the encoded values. -/
def writes [DecidableEq K] (key : Ref → Option K) (t : List (Ref × V)) (s : State V K) : State V K :=
  t.foldl (fun s x => s.write (key x.1) x.2) s

theorem writes_append [DecidableEq K] (key : Ref → Option K) (t u : List (Ref × V)) (s : State V K) :
    writes key (t ++ u) s = writes key u (writes key t s) := List.foldl_append

/-- Memory of states is the same. -/
def SameMem (s s' : State V K) : Prop := s.store = s'.store ∧ s.ok = s'.ok

theorem SameMem.write [DecidableEq K] {s s' : State V K} (h : SameMem s s') (k : Option K) (x : V) :
    SameMem (s.write k x) (s'.write k x) := by
  cases k <;> simp [State.write, SameMem, h.1, h.2]

theorem SameMem.writes [DecidableEq K] (key : Ref → Option K) (t : List (Ref × V)) :
    ∀ {s s' : State V K}, SameMem s s' → SameMem (writes key t s) (writes key t s') := by
  induction t with
  | nil => intro s s' h; exact h
  | cons x t ih => intro s s' h; exact ih (h.write _ _)

theorem SameMem.trans {s s' s'' : State V K} (h : SameMem s s') (h' : SameMem s' s'') : SameMem s s'' :=
  ⟨h.1.trans h'.1, h.2.trans h'.2⟩

/-! ## Code that is not cloned -/

theorem trace_nil (I : Interp V) : ∀ (c : Code) (p' : Option Nat) (ls : List Loop) (p : List Int) (e : Nat → V),
    (∀ r ∈ rows p' c, r.isEnc = false) → trace I ls p c e = [] := by
  intro c
  induction c with
  | done => intros; rfl
  | op id res f args rest ih =>
    intro p' ls p e h; simp only [rows, List.forall_mem_cons] at h
    simp [trace, ih _ _ _ _ h.2]
  | enc id site res f ty shape args rest ih =>
    intro p' ls p e h; simp only [rows, List.forall_mem_cons] at h; simp at h
  | ite id res c t ty el ey rest iht ihe ih =>
    intro p' ls p e h; simp only [rows, List.forall_mem_cons, List.forall_mem_append] at h
    simp only [trace, ih _ _ _ _ h.2.2, iht _ _ _ _ h.2.1.1, ihe _ _ _ _ h.2.1.2, ite_self, List.append_nil]
  | loop id res iv l inits iters body ys rest ihb ih =>
    intro p' ls p e h; simp only [rows, List.forall_mem_cons, List.forall_mem_append] at h
    simp only [trace, ih _ _ _ _ h.2.2, List.append_nil, ihb _ _ _ _ h.2.1]
    generalize l.ivals = ks
    generalize setAll e iters (inits.map e) = e0
    induction ks generalizing e0 with
    | nil => rfl
    | cons k ks ihk => simp [collect, ihk]
  | store site ty v' one idx rest ih => intro p' ls p e h; exact ih _ _ _ _ h
  | load site ty res one idx rest ih => intro p' ls p e h; exact ih _ _ _ _ h

theorem mem_defs_rows : ∀ (c : Code) (p : Option Nat), Source c → ∀ v ∈ defs c, ∃ r ∈ rows p c, v ∈ r.defs := by
  intro c
  induction c with
  | done => intro p _ v h; simp [defs] at h
  | op id res f args rest ih =>
    intro p hs v h; simp only [defs, List.mem_append] at h; simp only [rows, List.mem_cons, exists_eq_or_imp]
    exact h.imp_right (ih _ hs _)
  | enc id site res f ty shape args rest ih =>
    intro p hs v h; simp only [defs, List.mem_cons] at h; simp only [rows, List.mem_cons, exists_eq_or_imp, List.not_mem_nil, or_false]
    exact h.imp_right (ih _ hs _)
  | ite id res c t ty el ey rest iht ihe ih =>
    intro p hs v h; simp only [defs, List.mem_append] at h
    simp only [rows, List.mem_cons, exists_eq_or_imp, List.mem_append]
    rcases h with ((h | h) | h) | h
    · obtain ⟨r, hr, hv⟩ := iht (some id) hs.1 v h; exact .inr ⟨r, .inl (.inl hr), hv⟩
    · obtain ⟨r, hr, hv⟩ := ihe (some id) hs.2.1 v h; exact .inr ⟨r, .inl (.inr hr), hv⟩
    · exact .inl h
    · obtain ⟨r, hr, hv⟩ := ih p hs.2.2 v h; exact .inr ⟨r, .inr hr, hv⟩
  | loop id res iv l inits iters body ys rest ihb ih =>
    intro p hs v h; simp only [defs, List.mem_append, List.mem_cons] at h
    simp only [rows, List.mem_cons, exists_eq_or_imp, List.mem_append]
    rcases h with ((h | h) | h) | h
    · exact .inl (.inl h)
    · obtain ⟨r, hr, hv⟩ := ihb (some id) hs.1 v h; exact .inr ⟨r, .inl hr, hv⟩
    · exact .inl (.inr h)
    · obtain ⟨r, hr, hv⟩ := ih p hs.2 v h; exact .inr ⟨r, .inr hr, hv⟩
  | store => intro p hs; exact hs.elim
  | load => intro p hs; exact hs.elim

/-- Facts on the cloned operations `S` and the names `A` whose values the
function that encodes computes. -/
structure Ok (ct : Nat → Bool) (S : List Nat) (A : Nat → Prop) (rs : List Row) : Prop where
  uses : ∀ r ∈ rs, r.id ∈ S → ∀ v ∈ r.uses, ct v = false → A v
  own : ∀ r ∈ rs, r.id ∈ S → ∀ v ∈ r.defs, ct v = false → A v
  dead : ∀ r ∈ rs, r.id ∉ S → ∀ v ∈ r.defs, ¬ A v
  enc : ∀ r ∈ rs, r.isEnc = true → r.id ∈ S
  parent : ∀ r ∈ rs, ∀ q, r.parent = some q → r.id ∈ S → q ∈ S

theorem Ok.sub {ct : Nat → Bool} {S : List Nat} {A : Nat → Prop} {rs rs' : List Row} (h : Ok ct S A rs)
    (hs : ∀ r ∈ rs', r ∈ rs) : Ok ct S A rs' :=
  ⟨fun r hr => h.uses r (hs r hr), fun r hr => h.own r (hs r hr), fun r hr => h.dead r (hs r hr), fun r hr => h.enc r (hs r hr),
    fun r hr => h.parent r (hs r hr)⟩

theorem notMem_of_parent {S : List Nat} {A : Nat → Prop} {ct : Nat → Bool} : ∀ (c : Code) (q : Nat),
    Ok ct S A (rows (some q) c) → q ∉ S → ∀ r ∈ rows (some q) c, r.id ∉ S := by
  intro c
  induction c with
  | done => intro q _ _ r hr; simp [rows] at hr
  | op id res f args rest ih =>
    intro q h hq; simp only [rows, List.forall_mem_cons] at h ⊢
    exact ⟨fun hm => hq (h.parent _ (List.mem_cons_self ..) q rfl hm), ih q (h.sub fun r hr => List.mem_cons_of_mem _ hr) hq⟩
  | enc id site res f ty shape args rest ih =>
    intro q h hq; simp only [rows, List.forall_mem_cons] at h ⊢
    exact ⟨fun hm => hq (h.parent _ (List.mem_cons_self ..) q rfl hm), ih q (h.sub fun r hr => List.mem_cons_of_mem _ hr) hq⟩
  | ite id res c t ty el ey rest iht ihe ih =>
    intro q h hq; simp only [rows, List.forall_mem_cons, List.forall_mem_append] at h ⊢
    have hid : id ∉ S := fun hm => hq (h.parent _ (List.mem_cons_self ..) q rfl hm)
    exact ⟨hid, ⟨iht id (h.sub fun r hr => by simp [hr]) hid, ihe id (h.sub fun r hr => by simp [hr]) hid⟩,
      ih q (h.sub fun r hr => by simp [hr]) hq⟩
  | loop id res iv l inits iters body ys rest ihb ih =>
    intro q h hq; simp only [rows, List.forall_mem_cons, List.forall_mem_append] at h ⊢
    have hid : id ∉ S := fun hm => hq (h.parent _ (List.mem_cons_self ..) q rfl hm)
    exact ⟨hid, ihb id (h.sub fun r hr => by simp [hr]) hid, ih q (h.sub fun r hr => by simp [hr]) hq⟩
  | store site ty v' one idx rest ih => intro q h hq; exact ih q h hq
  | load site ty res one idx rest ih => intro q h hq; exact ih q h hq

/-- Code inside an operation that is not cloned. -/
theorem skip_code {S : List Nat} {A : Nat → Prop} {ct : Nat → Bool} (I : Interp V) (c : Code) (q : Nat) (hs : Source c)
    (h : Ok ct S A (rows (some q) c)) (hq : q ∉ S) :
    (∀ ls p e, trace I ls p c e = []) ∧ ∀ v ∈ defs c, ¬ A v := by
  have hn := notMem_of_parent c q h hq
  refine ⟨fun ls p e => trace_nil I c (some q) ls p e fun r hr => ?_, fun v hv => ?_⟩
  · cases he : r.isEnc with
    | false => rfl
    | true => exact absurd (h.enc r hr he) (hn r hr)
  · obtain ⟨r, hr, hv⟩ := mem_defs_rows c (some q) hs v hv
    exact h.dead r hr (hn r hr) v hv

end Heir.Preproc
