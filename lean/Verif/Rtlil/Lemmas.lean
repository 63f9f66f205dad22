import Verif.Rtlil.Spec
import Verif.Lut.Props

/-! # The importer simulates the netlist -/

namespace Heir.Rtlil

/-! ## Runs -/

theorem run_append : ∀ (os os' : List MOp) (env : List (List Bool)),
    run (os ++ os') env = (run os env).bind (run os')
  | [], _, _ => rfl
  | o :: os, os', env => by
    simp only [List.cons_append, run]
    cases evalOp env o with
    | none => rfl
    | some x => exact run_append os os' _

theorem run_length : ∀ {os : List MOp} {env env' : List (List Bool)}, run os env = some env' →
    env'.length = env.length + os.length
  | [], env, env', h => by
    simp only [run, Option.some.injEq] at h
    simp [h]
  | o :: os, env, env', h => by
    simp only [run] at h
    cases he : evalOp env o with
    | none => rw [he] at h; simp at h
    | some x =>
      rw [he] at h
      have := run_length (os := os) h
      simp only [List.length_append, List.length_cons, List.length_nil] at this ⊢
      omega

/-- Environments grow. -/
def Grows (env env' : List (List Bool)) : Prop :=
  ∀ (x : Nat) (y : List Bool), env[x]? = some y → env'[x]? = some y

theorem grows_append (env more : List (List Bool)) : Grows env (env ++ more) := by
  intro x y h
  rw [List.getElem?_append_left (List.getElem?_eq_some_iff.1 h).1]
  exact h

theorem theBits_grows {env env' : List (List Bool)} (h : Grows env env') :
    ∀ {vs : List Nat} {bs : List Bool}, theBits env vs = some bs → theBits env' vs = some bs
  | [], _, hb => hb
  | v :: vs, bs, hb => by
    simp only [theBits] at hb ⊢
    cases hv : env[v]? with
    | none => rw [hv] at hb; simp at hb
    | some x =>
      rw [hv] at hb
      rw [h v x hv]
      cases hr : theBits env vs with
      | none => rw [hr] at hb; cases h1 : theBit x <;> simp [h1] at hb
      | some bs' =>
        rw [hr] at hb
        rw [theBits_grows h hr]
        exact hb

theorem theBits_of {env : List (List Bool)} : ∀ {vs : List Nat} {bs : List Bool},
    vs.length = bs.length → (∀ (i v : Nat) (b : Bool), vs[i]? = some v → bs[i]? = some b → env[v]? = some [b]) →
    theBits env vs = some bs
  | [], [], _, _ => rfl
  | [], _ :: _, h, _ => by simp at h
  | _ :: _, [], h, _ => by simp at h
  | v :: vs, b :: bs, hl, h => by
    have h0 := h 0 v b rfl rfl
    have hr := theBits_of (env := env) (vs := vs) (bs := bs) (by simpa using hl)
      fun i v b h1 h2 => h (i + 1) v b (by simpa using h1) (by simpa using h2)
    simp [theBits, h0, hr, theBit]

/-! ## Signals -/

theorem sig_length (w : Wire) : w.sig.length = w.width := by simp [Wire.sig]

theorem asWire_iff {s : Sig} {w : Wire} (hw : 0 < w.width) : asWire s = some w ↔ s = w.sig := by
  constructor
  · intro h
    unfold asWire at h
    split at h
    · split at h
      · next he =>
        simp only [Option.some.injEq] at h
        subst h
        exact he
      · simp at h
    · simp at h
  · rintro rfl
    unfold asWire
    obtain ⟨n, hn⟩ : ∃ n, w.width = n + 1 := ⟨w.width - 1, by omega⟩
    have : w.sig = .wire w 0 :: (List.range n).map fun i => .wire w (i + 1) := by
      simp [Wire.sig, hn, List.range_succ_eq_map, Function.comp_def]
    rw [this]
    simp only [this, if_true]

theorem asWire_bit {w : Wire} {o : Nat} (ho : o < w.width) :
    asWire [.wire w o] = if w.width = 1 then some w else none := by
  split
  · next h =>
    rw [asWire_iff (by omega)]
    obtain rfl : o = 0 := by omega
    simp [Wire.sig, h]
  · next h =>
    simp only [asWire]
    rw [if_neg]
    intro he
    have := congrArg List.length he
    simp only [List.length_cons, List.length_nil, sig_length] at this
    omega

theorem asWire_sig {s : Sig} {w : Wire} (h : asWire s = some w) : s = w.sig := by
  unfold asWire at h
  split at h
  · split at h
    · next he =>
      simp only [Option.some.injEq] at h
      subst h
      exact he
    · simp at h
  · simp at h

theorem isChunk_range {u : Wire} {o n : Nat} (hn : 0 < n) :
    isChunk ((List.range n).map fun i => Bit.wire u (o + i)) = true := by
  obtain ⟨k, rfl⟩ : ∃ k, n = k + 1 := ⟨n - 1, by omega⟩
  rw [List.range_succ_eq_map, List.map_cons]
  simp only [isChunk, beq_iff_eq, Nat.add_zero, List.length_map, List.length_range]
  rw [List.range_succ_eq_map, List.map_cons, Nat.add_zero]

/-! ## The invariant -/

variable {m : Netlist} {v : Values} {args : List (List Bool)}

structure Inv (m : Netlist) (v : Values) (args : List (List Bool)) (st : St)
    (env : List (List Bool)) : Prop where
  run : run st.ops args = some env
  len : args.length = st.args
  names : ∀ w ∈ m.wires, ∀ x, st.names.lookup w.name = some x → env[x]? = some (w.bits v)
  inputs : ∀ w ∈ m.wires, w.isInput → (st.names.lookup w.name).isSome
  rets : ∀ w ∈ m.wires, w.isOutput → ∃ vs, st.rets.lookup w.name = some vs ∧ vs.length = w.width
  noret : ∀ w ∈ m.wires, ¬ w.isOutput → st.rets.lookup w.name = none

theorem Inv.envLen {st : St} {env : List (List Bool)} (h : Inv m v args st env) :
    env.length = st.args + st.ops.length := by
  rw [run_length h.run, h.len]

/-- A bit that was driven has its value. -/
def Driven (v : Values) (st : St) (env : List (List Bool)) (w : Wire) (o : Nat) : Prop :=
  if w.width = 1 then (st.names.lookup w.name).isSome = true
  else w.isInput ∨
    ∃ vs x, st.rets.lookup w.name = some vs ∧ vs[o]? = some x ∧ env[x]? = some [v w o]

/-- What was driven stays driven. -/
structure Le (m : Netlist) (v : Values) (st : St) (env : List (List Bool)) (st' : St)
    (env' : List (List Bool)) : Prop where
  grows : Grows env env'
  names : ∀ n, (st.names.lookup n).isSome → (st'.names.lookup n).isSome
  driven : ∀ w ∈ m.wires, ∀ o < w.width, Driven v st env w o → Driven v st' env' w o

theorem Le.refl (st : St) (env : List (List Bool)) : Le m v st env st env :=
  ⟨fun _ _ h => h, fun _ h => h, fun _ _ _ _ h => h⟩

theorem Le.trans {st st' st'' : St} {env env' env'' : List (List Bool)}
    (h : Le m v st env st' env') (h' : Le m v st' env' st'' env'') : Le m v st env st'' env'' :=
  ⟨fun x y e => h'.grows x y (h.grows x y e), fun n e => h'.names n (h.names n e),
    fun w hw o ho e => h'.driven w hw o ho (h.driven w hw o ho e)⟩

/-- New operations. -/
theorem emit_ok {st : St} {env : List (List Bool)} (hI : Inv m v args st env) {os : List MOp}
    {more : List (List Bool)} (hr : Rtlil.run os env = some (env ++ more)) :
    Inv m v args { st with ops := st.ops ++ os } (env ++ more) ∧
      Le m v st env { st with ops := st.ops ++ os } (env ++ more) := by
  have hg := grows_append env more
  refine ⟨⟨?_, hI.len, fun w hw x hx => hg _ _ (hI.names w hw x hx), hI.inputs, hI.rets, hI.noret⟩,
    hg, fun _ h => h, fun w _ o _ hd => ?_⟩
  · change Rtlil.run (st.ops ++ os) args = _
    rw [run_append, hI.run]
    exact hr
  · unfold Driven at hd ⊢
    split
    · next h1 => rwa [if_pos h1] at hd
    · next h1 =>
      rw [if_neg h1] at hd
      rcases hd with hd | ⟨vs, x, e1, e2, e3⟩
      · exact .inl hd
      · exact .inr ⟨vs, x, e1, e2, hg _ _ e3⟩

theorem emit_one {st : St} {env : List (List Bool)} (hI : Inv m v args st env) {o : MOp}
    {y : List Bool} (hr : evalOp env o = some y) :
    Inv m v args (st.emit o).2 (env ++ [y]) ∧ Le m v st env (st.emit o).2 (env ++ [y]) ∧
      (env ++ [y])[(st.emit o).1]? = some y := by
  obtain ⟨h1, h2⟩ := emit_ok hI (os := [o]) (more := [y]) (by simp [Rtlil.run, hr])
  refine ⟨h1, h2, ?_⟩
  simp only [St.emit]
  rw [← hI.envLen]
  simp

/-- Bits that can be read have their values. -/
def CanRead (m : Netlist) (v : Values) (st : St) (env : List (List Bool)) : Bit → Prop
  | .const _ => True
  | .wire w o => w ∈ m.wires ∧ o < w.width ∧ (w.isInput ∨ Driven v st env w o)

theorem CanRead.le {st st' : St} {env env' : List (List Bool)} (h : Le m v st env st' env') {b : Bit}
    (hb : CanRead m v st env b) : CanRead m v st' env' b := by
  cases b with
  | const c => trivial
  | wire w o => exact ⟨hb.1, hb.2.1, hb.2.2.imp_right (h.driven w hb.1 o hb.2.1)⟩

theorem not_both {w : Wire} (h : w.isInput) : ¬ w.isOutput := by
  obtain ⟨i, hi⟩ := h
  rintro ⟨j, hj⟩
  rw [hi] at hj
  simp at hj

theorem bits_get {w : Wire} {o : Nat} (ho : o < w.width) : (w.bits v)[o]? = some (v w o) := by
  simp [Wire.bits, ho]

theorem bits_one {w : Wire} {o : Nat} (hw : w.width = 1) (ho : o < w.width) :
    w.bits v = [v w o] := by
  obtain rfl : o = 0 := by omega
  simp [Wire.bits, hw]

theorem getBit_ok {st : St} {env : List (List Bool)} (hI : Inv m v args st env) {b : Bit}
    (hb : CanRead m v st env b) : ∃ x st' env', getBit [b] st = some (x, st') ∧
      Inv m v args st' env' ∧ Le m v st env st' env' ∧ env'[x]? = some [b.value v] := by
  cases b with
  | const c =>
    obtain ⟨h1, h2, h3⟩ := emit_one hI (o := .const c) (y := [c]) rfl
    exact ⟨_, _, _, rfl, h1, h2, h3⟩
  | wire w o =>
    obtain ⟨hw, ho, hd⟩ := hb
    unfold getBit
    rw [asWire_bit ho]
    by_cases h1 : w.width = 1
    · rw [if_pos h1]
      have hs : (st.names.lookup w.name).isSome := by
        rcases hd with hd | hd
        · exact hI.inputs w hw hd
        · unfold Driven at hd
          rwa [if_pos h1] at hd
      obtain ⟨x, hx⟩ := Option.isSome_iff_exists.1 hs
      refine ⟨x, st, env, by simp [hx], hI, .refl _ _, ?_⟩
      rw [hI.names w hw x hx, bits_one h1 ho]
      rfl
    · rw [if_neg h1]
      by_cases hin : w.isInput
      · obtain ⟨x, hx⟩ := Option.isSome_iff_exists.1 (hI.inputs w hw hin)
        have hex : evalOp env (.extract x o) = some [v w o] := by
          simp only [evalOp, hI.names w hw x hx, Option.bind_some]
          rw [if_pos (by simp [Wire.bits]; omega), bits_get ho]
          rfl
        obtain ⟨e1, e2, e3⟩ := emit_one hI hex
        exact ⟨_, _, _, by simp [hI.noret w hw (not_both hin), hx], e1, e2, e3⟩
      · have hd := hd.resolve_left hin
        unfold Driven at hd
        rw [if_neg h1] at hd
        rcases hd with hd | ⟨vs, x, e1, e2, e3⟩
        · exact absurd hd hin
        · exact ⟨x, st, env, by simp [e1, e2], hI, .refl _ _, e3⟩

/-- The wires have different names. -/
def Uniq (m : Netlist) : Prop := ∀ w ∈ m.wires, ∀ w' ∈ m.wires, w.name = w'.name → w = w'

theorem lookup_cons {n k x : Nat} {l : List (Nat × Nat)} :
    ((k, x) :: l).lookup n = if n = k then some x else l.lookup n := by
  simp only [List.lookup]
  by_cases h : n = k
  · simp [h]
  · have : (n == k) = false := by simpa using h
    simp [this, h]

theorem addWire_names {st : St} {w : Wire} {x n : Nat} :
    (st.addWire w x).names.lookup n =
      match st.names.lookup n with
      | some y => some y
      | none => if n = w.name then some x else none := by
  unfold St.addWire
  by_cases hn : n = w.name
  · subst hn
    cases h : st.names.lookup w.name with
    | none => simp [lookup_cons]
    | some y => simp [h]
  · cases h' : st.names.lookup w.name with
    | none =>
      simp only [lookup_cons, if_neg hn]
      cases st.names.lookup n <;> rfl
    | some y =>
      simp only [if_neg hn]
      cases st.names.lookup n <;> rfl

theorem addWire_rest (st : St) (w : Wire) (x : Nat) :
    (st.addWire w x).ops = st.ops ∧ (st.addWire w x).args = st.args ∧
      (st.addWire w x).rets = st.rets := by
  unfold St.addWire
  split <;> exact ⟨rfl, rfl, rfl⟩

theorem addWire_ok (hu : Uniq m) {st : St} {env : List (List Bool)} (hI : Inv m v args st env)
    {w : Wire} (hw : w ∈ m.wires) {x : Nat} (hx : env[x]? = some (w.bits v)) :
    Inv m v args (st.addWire w x) env ∧ Le m v st env (st.addWire w x) env ∧
      ((st.addWire w x).names.lookup w.name).isSome := by
  obtain ⟨e1, e2, e3⟩ := addWire_rest st w x
  have mono : ∀ n, (st.names.lookup n).isSome → ((st.addWire w x).names.lookup n).isSome := by
    intro n hn
    obtain ⟨y, hy⟩ := Option.isSome_iff_exists.1 hn
    rw [addWire_names, hy]
    rfl
  refine ⟨⟨by rw [e1]; exact hI.run, by rw [e2]; exact hI.len, ?_,
    fun u hu hi => mono _ (hI.inputs u hu hi), ?_, ?_⟩, ⟨fun _ _ h => h, mono, ?_⟩, ?_⟩
  · intro u hum y hy
    rw [addWire_names] at hy
    cases h : st.names.lookup u.name with
    | some z =>
      rw [h] at hy
      exact hI.names u hum y (by rw [h]; exact hy)
    | none =>
      rw [h] at hy
      simp only at hy
      split at hy
      · next hn =>
        simp only [Option.some.injEq] at hy
        subst hy
        rw [hu u hum w hw hn]
        exact hx
      · simp at hy
  · rw [e3]; exact hI.rets
  · rw [e3]; exact hI.noret
  · intro u _ o _ hd
    unfold Driven at hd ⊢
    rw [e3]
    split
    · next h1 => rw [if_pos h1] at hd; exact mono _ hd
    · next h1 => rwa [if_neg h1] at hd
  · rw [addWire_names]
    cases st.names.lookup w.name <;> simp

theorem lookup_update (name off x n : Nat) : ∀ l : List (Nat × List Nat),
    (updateBit name off x l).lookup n =
      if n = name then (l.lookup n).map fun vs => vs.set off x else l.lookup n
  | [] => by simp [updateBit]
  | (k, vs) :: l => by
    simp only [updateBit]
    have lc : ∀ (vs : List Nat) (l : List (Nat × List Nat)), ((k, vs) :: l).lookup n =
        if n = k then some vs else l.lookup n := by
      intro vs l
      simp only [List.lookup]
      by_cases h : n = k
      · simp [h]
      · have : (n == k) = false := by simpa using h
        simp [this, h]
    by_cases hk : k = name
    · rw [if_pos hk, lc, lc]
      by_cases hn : n = k
      · simp [hn, hk]
      · rw [if_neg hn, if_neg hn, if_neg (by omega)]
    · rw [if_neg hk, lc, lc, lookup_update name off x n l]
      by_cases hn : n = k
      · rw [if_pos hn, if_pos hn, if_neg (by omega)]
      · rw [if_neg hn, if_neg hn]

theorem addResult_ok (hu : Uniq m) {st : St} {env : List (List Bool)} (hI : Inv m v args st env)
    {w : Wire} {o : Nat} (hb : Bit.Drivable m (.wire w o)) {x : Nat}
    (hx : env[x]? = some [v w o]) : ∃ st', addResultBit [.wire w o] x st = some st' ∧
      Inv m v args st' env ∧ Le m v st env st' env ∧ Driven v st' env w o := by
  obtain ⟨hw, ho, hk⟩ := hb
  unfold addResultBit
  rw [asWire_bit ho]
  by_cases h1 : w.width = 1
  · rw [if_pos h1]
    obtain ⟨e1, e2, e3⟩ := addWire_ok hu hI hw (x := x) (by rw [bits_one h1 ho]; exact hx)
    refine ⟨_, rfl, e1, e2, ?_⟩
    unfold Driven
    rw [if_pos h1]
    exact e3
  · rw [if_neg h1]
    rcases hk with hk | hk | hk
    · exact absurd hk h1
    · obtain ⟨y, hy⟩ := Option.isSome_iff_exists.1 (hI.inputs w hw hk)
      refine ⟨st, by simp [hI.noret w hw (not_both hk), hy], hI, .refl _ _, ?_⟩
      unfold Driven
      rw [if_neg h1]
      exact .inl hk
    · obtain ⟨vs, hvs, hl⟩ := hI.rets w hw hk
      refine ⟨{ st with rets := updateBit w.name o x st.rets }, by simp [hvs, hl, ho], ?_, ?_, ?_⟩
      · refine ⟨hI.run, hI.len, hI.names, hI.inputs, ?_, ?_⟩
        · intro u hum huo
          obtain ⟨us, hus, hul⟩ := hI.rets u hum huo
          simp only [lookup_update, hus]
          split
          · exact ⟨us.set o x, rfl, by simp [hul]⟩
          · exact ⟨us, rfl, hul⟩
        · intro u hum huo
          simp [lookup_update, hI.noret u hum huo]
      · refine ⟨fun _ _ h => h, fun _ h => h, fun u hum p hp hd => ?_⟩
        unfold Driven at hd ⊢
        split
        · next h2 => rwa [if_pos h2] at hd
        · next h2 =>
          rw [if_neg h2] at hd
          rcases hd with hd | ⟨us, y, e1, e2, e3⟩
          · exact .inl hd
          · right
            simp only [lookup_update, e1]
            by_cases hn : u.name = w.name
            · rw [if_pos hn]
              obtain rfl := hu u hum w hw hn
              have hlt : p < us.length := (List.getElem?_eq_some_iff.1 e2).1
              by_cases hop : o = p
              · subst hop
                exact ⟨us.set o x, x, rfl, by simp [hlt], hx⟩
              · exact ⟨us.set o x, y, rfl, by rw [List.getElem?_set_ne hop]; exact e2, e3⟩
            · rw [if_neg hn]
              exact ⟨us, y, rfl, e2, e3⟩
      · unfold Driven
        rw [if_neg h1]
        exact .inr ⟨vs.set o x, x, by simp [lookup_update, hvs], by simp [hl, ho], hx⟩

/-! ## Cells -/

theorem getBits_ok : ∀ {bs : List Bit} {st : St} {env : List (List Bool)},
    Inv m v args st env → (∀ b ∈ bs, CanRead m v st env b) →
    ∃ xs st' env', getBits (bs.map ([·])) st = some (xs, st') ∧ Inv m v args st' env' ∧
      Le m v st env st' env' ∧ theBits env' xs = some (bs.map (Bit.value v)) ∧
      xs.length = bs.length
  | [], st, env, hI, _ => ⟨[], st, env, rfl, hI, .refl _ _, rfl, rfl⟩
  | b :: bs, st, env, hI, hb => by
    obtain ⟨x, st1, env1, h1, h2, h3, h4⟩ := getBit_ok hI (hb b (by simp))
    obtain ⟨xs, st2, env2, g1, g2, g3, g4, g5⟩ := getBits_ok (bs := bs) h2
      (fun b' hb' => (hb b' (by simp [hb'])).le h3)
    refine ⟨x :: xs, st2, env2, ?_, g2, h3.trans g3, ?_, by simp [g5]⟩
    · simp only [List.map_cons, getBits, h1, Option.bind_some, g1, Option.map_some]
    · simp [theBits, g3.grows _ _ h4, g4, theBit]

theorem create_lut {st : St} {env : List (List Bool)} (hI : Inv m v args st env) {k : Nat}
    {ports ins : List Bool} {out : Bool} (hk : k ≤ 5) (hp : ports.length = 2 ^ k)
    (hi : ins.length = k) (ho : ports[Lut.lsbIndex ins]? = some out) {xs : List Nat}
    (hx : theBits env xs = some (Lut.importInputs ins)) :
    ∃ x st' env', createOp (.lut k ports) xs st = some (x, st') ∧ Inv m v args st' env' ∧
      Le m v st env st' env' ∧ env'[x]? = some [out] := by
  obtain ⟨t, h1, h2⟩ := Lut.C99_import_partial hk hp hi
  have hl : (Lut.importInputs ins).length = k := by
    rw [Lut.importInputs_eq, List.length_reverse, hi]
  have he : evalOp env (.table k t xs) = some [out] := by
    simp only [evalOp, hx, Option.bind_some, hl, if_true, h2]
    rw [List.getD_eq_getElem?_getD, ho]
    rfl
  obtain ⟨e1, e2, e3⟩ := emit_one hI he
  exact ⟨_, _, _, by simp [createOp, h1], e1, e2, e3⟩

theorem create_gate {st : St} {env : List (List Bool)} (hI : Inv m v args st env) {g : Gate}
    {ins : List Bool} {out : Bool} (ho : Kind.out (.gate g) ins = some out) {xs : List Nat}
    (hx : theBits env xs = some ins) (hl : xs.length = ins.length) :
    ∃ x st' env', createOp (.gate g) xs st = some (x, st') ∧ Inv m v args st' env' ∧
      Le m v st env st' env' ∧ env'[x]? = some [out] := by
  have hne : ∃ a as, ins = a :: as := by
    cases ins with
    | nil => cases g <;> simp [Kind.out] at ho
    | cons a as => exact ⟨a, as, rfl⟩
  obtain ⟨a, as, rfl⟩ := hne
  obtain ⟨i, is, rfl⟩ : ∃ i is, xs = i :: is := by
    cases xs with
    | nil => simp at hl
    | cons i is => exact ⟨i, is, rfl⟩
  have hi : (env[i]?).bind theBit = some a := by
    simp only [theBits] at hx
    split at hx
    · next b bs h1 h2 =>
      simp only [Option.some.injEq, List.cons.injEq] at hx
      rw [h1, hx.1]
    · simp at hx
  obtain ⟨z, hz, hzb⟩ : ∃ z, env[i]? = some z ∧ theBit z = some a := by
    cases h : env[i]? with
    | none => rw [h] at hi; simp at hi
    | some z => rw [h] at hi; exact ⟨z, rfl, hi⟩
  have hxg : ∀ more, theBits (env ++ more) (i :: is) = some (a :: as) := fun more =>
    theBits_grows (grows_append _ _) hx
  obtain ⟨b1, b2, b3, b4, b5, b6, h1, h2, h3, h4, h5, h6⟩ : ∃ b1 b2 b3 b4 b5 b6 : Bool,
      combGate .xnor (a :: as) = some b1 ∧ combGate .and (a :: as) = some b2 ∧
      combGate .xor (a :: as) = some b3 ∧ combGate .nand (a :: as) = some b4 ∧
      combGate .nor (a :: as) = some b5 ∧ combGate .or (a :: as) = some b6 :=
    ⟨_, _, _, _, _, _, rfl, rfl, rfl, rfl, rfl, rfl⟩
  have hr : Rtlil.run (.inv i :: gateNames.map fun n => .gate n (i :: is)) env =
      some (env ++ [[!a], [b1], [b2], [b3], [b4], [b5], [b6]]) := by
    simp only [gateNames, List.map_cons, List.map_nil, Rtlil.run, evalOp, hi, Option.map_some,
      Option.bind_some, List.append_assoc, hxg, h1, h2, h3, h4, h5, h6, List.cons_append,
      List.nil_append]
  obtain ⟨e1, e2⟩ := emit_ok hI hr
  have hlen := hI.envLen
  have at_ : ∀ j y, ([[!a], [b1], [b2], [b3], [b4], [b5], [b6]] : List (List Bool))[j]? = some y →
      (env ++ [[!a], [b1], [b2], [b3], [b4], [b5], [b6]])[st.args + st.ops.length + j]? = some y := by
    intro j y h
    rw [← hlen, List.getElem?_append_right (by omega)]
    simpa using h
  have hsome : ∀ j y, ([[!a], [b1], [b2], [b3], [b4], [b5], [b6]] : List (List Bool))[j]? =
      some [y] → y = out → createOp (.gate g) (i :: is) st = some (st.args + st.ops.length + j,
        { st with ops := st.ops ++ .inv i :: gateNames.map fun n => .gate n (i :: is) }) →
      ∃ x st' env', createOp (.gate g) (i :: is) st = some (x, st') ∧ Inv m v args st' env' ∧
        Le m v st env st' env' ∧ env'[x]? = some [out] := by
    rintro j y hy rfl hc
    exact ⟨_, _, _, hc, e1, e2, at_ j [y] hy⟩
  have bin : g ≠ .not → ∃ b, as = [b] := by
    intro hg
    cases g <;> first
      | exact absurd rfl hg
      | (cases as with
         | nil => simp [Kind.out] at ho
         | cons b bs =>
           cases bs with
           | nil => exact ⟨b, rfl⟩
           | cons => simp [Kind.out] at ho)
  cases g with
  | not =>
    cases as with
    | cons => simp [Kind.out] at ho
    | nil => exact hsome 0 (!a) rfl (by simpa [Kind.out] using ho) rfl
  | mux => cases as <;> simp [Kind.out] at ho
  | xnor =>
    obtain ⟨b, rfl⟩ := bin (by simp)
    refine hsome 1 b1 rfl ?_ rfl
    simp only [Kind.out, Option.some.injEq, combGate] at ho h1
    rw [← ho, ← h1]; cases a <;> cases b <;> rfl
  | and =>
    obtain ⟨b, rfl⟩ := bin (by simp)
    refine hsome 2 b2 rfl ?_ rfl
    simp only [Kind.out, Option.some.injEq, combGate] at ho h2
    rw [← ho, ← h2]; cases a <;> cases b <;> rfl
  | xor =>
    obtain ⟨b, rfl⟩ := bin (by simp)
    refine hsome 3 b3 rfl ?_ rfl
    simp only [Kind.out, Option.some.injEq, combGate] at ho h3
    rw [← ho, ← h3]; cases a <;> cases b <;> rfl
  | nand =>
    obtain ⟨b, rfl⟩ := bin (by simp)
    refine hsome 4 b4 rfl ?_ rfl
    simp only [Kind.out, Option.some.injEq, combGate] at ho h4
    rw [← ho, ← h4]; cases a <;> cases b <;> rfl
  | nor =>
    obtain ⟨b, rfl⟩ := bin (by simp)
    refine hsome 5 b5 rfl ?_ rfl
    simp only [Kind.out, Option.some.injEq, combGate] at ho h5
    rw [← ho, ← h5]; cases a <;> cases b <;> rfl
  | or =>
    obtain ⟨b, rfl⟩ := bin (by simp)
    refine hsome 6 b6 rfl ?_ rfl
    simp only [Kind.out, Option.some.injEq, combGate] at ho h6
    rw [← ho, ← h6]; cases a <;> cases b <;> rfl

/-- One cell. -/
theorem importCell_ok (hu : Uniq m) {st : St} {env : List (List Bool)} (hI : Inv m v args st env)
    {c : Cell} (hs : c.Shape) {bs : List Bit} {w : Wire} {o : Nat} (hin : c.ins = bs.map ([·]))
    (hout : c.out = [.wire w o]) (hr : ∀ b ∈ bs, CanRead m v st env b)
    (hd : Bit.Drivable m (.wire w o))
    (hv : c.kind.out (bs.map (Bit.value v)) = some (v w o)) :
    ∃ st' env', importCell c st = some st' ∧ Inv m v args st' env' ∧ Le m v st env st' env' ∧
      Driven v st' env' w o := by
  have key : ∃ x st1 env1, ((getBits (getInputs c) st).bind fun (vs, st) => createOp c.kind vs st) =
      some (x, st1) ∧ Inv m v args st1 env1 ∧ Le m v st env st1 env1 ∧ env1[x]? = some [v w o] := by
    obtain ⟨kind, ins, out⟩ := c
    simp only at hin hout hv
    subst hin
    cases kind with
    | lut k ports =>
      simp only [Cell.Shape, List.length_map] at hs
      obtain ⟨xs, st1, env1, g1, g2, g3, g4, -⟩ := getBits_ok (bs := bs.reverse) hI
        (fun b hb => hr b (by simpa using hb))
      have hx : theBits env1 xs = some (Lut.importInputs (bs.map (Bit.value v))) := by
        rw [g4, Lut.importInputs_eq, List.map_reverse]
      obtain ⟨x, st2, env2, e1, e2, e3, e4⟩ := create_lut g2 hs.1 hs.2.1 (by simpa using hs.2.2)
        (by simpa [Kind.out] using hv) hx
      refine ⟨x, st2, env2, ?_, e2, g3.trans e3, e4⟩
      simp only [getInputs, Lut.importInputs_eq, ← List.map_reverse, g1, Option.bind_some, e1]
    | gate g =>
      obtain ⟨xs, st1, env1, g1, g2, g3, g4, g5⟩ := getBits_ok (bs := bs) hI hr
      obtain ⟨x, st2, env2, e1, e2, e3, e4⟩ := create_gate g2 hv g4 (by simpa using g5)
      refine ⟨x, st2, env2, ?_, e2, g3.trans e3, e4⟩
      simp only [getInputs, g1, Option.bind_some, e1]
  obtain ⟨x, st1, env1, h1, h2, h3, h4⟩ := key
  obtain ⟨st2, k1, k2, k3, k4⟩ := addResult_ok hu h2 hd h4
  refine ⟨st2, env1, ?_, k2, h3.trans k3, k4⟩
  unfold importCell
  cases hg : getBits (getInputs c) st with
  | none => rw [hg] at h1; simp at h1
  | some p =>
    rw [hg] at h1
    simp only [Option.bind_some] at h1 ⊢
    rw [h1, hout]
    exact k1

theorem importCells_ok (hu : Uniq m) : ∀ {cs before : List Cell} {st : St} {env : List (List Bool)},
    Inv m v args st env → Ordered m before cs →
    (∀ c ∈ cs, ∃ (bs : List Bit) (o : Bit), c.ins = bs.map ([·]) ∧ c.out = [o] ∧
      c.kind.out (bs.map (Bit.value v)) = some (o.value v)) →
    (∀ c ∈ before, ∀ w ∈ m.wires, ∀ o < w.width, c.out = [.wire w o] → Driven v st env w o) →
    ∃ st' env', importCells cs st = some st' ∧ Inv m v args st' env' ∧ Le m v st env st' env' ∧
      ∀ c ∈ before ++ cs, ∀ w ∈ m.wires, ∀ o < w.width, c.out = [.wire w o] → Driven v st' env' w o
  | [], before, st, env, hI, _, _, hb => ⟨st, env, rfl, hI, .refl _ _, by simpa using hb⟩
  | c :: cs, before, st, env, hI, ho, hv, hb => by
    obtain ⟨hs, hins, ⟨b, hout, hdr⟩, hrest⟩ := ho
    obtain ⟨bs, o, hin, hout', hval⟩ := hv c (by simp)
    rw [hout] at hout'
    simp only [List.cons.injEq, and_true] at hout'
    subst hout'
    cases b with
    | const b => exact absurd hdr (fun h => h)
    | wire w o =>
      have hr : ∀ b ∈ bs, CanRead m v st env b := by
        intro b hbm
        obtain ⟨b', he, hrd⟩ := hins [b] (by rw [hin]; exact List.mem_map_of_mem hbm)
        simp only [List.cons.injEq, and_true] at he
        subst he
        cases b with
        | const b => trivial
        | wire w' o' =>
          refine ⟨hrd.1, hrd.2.1, hrd.2.2.imp_right ?_⟩
          rintro ⟨c', hc', he⟩
          exact hb c' hc' w' hrd.1 o' hrd.2.1 he
      obtain ⟨st1, env1, e1, e2, e3, e4⟩ := importCell_ok hu hI hs hin hout hr hdr hval
      obtain ⟨st2, env2, f1, f2, f3, f4⟩ := importCells_ok hu e2 hrest
        (fun c' hc' => hv c' (by simp [hc'])) (by
          intro c' hc' w' hw' o' ho' he
          rcases List.mem_cons.1 hc' with rfl | hc'
          · rw [hout] at he
            simp only [List.cons.injEq, Bit.wire.injEq, and_true] at he
            obtain ⟨rfl, rfl⟩ := he
            exact e4
          · exact e3.driven w' hw' o' ho' (hb c' hc' w' hw' o' ho' he))
      refine ⟨st2, env2, by simp [importCells, e1, f1], f2, e3.trans f3, ?_⟩
      intro c' hc'
      refine f4 c' ?_
      simp only [List.mem_append, List.mem_cons] at hc' ⊢
      tauto

/-! ## Connections -/

/-- A bit of a wire is driven by itself or with the whole wire. -/
def Has (v : Values) (st : St) (env : List (List Bool)) (w : Wire) (o : Nat) : Prop :=
  (st.names.lookup w.name).isSome ∨ Driven v st env w o

theorem Has.le {st st' : St} {env env' : List (List Bool)} (h : Le m v st env st' env') {w : Wire}
    (hw : w ∈ m.wires) {o : Nat} (ho : o < w.width) (hb : Has v st env w o) : Has v st' env' w o :=
  hb.imp (h.names _) (h.driven w hw o ho)

theorem connectBits_ok (hu : Uniq m) : ∀ {l r : Sig} {st : St} {env : List (List Bool)},
    Inv m v args st env → l.length = r.length → (∀ b ∈ l, b.Drivable m) →
    (∀ b ∈ r, CanRead m v st env b) → l.map (Bit.value v) = r.map (Bit.value v) →
    ∃ st' env', connectBits l r st = some st' ∧ Inv m v args st' env' ∧ Le m v st env st' env' ∧
      ∀ w o, .wire w o ∈ l → Has v st' env' w o
  | [], r, st, env, hI, _, _, _, _ => ⟨st, env, by simp [connectBits], hI, .refl _ _, by simp⟩
  | _ :: _, [], _, _, _, h, _, _, _ => by simp at h
  | b :: l, c :: r, st, env, hI, hl, hd, hr, he => by
    simp only [List.map_cons, List.cons.injEq] at he
    obtain ⟨x, st1, env1, e1, e2, e3, e4⟩ := getBit_ok hI (hr c (by simp))
    have hdb := hd b (by simp)
    cases b with
    | const b => exact absurd hdb (fun h => h)
    | wire w o =>
      rw [← he.1] at e4
      obtain ⟨st2, f1, f2, f3, f4⟩ := addResult_ok hu e2 hdb e4
      obtain ⟨st3, env3, g1, g2, g3, g4⟩ := connectBits_ok hu (l := l) (r := r) f2
        (by simpa using hl) (fun b hb => hd b (by simp [hb]))
        (fun b hb => (hr b (by simp [hb])).le (e3.trans f3)) he.2
      refine ⟨st3, env3, by simp [connectBits, e1, f1, g1], g2, (e3.trans f3).trans g3, ?_⟩
      intro w' o' hm
      rcases List.mem_cons.1 hm with hm | hm
      · simp only [Bit.wire.injEq] at hm
        obtain ⟨rfl, rfl⟩ := hm
        exact .inr (g3.driven w' hdb.1 o' hdb.2.1 f4)
      · exact g4 w' o' hm

theorem connect_ok (hu : Uniq m) (hpos : ∀ w ∈ m.wires, 0 < w.width) {st : St}
    {env : List (List Bool)} (hI : Inv m v args st env)
    (hcells : ∀ c ∈ m.cells, ∀ w ∈ m.wires, ∀ o < w.width, c.out = [.wire w o] → Driven v st env w o)
    {l r : Sig} (hc : Connection m l r) (he : l.map (Bit.value v) = r.map (Bit.value v)) :
    ∃ st' env', connect l r st = some st' ∧ Inv m v args st' env' ∧ Le m v st env st' env' ∧
      ∀ w o, .wire w o ∈ l → Has v st' env' w o := by
  obtain ⟨hne, hlen, hdr, hrd, hwhole⟩ := hc
  have hrd : ∀ b ∈ r, CanRead m v st env b := by
    intro b hb
    have := hrd b hb
    cases b with
    | const b => trivial
    | wire w o =>
      refine ⟨this.1, this.2.1, this.2.2.imp_right ?_⟩
      rintro ⟨c, hc, h⟩
      exact hcells c hc w this.1 o this.2.1 h
  unfold connect
  rw [if_neg]
  swap
  · simp only [not_not]
    refine List.all_eq_true.2 fun b hb => ?_
    cases b with
    | const b => exact absurd (hdr _ hb) (fun h => h)
    | wire w o => rfl
  split
  · exact connectBits_ok hu hI hlen hdr hrd he
  · next hcond =>
    simp only [Bool.or_eq_true, Bool.and_eq_true, not_or, not_and, manyChunks,
      Option.isNone_iff_eq_none] at hcond
    obtain ⟨hcl, hcr, hmany⟩ := hcond
    have hrne : r ≠ [] := by
      rintro rfl
      exact hne (List.length_eq_zero_iff.1 hlen)
    have hchr : isChunk r = true := by
      by_contra hn
      exact hmany (by simpa using hn) (by simpa using hrne)
    obtain ⟨w, hw⟩ := Option.ne_none_iff_exists'.1 (hcr hchr)
    have hrs := asWire_sig hw
    have hwl : r.length = w.width := by rw [hrs, sig_length]
    have hwm : w ∈ m.wires := by
      cases hr : r with
      | nil => exact absurd hr hrne
      | cons b bs =>
        have hb : b ∈ w.sig := by rw [← hrs, hr]; simp
        obtain ⟨i, -, rfl⟩ := List.mem_map.1 hb
        exact (hrd (.wire w i) (by rw [hr]; simp)).1
    by_cases h1 : w.width = 1
    · -- one bit
      obtain ⟨c, rfl⟩ : ∃ c, r = [c] := List.length_eq_one_iff.1 (hwl.trans h1)
      obtain ⟨b, rfl⟩ : ∃ b, l = [b] := List.length_eq_one_iff.1 (hlen.trans (hwl.trans h1))
      obtain ⟨st1, env1, e1, e2, e3, e4⟩ := connectBits_ok hu hI hlen hdr hrd he
      refine ⟨st1, env1, ?_, e2, e3, e4⟩
      rw [← e1]
      simp only [connectBits]
      cases getBit [c] st with
      | none => rfl
      | some p =>
        simp only [Option.bind_some]
        cases addResultBit [b] p.1 p.2 <;> rfl
    · obtain ⟨hin, u, o, hlu⟩ := hwhole w hrs (by have := hpos w hwm; omega)
      have hchl : isChunk l = true := by
        rw [hlu]
        exact isChunk_range (by rw [hlen, hwl]; exact hpos w hwm)
      obtain ⟨u', hu'⟩ := Option.ne_none_iff_exists'.1 (hcl hchl)
      have hls := asWire_sig hu'
      have hul : u'.width = w.width := by rw [← hwl, ← hlen, hls, sig_length]
      have hum : u' ∈ m.wires := by
        have : Bit.wire u' 0 ∈ l := by
          rw [hls]
          refine List.mem_map.2 ⟨0, ?_, rfl⟩
          have := hpos w hwm
          simp only [List.mem_range]
          omega
        exact (hdr _ this).1
      obtain ⟨x, hx⟩ := Option.isSome_iff_exists.1 (hI.inputs w hwm hin)
      have hb : w.bits v = u'.bits v := by
        rw [hls, hrs] at he
        simpa [Wire.sig, Wire.bits, Function.comp_def, Bit.value] using he.symm
      obtain ⟨e1, e2, e3⟩ := addWire_ok hu hI hum (x := x) (by rw [← hb]; exact hI.names w hwm x hx)
      refine ⟨st.addWire u' x, env, ?_, e1, e2, ?_⟩
      · simp [getBit, hw, hx, addResultBit, hu']
      · intro w' o' hm
        rw [hls] at hm
        obtain ⟨i, -, hi⟩ := List.mem_map.1 hm
        simp only [Bit.wire.injEq] at hi
        obtain ⟨rfl, -⟩ := hi
        exact .inl e3

theorem connectAll_ok (hu : Uniq m) (hpos : ∀ w ∈ m.wires, 0 < w.width) :
    ∀ {cs : List (Sig × Sig)} {st : St} {env : List (List Bool)}, Inv m v args st env →
    (∀ c ∈ m.cells, ∀ w ∈ m.wires, ∀ o < w.width, c.out = [.wire w o] → Driven v st env w o) →
    (∀ p ∈ cs, Connection m p.1 p.2) →
    (∀ p ∈ cs, p.1.map (Bit.value v) = p.2.map (Bit.value v)) →
    ∃ st' env', connectAll cs st = some st' ∧ Inv m v args st' env' ∧ Le m v st env st' env' ∧
      ∀ p ∈ cs, ∀ w o, .wire w o ∈ p.1 → Has v st' env' w o
  | [], st, env, hI, _, _, _ => ⟨st, env, rfl, hI, .refl _ _, by simp⟩
  | (l, r) :: cs, st, env, hI, hcells, hc, he => by
    obtain ⟨st1, env1, e1, e2, e3, e4⟩ := connect_ok hu hpos hI hcells (hc (l, r) (by simp))
      (he (l, r) (by simp))
    obtain ⟨st2, env2, f1, f2, f3, f4⟩ := connectAll_ok hu hpos (cs := cs) e2
      (fun c hc w hw o ho h => e3.driven w hw o ho (hcells c hc w hw o ho h))
      (fun p hp => hc p (by simp [hp])) (fun p hp => he p (by simp [hp]))
    refine ⟨st2, env2, by simp [connectAll, e1, f1], f2, e3.trans f3, ?_⟩
    intro p hp w o hm
    rcases List.mem_cons.1 hp with rfl | hp
    · have := (hc (l, r) (by simp)).2.2.1 _ hm
      exact (e4 w o hm).le f3 this.1 this.2.1
    · exact f4 p hp w o hm

/-! ## Results and arguments -/

theorem returns_ok (hpos : ∀ w ∈ m.wires, 0 < w.width) :
    ∀ {outs : List Wire} {st : St} {env : List (List Bool)}, Inv m v args st env →
    (∀ w ∈ outs, w ∈ m.wires ∧ w.isOutput ∧ ∀ o < w.width, Has v st env w o) →
    ∃ xs st' env', returns outs st = some (xs, st') ∧ Inv m v args st' env' ∧
      Le m v st env st' env' ∧ valuesAt env' xs = some (outs.map (Wire.bits v))
  | [], st, env, hI, _ => ⟨[], st, env, rfl, hI, .refl _ _, rfl⟩
  | w :: outs, st, env, hI, h => by
    obtain ⟨hw, hout, hbits⟩ := h w (by simp)
    have hp := hpos w hw
    simp only [returns]
    cases hn : st.names.lookup w.name with
    | some x =>
      obtain ⟨xs, st1, env1, e1, e2, e3, e4⟩ := returns_ok hpos (outs := outs) hI
        (fun u hu => h u (by simp [hu]))
      refine ⟨x :: xs, st1, env1, by simp [e1], e2, e3, ?_⟩
      simp [valuesAt, e3.grows _ _ (hI.names w hw x hn), e4]
    | none =>
      have hdr : ∀ o < w.width, Driven v st env w o := fun o ho =>
        (hbits o ho).resolve_left (by simp [hn])
      have h1 : w.width ≠ 1 := by
        intro h1
        have := hdr 0 hp
        unfold Driven at this
        rw [if_pos h1, hn] at this
        simp at this
      obtain ⟨vs, hvs, hl⟩ := hI.rets w hw hout
      have hbs : theBits env vs = some (w.bits v) := by
        refine theBits_of (by simp [hl, Wire.bits]) fun i x b hx hb => ?_
        have hi : i < w.width := by rw [← hl]; exact (List.getElem?_eq_some_iff.1 hx).1
        have := hdr i hi
        unfold Driven at this
        rw [if_neg h1] at this
        rcases this with this | ⟨us, y, e1, e2, e3⟩
        · exact absurd hout (not_both this)
        · rw [hvs, Option.some.injEq] at e1
          subst e1
          rw [hx, Option.some.injEq] at e2
          subst e2
          rw [bits_get hi, Option.some.injEq] at hb
          rw [e3, hb]
      obtain ⟨g1, g2, g3⟩ := emit_one hI (o := .fromElements vs) hbs
      obtain ⟨xs, st1, env1, e1, e2, e3, e4⟩ := returns_ok hpos (outs := outs) g1
        (fun u hu => by
          obtain ⟨a, b, c⟩ := h u (by simp [hu])
          exact ⟨a, b, fun o ho => (c o ho).le g2 a ho⟩)
      refine ⟨(st.emit (.fromElements vs)).1 :: xs, st1, env1, ?_, e2, g2.trans e3, ?_⟩
      · simp only [hvs]
        rw [if_pos (by omega)]
        simp [e1]
      · simp [valuesAt, e3.grows _ _ g3, e4]

theorem bindArgs_ok (hu : Uniq m) : ∀ {ins : List Wire} {i : Nat} {st : St}
    {env : List (List Bool)}, (∀ w ∈ ins, w ∈ m.wires) →
    (∀ w ∈ m.wires, ∀ x, st.names.lookup w.name = some x → env[x]? = some (w.bits v)) →
    (∀ j w, ins[j]? = some w → env[i + j]? = some (w.bits v)) →
    (∀ w ∈ m.wires, ∀ x, (bindArgs i ins st).names.lookup w.name = some x →
      env[x]? = some (w.bits v)) ∧
    (∀ w, w ∈ ins ∨ (st.names.lookup w.name).isSome →
      ((bindArgs i ins st).names.lookup w.name).isSome) ∧
    (bindArgs i ins st).ops = st.ops ∧ (bindArgs i ins st).args = st.args ∧
    (bindArgs i ins st).rets = st.rets
  | [], i, st, env, _, hn, _ => ⟨hn, fun w h => h.resolve_left (by simp), rfl, rfl, rfl⟩
  | w :: ins, i, st, env, hm, hn, he => by
    obtain ⟨e1, e2, e3⟩ := addWire_rest st w i
    have hn' : ∀ u ∈ m.wires, ∀ x, (st.addWire w i).names.lookup u.name = some x →
        env[x]? = some (u.bits v) := by
      intro u hum x hx
      rw [addWire_names] at hx
      cases h : st.names.lookup u.name with
      | some z =>
        rw [h] at hx
        exact hn u hum x (by rw [h]; exact hx)
      | none =>
        rw [h] at hx
        simp only at hx
        split at hx
        · next h2 =>
          simp only [Option.some.injEq] at hx
          subst hx
          rw [hu u hum w (hm w (by simp)) h2]
          simpa using he 0 w rfl
        · simp at hx
    obtain ⟨f1, f2, f3, f4, f5⟩ := bindArgs_ok hu (ins := ins) (i := i + 1) (st := st.addWire w i)
      (env := env) (fun u hu => hm u (by simp [hu])) hn'
      (fun j u h => by have := he (j + 1) u (by simpa using h); rwa [show i + 1 + j = i + (j + 1) by omega])
    refine ⟨f1, fun u hu => f2 u ?_, by rw [bindArgs, f3, e1], by rw [bindArgs, f4, e2],
      by rw [bindArgs, f5, e3]⟩
    rw [addWire_names]
    rcases hu with hu | hu
    · rcases List.mem_cons.1 hu with rfl | hu
      · right
        cases st.names.lookup u.name <;> simp
      · exact .inl hu
    · right
      obtain ⟨y, hy⟩ := Option.isSome_iff_exists.1 hu
      simp [hy]

/-! ## Ports -/

theorem lookup_unique {α : Type} {k : Nat} {a : α} : ∀ {l : List (Nat × α)}, (k, a) ∈ l →
    (∀ b, (k, b) ∈ l → b = a) → l.lookup k = some a
  | [], h, _ => by simp at h
  | (k', a') :: l, h, hu => by
    by_cases hk : k = k'
    · subst hk
      rw [List.lookup_cons_self, hu a' (by simp)]
    · rw [List.lookup_cons]
      have : (k == k') = false := by simpa using hk
      rw [this]
      refine lookup_unique ?_ fun b hb => hu b (by simp [hb])
      rcases List.mem_cons.1 h with h | h
      · exact absurd (congrArg Prod.fst h) hk
      · exact h

theorem lookup_absent {α : Type} {k : Nat} : ∀ {l : List (Nat × α)}, (∀ p ∈ l, p.1 ≠ k) →
    l.lookup k = none
  | [], _ => rfl
  | (k', a') :: l, h => by
    rw [List.lookup_cons]
    have : (k == k') = false := by simpa using (h (k', a') (by simp)).symm
    rw [this]
    exact lookup_absent fun p hp => h p (by simp [hp])

theorem mem_inputPorts {ws : List Wire} {i : Nat} {w : Wire} :
    (i, w) ∈ inputPorts ws ↔ w ∈ ws ∧ ∃ id, w.port = .input id ∧ i = id - 1 := by
  unfold inputPorts
  simp only [List.mem_filterMap]
  constructor
  · rintro ⟨u, hu, h⟩
    split at h
    · next id hid =>
      simp only [Option.some.injEq, Prod.mk.injEq] at h
      obtain ⟨rfl, rfl⟩ := h
      exact ⟨hu, id, hid, rfl⟩
    · simp at h
  · rintro ⟨hw, id, hid, rfl⟩
    exact ⟨w, hw, by rw [hid]⟩

theorem mem_outputPorts {ws : List Wire} {i : Nat} {w : Wire} :
    (i, w) ∈ outputPorts ws ↔ w ∈ ws ∧ ∃ id, w.port = .output id ∧ i = id - 1 := by
  unfold outputPorts
  simp only [List.mem_filterMap]
  constructor
  · rintro ⟨u, hu, h⟩
    split at h
    · next id hid =>
      simp only [Option.some.injEq, Prod.mk.injEq] at h
      obtain ⟨rfl, rfl⟩ := h
      exact ⟨hu, id, hid, rfl⟩
    · simp at h
  · rintro ⟨hw, id, hid, rfl⟩
    exact ⟨w, hw, by rw [hid]⟩

theorem ports_ok {ps : List (Nat × Wire)} : ∀ {ws : List Wire} {start : Nat},
    (∀ i w, ws[i]? = some w → ps.lookup (start + i) = some w) →
    ports ps start ws.length = some ws
  | [], _, _ => rfl
  | w :: ws, start, h => by
    have h1 := h 0 w rfl
    have h2 := ports_ok (ps := ps) (ws := ws) (start := start + 1) fun i u hu => by
      have := h (i + 1) u (by simpa using hu)
      rwa [show start + 1 + i = start + (i + 1) by omega]
    simp only [List.length_cons, ports]
    rw [Nat.add_zero] at h1
    rw [h1, h2]

/-- The wires of a list of ports, each once. -/
theorem ports_length {ps : List (Nat × Wire)} {ws : List Wire} (hn : (ps.map Prod.snd).Nodup)
    (hi : ∀ (i j : Nat) (w : Wire), ws[i]? = some w → ws[j]? = some w → i = j)
    (hm : ∀ w, w ∈ ws ↔ w ∈ ps.map Prod.snd) : ps.length = ws.length := by
  have hws : ws.Nodup := by
    rw [List.nodup_iff_injective_getElem]
    rintro ⟨i, hi'⟩ ⟨j, hj'⟩ h
    simp only at h
    have := hi i j ws[i] (List.getElem?_eq_getElem hi') (by rw [h]; exact List.getElem?_eq_getElem hj')
    simpa using this
  have := ((List.perm_ext_iff_of_nodup hws hn).2 hm).length_eq
  simpa using this.symm

theorem nodup_of_names {ws : List Wire} (h : (ws.map (·.name)).Nodup) : ws.Nodup :=
  List.Nodup.of_map _ h

theorem uniq_of_names (h : (m.wires.map (·.name)).Nodup) : Uniq m := by
  intro w hw w' hw' he
  exact List.inj_on_of_nodup_map h hw hw' he

theorem inputPorts_snd : ∀ ws : List Wire, ((inputPorts ws).map Prod.snd).Sublist ws
  | [] => List.Sublist.slnil
  | w :: ws => by
    have ih := inputPorts_snd ws
    unfold inputPorts at ih ⊢
    rw [List.filterMap_cons]
    split
    · exact ih.cons _
    · next p hp =>
      split at hp
      · simp only [Option.some.injEq] at hp
        subst hp
        exact ih.cons_cons _
      · simp at hp

theorem outputPorts_snd : ∀ ws : List Wire, ((outputPorts ws).map Prod.snd).Sublist ws
  | [] => List.Sublist.slnil
  | w :: ws => by
    have ih := outputPorts_snd ws
    unfold outputPorts at ih ⊢
    rw [List.filterMap_cons]
    split
    · exact ih.cons _
    · next p hp =>
      split at hp
      · simp only [Option.some.injEq] at hp
        subst hp
        exact ih.cons_cons _
      · simp at hp

section
variable {ins outs : List Wire} (hp : Ports m ins outs)
include hp

theorem Ports.input_mem (w : Wire) : w ∈ ins ↔ w ∈ m.wires ∧ w.isInput := by
  rw [List.mem_iff_getElem?]
  constructor
  · rintro ⟨i, hi⟩
    obtain ⟨a, b⟩ := (hp.inputs i w).1 hi
    exact ⟨a, _, b⟩
  · rintro ⟨hw, id, hid⟩
    have h0 : id ≠ 0 := fun h => (hp.positive w hw).1 (by rw [hid, h])
    exact ⟨id - 1, (hp.inputs _ w).2 ⟨hw, by rw [hid]; congr 1; omega⟩⟩

theorem Ports.inputs_length : (inputPorts m.wires).length = ins.length := by
  refine ports_length ((inputPorts_snd _).nodup (nodup_of_names hp.names)) ?_ ?_
  · intro i j w hi hj
    have h1 := ((hp.inputs i w).1 hi).2
    have h2 := ((hp.inputs j w).1 hj).2
    rw [h1] at h2
    simpa using h2
  · intro w
    rw [hp.input_mem]
    simp only [List.mem_map, Prod.exists, exists_eq_right, mem_inputPorts]
    constructor
    · rintro ⟨hw, id, hid⟩
      exact ⟨_, hw, id, hid, rfl⟩
    · rintro ⟨_, hw, id, hid, _⟩
      exact ⟨hw, id, hid⟩

theorem Ports.inputs_ok : ports (inputPorts m.wires) 0 (inputPorts m.wires).length = some ins := by
  rw [hp.inputs_length]
  refine ports_ok fun i w hi => ?_
  have h := (hp.inputs i w).1 hi
  rw [Nat.zero_add]
  refine lookup_unique (mem_inputPorts.2 ⟨h.1, _, h.2, rfl⟩) fun u hu => ?_
  obtain ⟨hum, id, hid, rfl⟩ := mem_inputPorts.1 hu
  have h0 : id ≠ 0 := fun h => (hp.positive u hum).1 (by rw [hid, h])
  have := (hp.inputs (id - 1) u).2 ⟨hum, by rw [hid]; congr 1; omega⟩
  rw [hi] at this
  simpa using this.symm

theorem Ports.after (w : Wire) (hw : w ∈ m.wires) {id : Nat} (hid : w.port = .output id)
    (hlt : ∀ w ∈ m.wires, w.isOutput → w ∈ outs) : ∃ i, id = ins.length + i + 1 := by
  obtain ⟨i, hi⟩ := List.mem_iff_getElem?.1 (hlt w hw ⟨id, hid⟩)
  have := ((hp.outputs i w).1 hi).2
  rw [hid] at this
  exact ⟨i, by simpa using this⟩

theorem Ports.outputs_ok (hall : ∀ w ∈ m.wires, w.isOutput → w ∈ outs) :
    ports (outputPorts m.wires) (inputPorts m.wires).length (outputPorts m.wires).length =
      some outs := by
  have hl : (outputPorts m.wires).length = outs.length := by
    refine ports_length ((outputPorts_snd _).nodup (nodup_of_names hp.names)) ?_ ?_
    · intro i j w hi hj
      have h1 := ((hp.outputs i w).1 hi).2
      have h2 := ((hp.outputs j w).1 hj).2
      rw [h1] at h2
      simpa using h2
    · intro w
      simp only [List.mem_map, Prod.exists, exists_eq_right, mem_outputPorts]
      constructor
      · intro hw
        obtain ⟨i, hi⟩ := List.mem_iff_getElem?.1 hw
        obtain ⟨a, b⟩ := (hp.outputs i w).1 hi
        exact ⟨_, a, _, b, rfl⟩
      · rintro ⟨_, hw, id, hid, _⟩
        exact hall w hw ⟨id, hid⟩
  rw [hl, hp.inputs_length]
  refine ports_ok fun i w hi => ?_
  have h := (hp.outputs i w).1 hi
  refine lookup_unique (mem_outputPorts.2 ⟨h.1, _, h.2, by omega⟩) fun u hu => ?_
  obtain ⟨hum, id, hid, hie⟩ := mem_outputPorts.1 hu
  obtain ⟨j, hj⟩ := hp.after u hum hid hall
  have hij : j = i := by omega
  subst hij
  have := (hp.outputs j u).2 ⟨hum, by rw [hid, hj]⟩
  rw [hi] at this
  simpa using this.symm

end

/-! ## The module -/

theorem import_ok {ins outs : List Wire} (hs : m.Served ins outs) (hv : Valid m v) :
    ∃ f, importModule m = some f ∧
      f.call (ins.map (Wire.bits v)) = some (outs.map (Wire.bits v)) := by
  have hu := uniq_of_names hs.ports.names
  have hpos := hs.ports.width
  obtain ⟨st0, hst0⟩ : ∃ st0 : St, st0 = ⟨(inputPorts m.wires).length, [.const false], [],
      (outputPorts m.wires).map fun p =>
        (p.2.name, List.replicate p.2.width (inputPorts m.wires).length)⟩ := ⟨_, rfl⟩
  have hlen := hs.ports.inputs_length
  obtain ⟨b1, b2, b3, b4, b5⟩ := bindArgs_ok (m := m) (v := v) hu (ins := ins) (i := 0) (st := st0)
    (env := ins.map (Wire.bits v) ++ [[false]]) (fun w hw => ((hs.ports.input_mem w).1 hw).1)
    (by intro w _ x hx; rw [hst0] at hx; simp at hx)
    (by
      intro j w hj
      have : j < (ins.map (Wire.bits v)).length := by
        rw [List.length_map]; exact (List.getElem?_eq_some_iff.1 hj).1
      rw [Nat.zero_add, List.getElem?_append_left this, List.getElem?_map, hj]
      rfl)
  have hI : Inv m v (ins.map (Wire.bits v)) (bindArgs 0 ins st0)
      (ins.map (Wire.bits v) ++ [[false]]) := by
    refine ⟨?_, ?_, b1, fun w hw hi => b2 w (.inl ((hs.ports.input_mem w).2 ⟨hw, hi⟩)), ?_, ?_⟩
    · rw [b3, hst0]; rfl
    · rw [b4, hst0]; simp [hlen]
    · rintro w hw ⟨id, hid⟩
      rw [b5, hst0]
      refine ⟨List.replicate w.width (inputPorts m.wires).length, ?_, by simp⟩
      refine lookup_unique ?_ ?_
      · exact List.mem_map.2 ⟨(id - 1, w), mem_outputPorts.2 ⟨hw, id, hid, rfl⟩, rfl⟩
      · intro b hb
        obtain ⟨⟨i, u⟩, hp, he⟩ := List.mem_map.1 hb
        simp only [Prod.mk.injEq] at he
        obtain ⟨hum, -⟩ := mem_outputPorts.1 hp
        rw [← he.2, hu u hum w hw he.1]
    · intro w hw hno
      rw [b5, hst0]
      refine lookup_absent fun p hp he => hno ?_
      obtain ⟨⟨i, u⟩, hp', rfl⟩ := List.mem_map.1 hp
      obtain ⟨hum, id, hid, -⟩ := mem_outputPorts.1 hp'
      rw [← hu u hum w hw he]
      exact ⟨id, hid⟩
  obtain ⟨st1, env1, c1, c2, c3, c4⟩ := importCells_ok hu (cs := m.cells) (before := []) hI hs.cells
    hv.cells (by simp)
  simp only [List.nil_append] at c4
  obtain ⟨st2, env2, d1, d2, d3, d4⟩ := connectAll_ok hu hpos c2 c4 hs.conns hv.conns
  have hout : ∀ w ∈ outs, w ∈ m.wires ∧ w.isOutput ∧ ∀ o < w.width, Has v st2 env2 w o := by
    intro w hw
    obtain ⟨i, hi⟩ := List.mem_iff_getElem?.1 hw
    obtain ⟨hm, hid⟩ := (hs.ports.outputs i w).1 hi
    refine ⟨hm, ⟨_, hid⟩, fun o ho => ?_⟩
    rcases hs.driven w hw o ho with ⟨c, hc, he⟩ | ⟨p, hp, he⟩
    · exact .inr (d3.driven w hm o ho (c4 c hc w hm o ho he))
    · exact d4 p hp w o he
  obtain ⟨xs, st3, env3, r1, r2, r3, r4⟩ := returns_ok hpos d2 hout
  refine ⟨⟨(inputPorts m.wires).length, st3.ops, xs⟩, ?_, ?_⟩
  · unfold importModule
    simp only [hs.ports.inputs_ok, hs.ports.outputs_ok hs.ports.all, ← hst0, c1, d1, r1,
      Option.bind_some, Option.map_some]
  · unfold Func.call
    rw [if_pos (by simp [hlen])]
    simp only
    rw [r2.run, Option.bind_some, r4]

end Heir.Rtlil
