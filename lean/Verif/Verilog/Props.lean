import Verif.Verilog.Exists
import Verif.Verilog.MoreLemmas

/-!
# Properties of the Verilog emitter
-/

namespace Heir.Verilog

/-! ## C127: the emitted module computes the function -/

/-- The inputs of a module carry the arguments. -/
def Carries (env : Env) (args : List Val) : Prop := ∀ i v, args[i]? = some v → env i = some v.bits

theorem inv_args {args : List Val} {ts : List Ty} {D : Decls} {env : Env}
    (ht : List.Forall₂ Val.HasTy args ts) (hD : ts.map emitType <+: D)
    (hc : Carries env args) : Inv D env ((List.range ts.length).map Expr.wire) args := by
  intro i v hv
  have hget : ∀ {as : List Val} {ts : List Ty}, List.Forall₂ Val.HasTy as ts → ∀ (i : Nat) (v : Val),
      as[i]? = some v → ∃ t, ts[i]? = some t ∧ v.HasTy t := by
    intro as ts h
    induction h with
    | nil => intro i v hv; simp at hv
    | @cons a b as ts hab _ ih =>
      intro i v hv
      cases i with
      | zero =>
        simp only [List.getElem?_cons_zero, Option.some.injEq] at hv
        subst hv
        exact ⟨b, rfl, hab⟩
      | succ i => exact ih i v (by simpa using hv)
  obtain ⟨t, hti, hvt⟩ := hget ht i v hv
  refine rep_new (t := t) (names_range _ _) ?_ hvt (hc i v hv)
  obtain ⟨l, rfl⟩ := hD
  have hlt : i < ts.length := by
    by_contra hcc
    rw [List.getElem?_eq_none (by omega)] at hti
    simp at hti
  unfold declOf
  rw [List.getD_eq_getElem?_getD, List.getElem?_append_left (by simpa using hlt), List.getElem?_map,
    hti]
  rfl

/-- An output carries the value. -/
theorem output_driven {D : Decls} {env : Env} {N : List Expr} {i : Nat} {v : Val} {t : Ty}
    (hr : Rep D env N i v) (ht : v.HasTy t) : driven D env (emitType t).width (nameOf N i) = some v.bits := by
  cases v with
  | int u w b =>
    cases t with
    | int u' w' =>
      obtain ⟨rfl, rfl, h⟩ := ht
      obtain ⟨h1, h2, h3, h4⟩ := hr
      have hw : (declOf D i).width = w := by rw [h2, wireDeclaration_width]
      rw [h1, show (emitType (.int u w)).width = w from wireDeclaration_width _ _]
      exact driven_of hw ((eval_wire hw h4 _ _).trans (congrArg some (extend_self _ _)))
    | index => exact ht.elim
    | arr _ _ => exact ht.elim
  | index b =>
    cases t with
    | index => exact driven_of hr.1 (hr.2.2.1 _)
    | int _ _ => exact ht.elim
    | arr _ _ => exact ht.elim
  | arr w sh l =>
    cases t with
    | arr w' sh' =>
      obtain ⟨rfl, rfl, h1, h2⟩ := ht
      obtain ⟨g1, g2, g3, g4, g5⟩ := hr
      have hlt := packed_lt l
      rw [h1, Nat.mul_comm] at hlt
      rw [g1, show (emitType (.arr w sh)).width = sh.prod * w from wireDeclaration_width _ _]
      have hb : (BitVec.ofNat (sh.prod * w) (packed l)).toNat = packed l := by
        rw [BitVec.toNat_ofNat, Nat.mod_eq_of_lt hlt]
      have := driven_of (d := D) (env := env) (e := .wire i) g2
        ((eval_wire (b := BitVec.ofNat (sh.prod * w) (packed l)) g2 (by rw [hb]; exact g5) _ _).trans
          (congrArg some (extend_self _ _)))
      rw [this, hb]; rfl
    | int _ _ => exact ht.elim
    | index => exact ht.elim

/-- C127 (partial).  Whenever the function has no undefined behaviour on its arguments and meets
`GoodRun`, the emitted module has a steady state on these arguments, and in every steady state its
outputs are the results.  Missing: without `GoodRun` the module computes something else (below);
calls, loops, stores, `tensor.insert`, `math.ctlz` and arguments of type `index`. -/
theorem C127_function_partial (f : Func) (m : Module) (args rs : List Val)
    (he : emitFunc f = some m) (hrun : runFunc f args = some rs)
    (hargs : List.Forall₂ Val.HasTy args f.args)
    (hrets : List.Forall₂ (fun (r : Ty × Nat) v => Val.HasTy v r.1) f.rets rs)
    (hg : GoodRun f.ops args) :
    (∃ env, Steady m env ∧ Carries env args) ∧
      ∀ env, Steady m env → Carries env args → outputsOf m env = rs.map fun v => some v.bits := by
  obtain ⟨⟨D, N, A⟩, hops, rfl⟩ := Option.map_eq_some_iff.mp he
  obtain ⟨st, hst, hseq⟩ := Option.bind_eq_some_iff.mp hrun
  have hlen : args.length = f.args.length := forall₂_length hargs
  obtain ⟨hD, -, -⟩ := emitOps_prefix _ _ _ _ _ hops
  constructor
  · obtain ⟨env, h1, h2⟩ := emitOps_steady f.ops _ _ _ D N A
      (fun i => args[i]?.map Val.bits) args st hops (by simp [hlen]) (by simp [hlen]) hst
      (by intro i hi; rw [names_range]; simpa [Below, reads] using hi)
    refine ⟨env, fun a ha => (h2 a ha).resolve_left (by simp), fun i v hv => ?_⟩
    have hi : i < args.length := by
      by_contra hc
      rw [List.getElem?_eq_none (by omega)] at hv
      simp at hv
    rw [h1 i (by simpa [← hlen] using hi), hv]
    rfl
  · intro env hs hc
    have hinv := emitOps_correct f.ops _ _ _ D N A env args st hops hs (by simp [hlen])
      (by simp [hlen]) (inv_args hargs hD hc) hst hg
    have hf := seq_forall _ _ _ hseq
    unfold outputsOf
    simp only [List.map_map]
    clear hrun hseq
    generalize f.rets = rets at hf hrets
    clear hs he hops hg hst hargs
    induction hf with
    | nil => rfl
    | @cons r v rets rs h hrest ih =>
      cases hrets with
      | cons h1 h2 =>
        rw [List.map_cons, List.map_cons, ih h2]
        congr 1
        exact output_driven (hinv _ _ h) h1

/-- `(a + b) * sext(c) < a`, on `i8` and `i4`. -/
example : ∃ (f : Func) (m : Module) (args rs : List Val), emitFunc f = some m ∧
    runFunc f args = some rs ∧ List.Forall₂ Val.HasTy args f.args ∧
    List.Forall₂ (fun (r : Ty × Nat) v => Val.HasTy v r.1) f.rets rs ∧ GoodRun f.ops args ∧
    rs.map Val.bits = [1] := by
  refine ⟨⟨[.int false 8, .int false 8, .int false 4],
    [.bin .addi (.int false 8) 0 1, .extsi 4 8 2, .bin .muli (.int false 8) 3 4,
      .cmpi .slt (.int false 8) 5 0], [(.int false 1, 6)]⟩, _,
    [.int false 8 100#8, .int false 8 100#8, .int false 4 0xF#4], [.int false 1 1#1], rfl, rfl, ?_, ?_,
    ?_, rfl⟩
  · exact .cons ⟨rfl, rfl, by decide⟩ (.cons ⟨rfl, rfl, by decide⟩ (.cons ⟨rfl, rfl, by decide⟩ .nil))
  · exact .cons ⟨rfl, rfl, by decide⟩ .nil
  · refine ⟨by simp [Good], fun v hv => ⟨trivial, fun v hv => ⟨by simp [Good], fun v hv => ⟨⟨?_, ?_⟩,
      fun v hv => trivial⟩⟩⟩⟩
    · intro _ h; simp at h
    · intro h; simp [kindOf] at h

/-- What the code does not do: on arguments without undefined behaviour, a steady state of the
emitted module has other outputs than the results. -/
def Differs (f : Func) (args : List Val) : Prop :=
  ∃ m env rs, emitFunc f = some m ∧ Steady m env ∧ Carries env args ∧
    runFunc f args = some rs ∧ outputsOf m env ≠ rs.map fun v => some v.bits

instance (m : Module) (env : Env) : Decidable (Steady m env) := by unfold Steady; infer_instance

theorem carries_two {env : Env} {a b : Val} (h0 : env 0 = some a.bits) (h1 : env 1 = some b.bits) :
    Carries env [a, b] := by
  intro i v hv
  match i with
  | 0 => simp only [List.getElem?_cons_zero, Option.some.injEq] at hv; subst hv; exact h0
  | 1 => simp only [List.getElem?_cons_succ, List.getElem?_cons_zero, Option.some.injEq] at hv
         subst hv; exact h1
  | i + 2 => simp at hv

theorem carries_one {env : Env} {a : Val} (h0 : env 0 = some a.bits) : Carries env [a] := by
  intro i v hv
  match i with
  | 0 => simp only [List.getElem?_cons_zero, Option.some.injEq] at hv; subst hv; exact h0
  | i + 1 => simp at hv

theorem carries_none (env : Env) : Carries env [] := by intro i v hv; simp at hv

/-- A function of one comparison. -/
def cmpFunc (p : Pred) (w : Nat) : Func :=
  ⟨[.int false w, .int false w], [.cmpi p (.int false w) 0 1], [(.int false 1, 2)]⟩

/-- Unsigned comparisons are emitted as comparisons of signed wires: for every width above one bit
there are operands on which the module is wrong. -/
theorem C127_unsigned_violated (w : Nat) (hw : 1 < w) :
    ∃ x y : BitVec w, Differs (cmpFunc .ult w) [.int false w x, .int false w y] := by
  have hmsb : (BitVec.allOnes w).msb = true := by
    rw [BitVec.msb_allOnes (by omega)]
  refine ⟨BitVec.allOnes w, 0#w, _, fun i => if i = 0 then some (BitVec.allOnes w).toNat else
    if i = 1 then some 0 else some 1, [.int false 1 0#1], rfl, ?_, ?_, ?_, ?_⟩
  · intro a ha
    have ha' : a = (2, .cmp .lt (.wire 0) (.wire 1)) := by simpa [cmpFunc, emitOps, emitExpr, nameOf, isIndexConst, emitPred] using ha
    subst ha'
    show some 1 = driven [wireDeclaration false w, wireDeclaration false w, wireDeclaration false 1] _
      1 _
    have ho : ∀ (i : Nat) (b : BitVec w) (env : Env), i < 2 → env i = some b.toNat →
        Opnd [wireDeclaration false w, wireDeclaration false w, wireDeclaration false 1] env (.wire i) w b := by
      intro i b env hi he
      have hd : declOf [wireDeclaration false w, wireDeclaration false w, wireDeclaration false 1] i =
          wireDeclaration false w := by
        match i, hi with
        | 0, _ => rfl
        | 1, _ => rfl
      have hwd : (declOf [wireDeclaration false w, wireDeclaration false w, wireDeclaration false 1] i).width
        = w := by rw [hd, wireDeclaration_width]
      exact ⟨hwd, by rw [sgn, hd, wireDeclaration_sgn], fun S => by rw [eval_wire hwd he, extend_self],
        by omega⟩
    symm
    refine driven_of (v := 1#1) rfl ?_
    rw [eval_cmp .lt (ho 0 (BitVec.allOnes w) _ (by omega) rfl) (ho 1 0#w _ (by omega) (by simp)),
      extend_self]
    have : compare .lt (w != 1) (BitVec.allOnes w) 0#w = true := by
      have : (w != 1) = true := by simp; omega
      simp only [compare, this, if_true, BitVec.slt_iff_toInt_lt]
      rw [BitVec.toInt_eq_msb_cond, hmsb, if_pos rfl]
      have := (BitVec.allOnes w).isLt
      simp
    rw [this]; rfl
  · exact carries_two rfl (by simp [Val.bits])
  · simp [runFunc, run, sem, cmpFunc, onTwo, asInt, sequence, predSem]
  · simp [outputsOf, cmpFunc, nameOf, driven, eval, size, sgn, Val.bits,
      resultTy, emitType, wireDeclaration, declOf, extend]

/-- A bit is an unsigned wire: signed comparisons of bits are wrong (`-1 < 0` is false). -/
theorem C127_bit_violated : Differs (cmpFunc .slt 1) [.int false 1 1#1, .int false 1 0#1] := by
  refine ⟨_, fun i => if i = 0 then some 1 else some 0, [.int false 1 1#1], rfl, by decide +kernel,
    carries_two rfl rfl, rfl, by decide +kernel⟩

/-- So are the maximum and the minimum of bits. -/
theorem C127_bit_max_violated :
    Differs ⟨[.int false 1, .int false 1], [.bin .maxsi (.int false 1) 0 1], [(.int false 1, 2)]⟩
      [.int false 1 1#1, .int false 1 0#1] := by
  refine ⟨_, fun i => if i = 1 then some 0 else some 1, [.int false 1 0#1], rfl, by decide +kernel,
    carries_two rfl rfl, rfl, by decide +kernel⟩

/-- A constant beyond 32 bits is printed as a number of 32 bits. -/
theorem C127_constant_violated : Differs ⟨[], [.const 64 0x100000001#64], [(.int false 64, 0)]⟩ [] := by
  refine ⟨_, fun _ => some 1, [.int false 64 0x100000001#64], rfl, by decide +kernel, carries_none _, rfl,
    by decide +kernel⟩

/-- A cast to `index` and back loses the sign: `index_cast` of a negative `i8`, compared with 0. -/
theorem C127_index_cast_violated :
    Differs ⟨[.int false 8], [.indexCast (.int false 8) .index 0, .indexConst 0,
      .cmpi .slt .index 1 2], [(.int false 1, 3)]⟩ [.int false 8 0x80#8] := by
  refine ⟨_, fun i => if i ≤ 1 then some 128 else some 0, [.int false 1 1#1], rfl, by decide +kernel,
    carries_one rfl, rfl, by decide +kernel⟩

/-! ## C128: constants of shaped types and tensors made of elements -/

/-- C128 (partial).  The bits of a printed constant are the elements in order, for element types of
whole hexadecimal digits, and it is always printed.  Missing: other widths (below). -/
theorem C128_constant_partial (w : Nat) (vals : List (BitVec w)) (h4 : 4 ∣ w) (hw : 0 < w) :
    ∃ e, printRawData w vals = some e ∧ ∀ (d : Decls) (env : Env) (k : Nat) (b : BitVec w),
      vals[k]? = some b → ∃ n, driven d env (w * vals.length) e = some n ∧
        n / 2 ^ (w * k) % 2 ^ w = b.toNat := by
  have hs : (hexData (w / 4) (vals.map BitVec.toNat)).isSome := by
    rw [hexData_isSome]
    intro v hv
    obtain ⟨b, hb, rfl⟩ := List.mem_map.mp hv
    have h1 := (hexDigits_length (w / 4 - 1) b.toNat).mpr (by
      have : w / 4 - 1 + 1 = w / 4 := by omega
      rw [this, show (16 : Nat) = 2 ^ 4 from rfl, ← pow_mul, Nat.mul_div_cancel' h4]
      exact b.isLt)
    omega
  obtain ⟨s, hs⟩ := Option.isSome_iff_exists.mp hs
  refine ⟨.hex (w * vals.length) (ofHexDigits s), by simp [printRawData, hs], fun d env k b hb => ?_⟩
  obtain ⟨h1, h2⟩ := dense_correct (d := d) (env := env) (vals := vals)
    (e := .hex (w * vals.length) (ofHexDigits s)) (by simp [printRawData, hs]) h4
  refine ⟨_, driven_of h1 h2, ?_⟩
  rw [BitVec.toNat_ofNat, Nat.mod_eq_of_lt (packed_lt vals)]
  exact packed_get vals k b hb

example : (4 ∣ 8) ∧ (printRawData 8 [0x63#8, 0x7c#8, 0x07#8]) = some (.hex 24 0x077c63) := by decide +kernel

/-- When printing fails: some element has more digits than the width divided by four, which for
every nonempty constant of elements below four bits is so. -/
theorem C128_crash_violated (w : Nat) (vals : List (BitVec w)) :
    printRawData w vals = none ↔ ∃ v ∈ vals, 16 ^ (w / 4) ≤ v.toNat ∨ w < 4 := by
  have hd : ∀ v : BitVec w, (w / 4 < (hexDigits v.toNat).length) ↔ (16 ^ (w / 4) ≤ v.toNat ∨ w < 4) := by
    intro v
    by_cases h4 : w < 4
    · have : (hexDigits v.toNat).length ≠ 0 := by rw [hexDigits]; split <;> simp
      have h0 : w / 4 = 0 := by omega
      rw [h0]
      constructor
      · intro _; exact Or.inr h4
      · intro _; omega
    · have := hexDigits_length (w / 4 - 1) v.toNat
      rw [show w / 4 - 1 + 1 = w / 4 by omega] at this
      constructor
      · intro h
        left
        by_contra hc
        have := this.mpr (by omega)
        omega
      · rintro (h | h)
        · by_contra hc
          have := this.mp (by omega)
          omega
        · omega
  have h := hexData_isSome (w / 4) (vals.map BitVec.toNat)
  unfold printRawData
  rw [Option.map_eq_none_iff, ← Option.not_isSome_iff_eq_none, h]
  simp only [List.forall_mem_map]
  constructor
  · intro hn
    by_contra hc
    apply hn
    intro v hv
    by_contra hlt
    exact hc ⟨v, hv, (hd v).mp (by omega)⟩
  · rintro ⟨v, hv, h1⟩ hall
    have := hall v hv
    have := (hd v).mpr h1
    omega

example : printRawData 1 [0#1, 1#1] = none := by decide +kernel

/-- Where the elements go: they are `4 * (w / 4)` bits apart, not `w`.  Elements of `i6` land in the
wrong bits. -/
theorem C128_constant_violated :
    Differs ⟨[], [.dense 6 [2] [1#6, 2#6], .indexConst 1, .load 6 [2] 0 [1]], [(.int false 6, 2)]⟩ [] := by
  refine ⟨⟨[⟨12, true⟩, ⟨32, true⟩, ⟨6, true⟩], 0, [(0, .hex 12 0x21), (2, .part 0
    (.bin .add (.lit 5) (.bin .mul (.lit 6) (.lit 1))) (.bin .mul (.lit 6) (.lit 1)) 6)],
    [(⟨6, true⟩, .wire 2)]⟩, fun i => if i = 0 then some 0x21 else some 0, [.int false 6 2#6],
    by decide +kernel, by decide +kernel,
    carries_none _, rfl, by decide +kernel⟩

/-- `tensor.from_elements` puts the first operand at the highest bits: element `k` of the wire is
operand `n - 1 - k`, whatever the operands. -/
theorem C128_from_elements_reversed {d : Decls} {env : Env} {w : Nat} (es : List Expr)
    (vs : List (BitVec w)) (e : Expr) (he : concatAll es = some e)
    (hv : List.Forall₂ (fun e v => Opnd d env e w v) es vs) (k : Nat) (hk : k < vs.length) :
    ∃ n, driven d env (w * vs.length) e = some n ∧
      n / 2 ^ (w * k) % 2 ^ w = (vs[vs.length - 1 - k]'(by omega)).toNat := by
  obtain ⟨h1, h2⟩ := concat_correct es vs e he hv
  obtain ⟨r, hr, hrn⟩ := h2 (sgn d e)
  refine ⟨packed vs.reverse, ?_, ?_⟩
  · rw [← hrn, ← h1]
    exact driven_of rfl hr
  · refine packed_get _ k _ ?_
    rw [List.getElem?_reverse hk, List.getElem?_eq_getElem (by omega)]

/-- Hence the tensor read back is the reverse of the one that was made. -/
theorem C128_from_elements_violated :
    Differs ⟨[.int false 8, .int false 8], [.fromElements 8 [0, 1], .indexConst 0,
      .load 8 [2] 2 [3]], [(.int false 8, 4)]⟩ [.int false 8 1#8, .int false 8 2#8] := by
  refine ⟨_, fun i => if i = 0 then some 1 else if i = 1 then some 2 else if i = 2 then some 0x102
    else some 2, [.int false 8 1#8], rfl, by decide +kernel, carries_two rfl rfl, rfl, by decide +kernel⟩

/-! ## C129: `tensor.insert` -/

/-- C129 (partial).  From the inserted element on, the result has the bits of the tensor with the
element replaced.  Missing: the bits below it and bit 0, which the first range gets wrong. -/
theorem C129_insert_partial {d : Decls} {env : Env} {i : Expr} {k w : Nat} (l : List (BitVec w))
    (v : BitVec w) (h : IdxExpr d env i k) (hw : 0 < w) (hk : k < l.length) (hn : l.length * w < 2 ^ 31)
    (j : Nat) (hj : k * w ≤ j) (hj0 : j ≠ 0) (hjn : j < l.length * w) :
    insertBit d env l.length w i (packed l) v.toNat j = some ((packed (l.set k v)).testBit j) := by
  rw [insertBit_eq h hw hk hn, if_neg hj0, List.nil_append]
  have hq : j / w < l.length := by rw [Nat.div_lt_iff_lt_mul hw]; exact hjn
  have hkw : (k + 1) * w = k * w + w := by ring
  by_cases hlt : j < (k + 1) * w
  · rw [if_pos ⟨hj, hlt⟩, if_neg (by omega), List.append_nil, resolve]
    have hd : j / w = k := by
      apply Nat.div_eq_of_lt_le
      · exact hj
      · exact hlt
    rw [packed_testBit hw _ j v (by rw [hd, List.getElem?_set_self hk])]
    have : j % w = j - k * w := by
      have := Nat.div_add_mod j w
      rw [hd, Nat.mul_comm] at this
      omega
    rw [this]
    rfl
  · rw [if_neg (by omega), if_pos ⟨by omega, by omega⟩, List.nil_append, resolve]
    have hne : k ≠ j / w := by
      intro hh
      have : j < (j / w + 1) * w := by
        have := Nat.lt_succ_iff.mpr (le_refl (j / w))
        rw [Nat.succ_eq_add_one] at this
        exact (Nat.div_lt_iff_lt_mul hw).mp this
      rw [← hh] at this
      exact hlt this
    obtain ⟨b, hb⟩ : ∃ b, l[j / w]? = some b := ⟨_, List.getElem?_eq_getElem hq⟩
    rw [packed_testBit hw l j b hb,
      packed_testBit hw (l.set k v) j b (by rw [List.getElem?_set_ne hne]; exact hb)]

example : ∃ (d : Decls) (env : Env) (i : Expr), IdxExpr d env i (1 : Nat) :=
  ⟨[], fun _ => none, .lit 1, idx_lit 1⟩

/-- The bits below the inserted element, but for bit 0, have no driver. -/
theorem C129_low_violated {d : Decls} {env : Env} {i : Expr} {k w n : Nat} (h : IdxExpr d env i k)
    (hw : 0 < w) (hk : k < n) (hn : n * w < 2 ^ 31) (dest value j : Nat) (hj : 0 < j) (hlt : j < k * w) :
    insertBit d env n w i dest value j = none := by
  have hkw : (k + 1) * w = k * w + w := by ring
  rw [insertBit_eq h hw hk hn, if_neg (by omega), if_neg (by omega), if_neg (by omega)]
  rfl

/-- An insertion at the start of a tensor has two drivers for bit 0, which is unknown unless the bit
stays what it was. -/
theorem C129_first_violated {d : Decls} {env : Env} {i : Expr} {w n : Nat}
    (h : IdxExpr d env i (0 : Nat)) (hw : 0 < w) (hk : 0 < n) (hn : n * w < 2 ^ 31) (dest value : Nat)
    (hb : dest.testBit 0 ≠ value.testBit 0) : insertBit d env n w i dest value 0 = none := by
  rw [insertBit_eq h hw hk hn, if_pos rfl, if_pos ⟨by omega, by omega⟩, if_neg (by omega)]
  simp only [List.append_nil, List.cons_append, List.nil_append, resolve, Nat.zero_mul, Nat.sub_zero,
    Option.some.injEq]
  rw [if_neg (fun hh => hb hh.symm)]

example : (0 : Nat) < 1 ∧ 1 * 1 < 2 ^ 31 ∧ (0 : Nat).testBit 0 ≠ (1 : Nat).testBit 0 := by decide

/-! ## C130: `math.ctlz` -/

/-- `c` is the number of zeros above the highest one. -/
def IsClz (x : BitVec 32) (c : Nat) : Prop :=
  c ≤ 32 ∧ (∀ i, 32 - c ≤ i → i < 32 → x.getLsbD i = false) ∧ (c < 32 → x.getLsbD (31 - c) = true)

/-- C130 (partial).  The count is right below 16 and, for zero, is 32.  Missing: all larger numbers,
on which the code looks at the wrong bits. -/
theorem C130_ctlz_partial (x : BitVec 32) (hx : x.toNat < 16) : IsClz x (emittedCtlz x).toNat := by
  have h : ∃ n, n < 16 ∧ x = BitVec.ofNat 32 n := ⟨x.toNat, hx, by simp⟩
  obtain ⟨n, hn, rfl⟩ := h
  have : ∀ n : Fin 16, (emittedCtlz (BitVec.ofNat 32 n)).toNat ≤ 32 ∧
      (∀ i : Fin 32, 32 - (emittedCtlz (BitVec.ofNat 32 n)).toNat ≤ i.val →
        (BitVec.ofNat 32 n).getLsbD i = false) ∧
      ((emittedCtlz (BitVec.ofNat 32 n)).toNat < 32 →
        (BitVec.ofNat 32 n).getLsbD (31 - (emittedCtlz (BitVec.ofNat 32 n)).toNat) = true) := by
    decide +kernel
  obtain ⟨h1, h2, h3⟩ := this ⟨n, hn⟩
  exact ⟨h1, fun i hi hlt => h2 ⟨i, hlt⟩ hi, h3⟩

example : (5#32).toNat < 16 ∧ (emittedCtlz 5#32).toNat = 29 := by decide

/-- On every multiple of `2^16` the count is 15, which is wrong from `2^17` on. -/
theorem C130_ctlz_violated (x : BitVec 32) (k : Nat) (h : x.toNat = k * 2 ^ 16) (hk : 1 < k) :
    ¬ IsClz x (emittedCtlz x).toNat := by
  rw [emittedCtlz_high x k h (by omega)]
  rintro ⟨-, h2, -⟩
  have hx := x.isLt
  have : x.toNat < 2 ^ 17 := by
    apply Nat.lt_pow_two_of_testBit
    intro i hi
    by_cases hlt : i < 32
    · exact h2 i (by omega) hlt
    · exact Nat.testBit_lt_two_pow (Nat.lt_of_lt_of_le hx (Nat.pow_le_pow_right (by omega) (by omega)))
  omega

example : (0x01000000#32).toNat = 256 * 2 ^ 16 ∧ (1 : Nat) < 256 := by decide

/-! ## C131: arguments of type `index` -/

/-- What a load at an argument of type `index` computes, on a tensor of `n` elements. -/
def loadAt (n w : Nat) (d : Decls) (env : Env) : Option Nat :=
  (variableLoad 0 w [n] [.wire 1]).bind fun e => driven d env w e

/-- The bounds of the select, with the sign that the wire of the argument gives. -/
theorem loadAt_eq {n w : Nat} {d : Decls} {env : Env} {l : List (BitVec w)} {i iw : Nat} {x : Int}
    (h1 : (declOf d 1).width = iw) (hiw : iw ≤ 32) (he0 : env 0 = some (packed l)) (he : env 1 = some i)
    (hx : extend (declOf d 1).signed (BitVec.ofNat iw i) 32 = BitVec.ofInt 32 x)
    (hlo : -(2 ^ 31) ≤ w * x ∧ w - 1 + w * x < 2 ^ 31) (hpos : (declOf d 1).signed = false → 0 ≤ x)
    (hw : 0 < w) :
    loadAt n w d env = (selectBits (declOf d 0).width (packed l) (w - 1 + w * x) (w * x) w).map
      BitVec.toNat := by
  generalize hS : (declOf d 1).signed = S at hx hpos
  have hwc : ((w - 1 : Nat) : Int) = (w : Int) - 1 := by omega
  have hwx : S = false → 0 ≤ (w : Int) * x := fun h => Int.mul_nonneg (by omega) (hpos h)
  have hb : ∀ y : Int, -(2 ^ 31) ≤ y → y < 2 ^ 31 → (S = false → 0 ≤ y) →
      toBound S (BitVec.ofInt 32 y) = y := by
    intro y h0 h1 h2
    unfold toBound
    cases S with
    | true => rw [if_pos rfl]; exact toInt_ofInt_small h0 h1
    | false =>
      rw [if_neg (by simp), BitVec.toNat_ofInt]
      have := h2 rfl
      rw [Int.toNat_of_nonneg (Int.emod_nonneg _ (by omega))]
      exact Int.emod_eq_of_lt this (by omega)
  have hsz : size d (.bin .mul (.lit w) (.wire 1)) = 32 := by
    simp only [size, litWidth, h1]; omega
  have hsg : sgn d (.bin .mul (.lit w) (.wire 1)) = S := by simp [sgn, hS]
  have hlit : ∀ m : Nat, eval d env (.lit m) 32 S = some (BitVec.ofInt 32 m) := by
    intro m
    simp only [eval]
    rw [show litWidth = 32 from rfl, extend_self, BitVec.ofInt_natCast]
  have hmul : eval d env (.bin .mul (.lit w) (.wire 1)) 32 S = some (BitVec.ofInt 32 (w * x)) := by
    rw [eval.eq_5, hlit, eval.eq_1, he, h1, Option.map_some, hx, BitVec.ofInt_mul]
    rfl
  have hsz2 : size d (.bin .add (.lit (w - 1)) (.bin .mul (.lit w) (.wire 1))) = 32 := by
    rw [size, hsz]; rfl
  have hsg2 : sgn d (.bin .add (.lit (w - 1)) (.bin .mul (.lit w) (.wire 1))) = S := by
    rw [sgn, hsg]; rfl
  have hadd : eval d env (.bin .add (.lit (w - 1)) (.bin .mul (.lit w) (.wire 1))) 32 S =
      some (BitVec.ofInt 32 (w - 1 + w * x)) := by
    rw [eval.eq_5, hlit, hmul, hwc, BitVec.ofInt_add]
    rfl
  unfold loadAt variableLoad
  simp only [flattenIndexExpression, List.tail_cons, flattenFrom, Option.map_some, Option.bind_some]
  unfold driven
  rw [show size d (.part 0 (.bin .add (.lit (w - 1)) (.bin .mul (.lit w) (.wire 1)))
    (.bin .mul (.lit w) (.wire 1)) w) = w from rfl, Nat.max_self, eval.eq_11, he0, hsz, hsg, hsz2, hsg2,
    hadd, hmul]
  simp only [Option.bind_some]
  rw [hb _ (by omega) hlo.2 (fun h => by have := hwx h; omega), hb _ hlo.1 (by omega) hwx]
  cases selectBits (declOf d 0).width (packed l) (w - 1 + w * x) (w * x) w with
  | none => rfl
  | some v => simp [extend_self]

/-- The declarations of a function of a tensor of `n` elements and an `index` that reads it. -/
def loadDecls (n w : Nat) : Decls := [emitType (.arr w [n]), indexArgWire n]

theorem pow_indexWidth_le {n : Nat} (h : n < 2 ^ 31) : indexWidth n ≤ 31 := by
  by_cases h2 : 2 ≤ n
  · have := (indexWidth_gt h2).2
    by_contra hc
    have := Nat.pow_le_pow_right (n := 2) (by omega) (by omega : 31 ≤ indexWidth n - 1)
    omega
  · have : n = 0 ∨ n = 1 := by omega
    rcases this with rfl | rfl <;> decide

/-- C131.  The wire of an argument has bits for every index that the tensors it reads have. -/
theorem C131_width (uses : List Nat) (n i : Nat) (hn : n ∈ uses) (hi : i < n) :
    i < 2 ^ (indexArgWire (maxShapedTypeSize uses)).width := by
  have hmax : ∀ (l : List Nat) (a : Nat), a ≤ l.foldl max a ∧ ∀ n ∈ l, n ≤ l.foldl max a := by
    intro l
    induction l with
    | nil => intro a; simp
    | cons x l ih =>
      intro a
      obtain ⟨h1, h2⟩ := ih (max a x)
      refine ⟨by rw [List.foldl_cons]; omega, fun n hn => ?_⟩
      rw [List.foldl_cons]
      rcases List.mem_cons.mp hn with rfl | h
      · omega
      · exact h2 n h
  have h := indexWidth_le (n := maxShapedTypeSize uses) (i := i)
    (Nat.lt_of_lt_of_le hi ((hmax uses 0).2 n hn))
  unfold indexArgWire
  split
  · rename_i h0
    rw [h0] at h
    show i < 2 ^ 2
    omega
  · rw [wireDeclaration_width]
    exact h

example : (5 : Nat) ∈ [3, 5] ∧ (indexArgWire (maxShapedTypeSize [3, 5])) = ⟨3, true⟩ := by decide +kernel

/-- C131 (partial).  A load at an argument reads the element, in the lower half of the range of the
wire or from at most two elements.  Missing: the upper half, where the index is negative. -/
theorem C131_load_partial {w : Nat} (l : List (BitVec w)) (i : Nat) (b : BitVec w) (env : Env)
    (hw : 0 < w) (hb : l[i]? = some b) (hbig : l.length * w < 2 ^ 31)
    (hlow : l.length ≤ 2 ∨ i < 2 ^ (indexWidth l.length - 1)) (he0 : env 0 = some (packed l))
    (he : env 1 = some i) : loadAt l.length w (loadDecls l.length w) env = some b.toNat := by
  have hi : i < l.length := by
    by_contra hc
    rw [List.getElem?_eq_none (by omega)] at hb
    simp at hb
  have hlen : l.length < 2 ^ 31 := by
    have : l.length * 1 ≤ l.length * w := Nat.mul_le_mul_left _ hw
    omega
  have hiw := pow_indexWidth_le hlen
  have hd0 : (declOf (loadDecls l.length w) 0).width = l.length * w := by
    show (emitType (.arr w [l.length])).width = _
    simp [emitType, wireDeclaration_width]
  have hd1 : declOf (loadDecls l.length w) 1 = indexArgWire l.length := rfl
  have hwi : w * i + w ≤ l.length * w := by
    calc w * i + w = (i + 1) * w := by ring
      _ ≤ l.length * w := Nat.mul_le_mul_right _ hi
  have hci : (w : Int) * (i : Int) = ((w * i : Nat) : Int) := by push_cast; ring
  have hext : extend (indexArgWire l.length).signed
      (BitVec.ofNat (indexArgWire l.length).width i) 32 = BitVec.ofInt 32 (i : Int) := by
    rw [BitVec.ofInt_natCast]
    by_cases h1 : l.length = 1
    · have : i = 0 := by omega
      subst this
      rw [h1]; decide
    · by_cases h2 : l.length = 2
      · rw [h2] at hi ⊢
        have : i = 0 ∨ i = 1 := by omega
        rcases this with rfl | rfl <;> decide
      · have h3 := indexWidth_gt (n := l.length) (by omega)
        have hlow := hlow.resolve_left (by omega)
        have hne : indexWidth l.length ≠ 1 := by
          intro hh
          have := indexWidth_le (n := l.length) (i := l.length - 1) (by omega)
          rw [hh] at this
          omega
        have hwire : indexArgWire l.length = ⟨indexWidth l.length, true⟩ := by
          unfold indexArgWire
          rw [if_neg (by omega), wireDeclaration, if_neg hne]; rfl
        rw [hwire]
        have hp := Nat.pow_le_pow_right (n := 2) (by omega) (by omega : indexWidth l.length - 1 ≤ 30)
        have hpp : 2 ^ indexWidth l.length = 2 * 2 ^ (indexWidth l.length - 1) := by
          rw [← pow_succ']; congr 1; omega
        show extend true (BitVec.ofNat (indexWidth l.length) i) 32 = _
        unfold extend
        rw [if_pos rfl]
        apply BitVec.eq_of_toInt_eq
        rw [BitVec.toInt_signExtend_of_le (by omega)]
        rw [BitVec.toInt_ofNat', BitVec.toInt_ofNat', Int.bmod_eq_of_le, Int.bmod_eq_of_le]
        all_goals first | (rw [hpp]; push_cast; omega) | omega
  have hwd : (indexArgWire l.length).width ≤ 32 := by
    unfold indexArgWire
    split
    · decide
    · rw [wireDeclaration_width]; omega
  rw [loadAt_eq (l := l) (i := i) (x := (i : Int)) (iw := (indexArgWire l.length).width)
    (by rw [hd1]) hwd he0 he (by rw [hd1]; exact hext) (by rw [hci]; omega) (fun _ => by omega) hw, hd0,
    select_packed l rfl i b hb hw]
  rfl

example : ([1#8, 2#8, 3#8, 4#8] : List (BitVec 8))[1]? = some 2#8 ∧ 1 < 2 ^ (indexWidth 4 - 1) := by
  decide +kernel

/-- In the upper half of its range the index is negative and the load selects no bits of the
tensor; every tensor of three or more elements has such an index. -/
theorem C131_load_violated {w : Nat} (l : List (BitVec w)) (i : Nat) (env : Env) (hw : 0 < w)
    (hbig : 2 * (l.length * w) < 2 ^ 31) (h3 : 3 ≤ l.length) (hi : i < l.length)
    (hup : 2 ^ (indexWidth l.length - 1) ≤ i) (he0 : env 0 = some (packed l)) (he : env 1 = some i) :
    loadAt l.length w (loadDecls l.length w) env = none := by
  have hlen : l.length < 2 ^ 31 := by
    have : l.length * 1 ≤ l.length * w := Nat.mul_le_mul_left _ hw
    omega
  have hiw := pow_indexWidth_le hlen
  have hg := indexWidth_gt (n := l.length) (by omega)
  have hle := indexWidth_le hi
  have hne : indexWidth l.length ≠ 1 := by
    intro hh
    have := indexWidth_le (n := l.length) (i := l.length - 1) (by omega)
    rw [hh] at this
    omega
  have hwire : indexArgWire l.length = ⟨indexWidth l.length, true⟩ := by
    unfold indexArgWire
    rw [if_neg (by omega), wireDeclaration, if_neg hne]; rfl
  have hd1 : declOf (loadDecls l.length w) 1 = ⟨indexWidth l.length, true⟩ := hwire
  have hpp : 2 ^ indexWidth l.length = 2 * 2 ^ (indexWidth l.length - 1) := by
    rw [← pow_succ']; congr 1; omega
  obtain ⟨P, hP⟩ : ∃ P, P = 2 ^ (indexWidth l.length - 1) := ⟨_, rfl⟩
  rw [← hP] at hup hg hpp
  have hP31 : P < 2 ^ 31 := by omega
  have hext : extend true (BitVec.ofNat (indexWidth l.length) i) 32 =
      BitVec.ofInt 32 ((i : Int) - ((2 * P : Nat) : Int)) := by
    unfold extend
    rw [if_pos rfl]
    apply BitVec.eq_of_toInt_eq
    rw [BitVec.toInt_signExtend_of_le (by omega), BitVec.toInt_ofNat',
      toInt_ofInt_small (by omega) (by omega), hpp]
    have : ((i : Int)).bmod (2 * P) = ((i : Int) - ((2 * P : Nat) : Int)).bmod (2 * P) := by
      rw [Int.sub_bmod_right]
    rw [this, Int.bmod_eq_of_le (by push_cast; omega) (by push_cast; omega)]
  obtain ⟨q, hq⟩ : ∃ q : Nat, (i : Int) - ((2 * P : Nat) : Int) = -(q : Int) ∧ 0 < q ∧ q ≤ l.length :=
    ⟨2 * P - i, by omega, by omega, by omega⟩
  have hwq : w * q ≤ l.length * w := by
    rw [Nat.mul_comm]; exact Nat.mul_le_mul_right _ hq.2.2
  have hwq0 : w ≤ w * q := Nat.le_mul_of_pos_right _ hq.2.1
  have hcast : (w : Int) * (-(q : Int)) = -((w * q : Nat) : Int) := by push_cast; ring
  rw [hq.1] at hext
  rw [loadAt_eq (l := l) (i := i) (x := -(q : Int)) (iw := indexWidth l.length)
    (by rw [hd1]) (by omega) he0 he (by rw [hd1]; exact hext) (by rw [hcast]; omega)
    (fun h => by rw [hd1] at h; simp at h) hw, hcast]
  unfold selectBits
  rw [if_neg (by omega)]
  rfl

example : 3 ≤ ([1#8, 2#8, 3#8, 4#8] : List (BitVec 8)).length ∧ 2 ^ (indexWidth 4 - 1) ≤ 3 := by
  decide +kernel

end Heir.Verilog
