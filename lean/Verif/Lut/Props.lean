import Verif.Lut.Bits

/-! # Properties of lookup tables and boolean gates on ciphertexts -/

namespace Heir.Lut

/-! ## C95: tables and gates are computed by every back end -/

/-- The gates are what their names say, on numbers: the conjunction is the product, and so on. -/
theorem C95_gate_meaning (x y : Bool) :
    (Gate.and.eval x y).toNat = x.toNat * y.toNat ∧
      (Gate.nand.eval x y).toNat + x.toNat * y.toNat = 1 ∧
      (Gate.or.eval x y).toNat = max x.toNat y.toNat ∧
      (Gate.nor.eval x y).toNat + max x.toNat y.toNat = 1 ∧
      (Gate.xor.eval x y).toNat = (x.toNat + y.toNat) % 2 ∧
      (Gate.xnor.eval x y).toNat = (x.toNat + y.toNat + 1) % 2 := by
  cases x <;> cases y <;> decide

/-- Programs whose tables have three or four inputs are converted. -/
theorem C95_converted {e : Comb} (h : e.Supported) : ∃ c, secretToCggi e = some c :=
  secretToCggi_supported h

/-- What the conversion emits has the value of the program. -/
theorem C95_secretToCggi {e : Comb} {c : Cggi} (h : secretToCggi e = some c) (env : Nat → Bool) :
    c.value env = e.value env :=
  secretToCggi_value env h

/-- A program with a table: with the message bits that the pass chose, the decomposition passes the
verifiers and computes the program on encrypted bits, whether combinations are expanded or not.
Missing: programs with gates only, see `C95_gates_violated`. -/
theorem C95_decompose_partial {e : Comb} {c : Cggi} (expand : Bool) (hs : e.Supported)
    (ht : e.HasTable) (h : secretToCggi e = some c) :
    (decompose expand c).verify (findLUTSize e.ops) ∧
      ∀ env : Nat → Bool,
        (decompose expand c).eval (findLUTSize e.ops) (fun i => enc (findLUTSize e.ops) (env i)) =
          enc (findLUTSize e.ops) (e.value env) := by
  obtain ⟨n, h3, hn⟩ := hasTable_ops h ht
  have hp : n ≤ findLUTSize e.ops := le_findLUTSize hn
  have hall : ∀ o ∈ e.ops, o.size ≤ findLUTSize e.ops := fun o ho => le_findLUTSize ho
  refine ⟨decompose_verify (by omega) expand hs h hall, fun env => ?_⟩
  rw [decompose_eval (by omega) expand env c (fits_of_fitsTables (by omega) (fitsTables h hall)),
    secretToCggi_value env h]

/-- What the verifiers accept before combinations are expanded is right: whatever the number of
message bits, a decomposition that is accepted computes the program. -/
theorem C95_verified {c : Cggi} {p : Nat} (hp : 1 ≤ p) (h : (decompose false c).verify p)
    (env : Nat → Bool) :
    (decompose false c).eval p (fun i => enc p (env i)) = enc p (c.value env) :=
  decompose_eval hp false env c (fits_of_verify h)

/-- The tfhe-rust back end computes every converted program with the message bits chosen. -/
theorem C95_tfheRust {e : Comb} {c : Cggi} (h : secretToCggi e = some c) (env : Nat → Bool) :
    (toTfheRust c).eval (findLUTSize e.ops) (fun i => enc (findLUTSize e.ops) (env i)) =
      enc (findLUTSize e.ops) (e.value env) := by
  rw [toTfheRust_eval (one_le_findLUTSize _) env c
    (fitsTables h fun o ho => le_findLUTSize ho), secretToCggi_value env h]

/-- A result of a back end is decrypted to the bit that was computed. -/
theorem C95_decrypt (e : Comb) (b : Bool) :
    dec (enc (findLUTSize e.ops) b) = b ∧ (enc (findLUTSize e.ops) b).toNat = b.toNat :=
  ⟨dec_enc (one_le_findLUTSize _) b, enc_toNat (one_le_findLUTSize _) b⟩

/-- The jaxite back end computes every table of three inputs. -/
theorem C95_jaxite (c b a : Bool) {t : Nat} (ht : t < 2 ^ 2 ^ 3) :
    Lut3.toJaxite ⟨c, b, a, t⟩ = t.testBit (index [c, b, a]) := by
  have e : 4 * c.toNat + 2 * b.toNat + a.toNat = index [c, b, a] := by
    cases c <;> cases b <;> cases a <;> rfl
  have hi : index [c, b, a] < 8 := index_lt [c, b, a]
  simp only [Lut3.toJaxite, jaxiteLut3, e, BitVec.getLsbD_ofNat, hi, decide_true, Bool.true_and]

/-- The conjunction of two secrets, without tables, gets one message bit, and the decomposition of
its gate is rejected. -/
theorem C95_gates_violated :
    let e : Comb := .gate .and (.secret 0) (.secret 1)
    e.Supported ∧ ∃ c, secretToCggi e = some c ∧ findLUTSize e.ops = 1 ∧
      ∀ expand, ¬ (decompose expand c).verify (findLUTSize e.ops) := by
  refine ⟨⟨trivial, trivial⟩, .gate .and (.arg 0) (.arg 1), rfl, rfl, fun expand h => ?_⟩
  have := h.2
  revert this
  decide +kernel

/-- With two message bits, a table of three inputs whose outputs above 3 are zero is accepted once it
is expanded, and the coefficient 4 vanishes: the negated disjunction of three bits is 1 on
`(1, 0, 0)`. -/
theorem C95_expanded_violated :
    let c : Cggi := .lut3 (.arg 0) (.arg 1) (.arg 2) 1
    let env : Nat → Bool := fun i => i == 0
    (decompose true c).verify 2 ∧ ¬ (decompose false c).verify 2 ∧ c.value env = false ∧
      (decompose true c).eval 2 (fun i => enc 2 (env i)) = enc 2 true := by
  refine ⟨?_, ?_, ?_, ?_⟩
  · refine ⟨⟨⟨trivial, trivial⟩, trivial⟩, ?_⟩
    decide +kernel
  · intro h
    have := h.2.1 0
    revert this
    decide +kernel
  · decide +kernel
  · decide +kernel

/-- The majority of three bits, negated, and a gate: an instance of the hypotheses. -/
example :
    let maj : Comb := .table 3 (fun i => .secret i) 0xE8
    let e : Comb := .gate .xor (.inv maj) (.secret 3)
    e.Supported ∧ e.HasTable ∧ (∃ c, secretToCggi e = some c) ∧ findLUTSize e.ops = 3 ∧
      e.value (fun i => i == 1 || i == 2) = false := by
  refine ⟨⟨⟨fun i => trivial, Or.inl rfl, by decide⟩, trivial⟩, Or.inl trivial, ⟨_, rfl⟩, ?_, ?_⟩
  · decide +kernel
  · decide +kernel

/-- An accepted decomposition with more message bits than needed. -/
example : (decompose false (.lut3 (.arg 0) (.arg 1) (.trivial true) 0xE8)).verify 4 := by
  refine ⟨?_, ?_, ?_⟩
  · intro i
    match i with
    | ⟨0, _⟩ => exact trivial
    | ⟨1, _⟩ => exact trivial
    | ⟨2, _⟩ => exact trivial
  · decide +kernel
  · decide +kernel

/-- The table of `a ∧ ¬ b` with `c` ignored. -/
example : Lut3.toJaxite ⟨true, false, true, 0x22⟩ = true ∧ (0x22 : Nat) < 2 ^ 2 ^ 3 := by
  decide +kernel

/-! ## C96: tables on clear inputs -/

/-- What the selections emitted for a table on clear inputs compute: the bit whose number is written
by the *negated* inputs with the *first* input the least significant. -/
theorem C96_select_partial {n : Nat} (lut : BitVec (2 ^ n)) {ins : List Bool} (h : ins.length = n) :
    (buildSelect n lut).eval ins = lut.getLsbD (index (ins.map not).reverse) := by
  rw [buildSelect_eval ins n lut (by omega), List.take_of_length_le (by omega)]

/-- The selections are right exactly for tables that do not change when the inputs are negated and
reversed. -/
theorem C96_select_iff {n : Nat} (lut : BitVec (2 ^ n)) :
    (∀ ins : List Bool, ins.length = n →
      (buildSelect n lut).eval ins = lut.getLsbD (index ins)) ↔
    ∀ ins : List Bool, ins.length = n →
      lut.getLsbD (index (ins.map not).reverse) = lut.getLsbD (index ins) := by
  constructor
  · intro H ins h
    rw [← H ins h, C96_select_partial lut h]
  · intro H ins h
    rw [← H ins h, C96_select_partial lut h]

/-- The conjunction of three clear bits becomes the negation of their disjunction. -/
theorem C96_select_violated :
    (buildSelect 3 (0x80#8)).eval [true, true, true] = false ∧
      (0x80#8).getLsbD (index [true, true, true]) = true ∧
      (buildSelect 3 (0x80#8)).eval [false, false, false] = true := by
  decide +kernel

/-- A table that is computed: the exclusive or of two bits. -/
example : ∀ ins : List Bool, ins.length = 2 →
    (6#4).getLsbD (index (ins.map not).reverse) = (6#4).getLsbD (index ins) := by
  intro ins h
  match ins, h with
  | [a, b], _ => revert a b; decide

/-! ## C97: concealing clear integers -/

/-- A concealed integer has the bits of the integer, from the least significant one. -/
theorem C97_integer {w : Nat} (x : BitVec w) :
    (concealInt x).length = w ∧ ∀ i, (concealInt x).getD i false = x.getLsbD i := by
  unfold concealInt
  rw [encodeElement_eq]
  refine ⟨by simp, fun i => ?_⟩
  by_cases h : i < w
  · simp [List.getD, h]
  · rw [List.getD_eq_default _ _ (by simpa using h), BitVec.getLsbD_of_ge _ _ (by omega)]

theorem go_ones : ∀ k : Nat, unflattenIndex.go 0 ((List.replicate k 1).map fun d : Nat => (d : Int)) =
    some (List.replicate k 0)
  | 0 => rfl
  | k + 1 => by
    have h := go_ones k
    simp only [List.replicate_succ, List.map_cons, unflattenIndex.go]
    rw [if_neg (by decide), show ((0 : Int).tmod ((1 : Nat) : Int)) = 0 from rfl, h]
    rfl

theorem rowMajor_ones : ∀ k : Nat,
    extractAt.rowMajor (List.replicate k 1) (List.replicate k 0) = some 0
  | 0 => rfl
  | k + 1 => by
    simp [List.replicate_succ, extractAt.rowMajor, rowMajor_ones k]

/-- A tensor with one element, of any rank but zero, is concealed as its element. Missing: tensors
with more elements, see `C97_vector_violated` and `C97_matrix_violated`. -/
theorem C97_tensor_partial {w : Nat} (k : Nat) (x : BitVec w) :
    concealTensor (List.replicate (k + 1) 1) [x] = some (tensorBits [x]) := by
  unfold concealTensor
  rw [if_neg (by simp [List.replicate_succ])]
  have hp : (List.replicate (k + 1) 1).prod = 1 := by simp
  rw [hp]
  simp only [List.range_one, List.map_cons, List.map_nil, unflattenIndex, Int.ofNat_zero,
    Nat.cast_zero, sub_zero, Option.bind_some, extractAt]
  rw [go_ones]
  simp only [Option.bind_some, extractAt]
  rw [rowMajor_ones]
  simp [allSome, encodeElement_eq, tensorBits]

/-- A vector is concealed as copies of its first element. -/
theorem C97_vector_exact {w : Nat} (x : BitVec w) (xs : List (BitVec w)) :
    concealTensor [(x :: xs).length] (x :: xs) =
      some (tensorBits (List.replicate (x :: xs).length x)) := by
  unfold concealTensor
  rw [if_neg (by simp)]
  have e : (List.range [(x :: xs).length].prod).map (fun i : Nat =>
      (unflattenIndex i 0 ([(x :: xs).length].map (fun d : Nat => (d : Int)))).bind fun idx =>
        (extractAt [(x :: xs).length] (x :: xs) idx).map encodeElement) =
      (List.replicate (x :: xs).length (encodeElement x)).map some := by
    rw [List.map_replicate]
    apply List.eq_replicate_iff.2
    refine ⟨by simp, fun b hb => ?_⟩
    obtain ⟨i, hi, rfl⟩ := List.mem_map.1 hb
    have hi' : i < (x :: xs).length := by simpa using hi
    generalize hn : (x :: xs).length = n at *
    have hd : (i : Int).tdiv n = 0 := by
      rw [Int.tdiv_eq_ediv_of_nonneg (Int.natCast_nonneg i)]
      exact Int.ediv_eq_zero_of_lt (Int.natCast_nonneg i) (by exact_mod_cast hi')
    have hnz : ¬ ((n : Int) = 0) := by omega
    have hlt : (0 : Int) < (n : Int) := by omega
    simp only [List.map_cons, List.map_nil, unflattenIndex, unflattenIndex.go, sub_zero, if_neg hnz,
      hd, Option.map_some, Option.bind_some, extractAt, extractAt.rowMajor, le_refl, hlt, and_self,
      if_true]
    rfl
  rw [e, allSome_eq.2 rfl]
  simp [tensorBits, encodeElement_eq]

/-- The vector `[0, 1]` is concealed as `[0, 0]`. -/
theorem C97_vector_violated :
    concealTensor [2] [0#8, 1#8] = some (tensorBits [0#8, 0#8]) ∧
      tensorBits [0#8, 0#8] ≠ tensorBits [0#8, 1#8] := by
  decide +kernel

/-- A matrix with two rows and three columns is read out of bounds, whatever its elements. -/
theorem C97_matrix_violated {w : Nat} (elems : List (BitVec w)) : concealTensor [2, 3] elems = none := by
  have h4 : (unflattenIndex 4 0 ([2, 3].map (fun d : Nat => (d : Int)))).bind (fun idx =>
        (extractAt [2, 3] elems idx).map encodeElement) = none := rfl
  cases h : concealTensor [2, 3] elems with
  | none => rfl
  | some r =>
    unfold concealTensor at h
    rw [if_neg (by simp), Option.map_eq_some_iff] at h
    obtain ⟨l, hl, -⟩ := h
    have hl' := allSome_eq.1 hl
    have h5 := congrArg (fun l => l[4]?) hl'
    have e4 : (List.range [2, 3].prod)[4]? = some 4 := by decide
    simp only [List.getElem?_map, e4, Option.map_some] at h5
    have h4' : ((unflattenIndex ((4 : Nat) : Int) 0 ([2, 3].map (fun d : Nat => (d : Int)))).bind
      (fun idx => (extractAt [2, 3] elems idx).map encodeElement)) = none := h4
    rw [h4'] at h5
    cases h6 : l[4]? <;> simp [h6] at h5

/-- The conversions between positions and indices of the same file are inverse to each other with
the strides of the row-major order and any offset. -/
theorem C97_flatten {idx : List Int} {shape : List Nat} (h : InShape idx shape) (off : Int) :
    ∃ k, extractAt.rowMajor shape idx = some k ∧ k < shape.prod ∧
      flattenIndex off idx (rowStrides shape) = some (off + k) ∧
      unflattenIndex (off + k) off (rowStrides shape) = some idx := by
  obtain ⟨k, hk, hlt, hf⟩ := rowMajor_eq h
  refine ⟨k, hk, hlt, hf off, ?_⟩
  unfold unflattenIndex
  rw [add_sub_cancel_left]
  exact unflatten_go h k hk

example : concealInt 5#4 = [true, false, true, false] := by decide
example : concealTensor [1, 1] [9#4] = some [true, false, false, true] := by decide +kernel
example : InShape [1, 2, 0] [2, 3, 4] ∧ flattenIndex 7 [1, 2, 0] (rowStrides [2, 3, 4]) = some 27 ∧
    unflattenIndex 27 7 (rowStrides [2, 3, 4]) = some [1, 2, 0] := by
  refine ⟨by simp [InShape], by decide, by decide⟩

/-! ## C98: batched operations -/

/-- A batch of gates computes each gate. -/
theorem C98_gates (l : List (Gate × Bool × Bool)) :
    packedGates (batchGates l) = l.map fun x => x.1.eval x.2.1 x.2.2 := by
  unfold packedGates batchGates
  induction l with
  | nil => rfl
  | cons x l ih => simpa using ih

/-- A batch of tables computes each table with the inputs in the *reverse* order. Missing: tables
that change when their first and last input are exchanged, see `C98_lut3_violated`. -/
theorem C98_lut3_partial (l : List Lut3) (ht : ∀ x ∈ l, x.t < 2 ^ 2 ^ 3) :
    (batchLut3 l).toJaxite = some (l.map fun x => x.t.testBit (index [x.a, x.b, x.c])) := by
  unfold Packed.toJaxite
  rw [allSome_eq]
  apply List.ext_getElem
  · simp [batchLut3]
  · intro i h1 h2
    have hi : i < l.length := by simpa using h2
    simp only [batchLut3, List.getElem_ofFn, List.getElem?_map, List.getElem_map,
      List.getElem?_eq_getElem hi, Option.map_some, Option.bind_some]
    exact congrArg some (C95_jaxite (l[i].a) (l[i].b) (l[i].c) (ht _ (List.getElem_mem hi)))

/-- The batch is right exactly when each table gives the same with the inputs reversed. -/
theorem C98_lut3_iff (l : List Lut3) (ht : ∀ x ∈ l, x.t < 2 ^ 2 ^ 3) :
    (batchLut3 l).toJaxite = some (l.map fun x => x.t.testBit (index [x.c, x.b, x.a])) ↔
      ∀ x ∈ l, x.t.testBit (index [x.a, x.b, x.c]) = x.t.testBit (index [x.c, x.b, x.a]) := by
  rw [C98_lut3_partial l ht, Option.some.injEq, List.map_inj_left]

/-- The table that returns `a`: the batch returns `c`. -/
theorem C98_lut3_violated :
    let l : List Lut3 := [⟨true, false, false, 0xAA⟩]
    (batchLut3 l).toJaxite = some [true] ∧ l.map Lut3.toJaxite = [false] := by
  decide +kernel

/-- Majority and sum of three bits are symmetric: batches of full adders are right. -/
example : ∀ x ∈ ([⟨true, false, false, 0xE8⟩, ⟨false, true, true, 0x96⟩] : List Lut3),
    x.t < 2 ^ 2 ^ 3 ∧ x.t.testBit (index [x.a, x.b, x.c]) = x.t.testBit (index [x.c, x.b, x.a]) := by
  intro x hx
  simp only [List.mem_cons, List.not_mem_nil, or_false] at hx
  rcases hx with rfl | rfl <;> decide +kernel

/-! ## C99: tables imported from Yosys -/

/-- A table of up to five inputs: the operation built from the ports of a cell computes the cell,
whose output is the port numbered by its inputs, `A` the least significant. Missing: more inputs, see
`C99_import_violated`. -/
theorem C99_import_partial {k : Nat} (hk : k ≤ 5) {ports ins : List Bool} (hp : ports.length = 2 ^ k)
    (hi : ins.length = k) :
    ∃ t, importTable k ports = some t ∧
      t.toNat.testBit (index (importInputs ins)) = ports.getD (lsbIndex ins) false := by
  have h32 : 2 ^ k ≤ 2 ^ 5 := pow_le_pow_of_le hk
  obtain ⟨r, hr, he⟩ := importLoop_eq ports 0 0 (by omega)
  refine ⟨r.setWidth (2 ^ k), by rw [importTable, hr]; rfl, ?_⟩
  rw [importInputs_eq, index_reverse]
  have hlt : lsbIndex ins < 2 ^ k := by
    have := index_lt ins.reverse
    rw [index_reverse, List.length_reverse, hi] at this
    exact this
  rw [← BitVec.getLsbD, BitVec.getLsbD_setWidth, he _ (by omega)]
  simp [hlt]

/-- From six inputs on the shifts are undefined. -/
theorem C99_import_violated {k : Nat} (hk : 6 ≤ k) {ports : List Bool} (hp : ports.length = 2 ^ k) :
    importTable k ports = none := by
  have h64 : 2 ^ 6 ≤ 2 ^ k := pow_le_pow_of_le hk
  rw [importTable, importLoop_ub ports 0 0 (by omega) (by omega)]
  rfl

/-- With up to five inputs there is no other outcome: the table is that of the ports. -/
theorem C99_table_partial {k : Nat} (hk : k ≤ 5) {ports : List Bool} (hp : ports.length = 2 ^ k) :
    ∃ t, importTable k ports = some t ∧ ∀ i < 2 ^ k, t.getLsbD i = ports.getD i false := by
  have h32 : 2 ^ k ≤ 2 ^ 5 := pow_le_pow_of_le hk
  obtain ⟨r, hr, he⟩ := importLoop_eq ports 0 0 (by omega)
  refine ⟨r.setWidth (2 ^ k), by rw [importTable, hr]; rfl, fun i hi => ?_⟩
  rw [BitVec.getLsbD_setWidth, he _ (by omega)]
  simp [hi]

/-- The cell that returns `A ∧ ¬ B`. -/
example : importTable 2 [false, true, false, false] = some 2#4 ∧
    (2#4).toNat.testBit (index (importInputs [true, false])) = true := by decide +kernel

end Heir.Lut
