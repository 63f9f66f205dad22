import Verif.Lwe.Lemmas

/-! # The decomposed key switch -/

namespace Heir.Lwe

variable {A : Type} [CommRing A] {n w : Nat}

theorem partitions_eq {k : Nat} (hk : 0 < k) (value : Elt w A) :
    partitions k value =
      (List.range ((value.length + k - 1) / k)).map fun j => (value.drop (j * k)).take k := by
  have hdm := Nat.div_add_mod value.length k
  have hlt := Nat.mod_lt value.length hk
  rw [partitions]
  split
  · rename_i he
    have hN : (value.length + k - 1) / k = value.length / k + 1 := by
      refine Nat.div_eq_of_lt_le ?_ ?_ <;> simp only [Nat.mul_comm _ k, Nat.mul_add, Nat.mul_one] <;> omega
    rw [hN, List.range_succ, List.map_append, List.map_cons, List.map_nil]
    congr 2
    rw [Nat.mul_comm (value.length / k) k, List.take_of_length_le (by rw [List.length_drop]),
      List.take_of_length_le (by rw [List.length_drop]; omega)]
  · rename_i he
    have hN : (value.length + k - 1) / k = value.length / k := by
      refine Nat.div_eq_of_lt_le ?_ ?_ <;> simp only [Nat.mul_comm _ k, Nat.mul_add, Nat.mul_one] <;> omega
    rw [hN]

theorem sum_list_range (f : Nat → A) (N : Nat) :
    ((List.range N).map f).sum = ∑ j ∈ Finset.range N, f j := by
  induction N with
  | zero => rfl
  | succ N ih => rw [List.range_succ, List.map_append, List.sum_append, ih, Finset.sum_range_succ]; simp

/-- The accumulated ciphertext has the residues of the sums. -/
theorem foldl_spec (C : A ≃+ (Fin n → ℤ)) {basis : List (BitVec w)}
    {f : Nat → Elt w A × Elt w A} {a b : Nat → A}
    (hf : ∀ j, (f j).1.map (·.1) = basis ∧ (f j).2.map (·.1) = basis) :
    ∀ (js : List Nat), (∀ j ∈ js, Represents (f j).1 (a j) ∧ Represents (f j).2 (b j)) →
    ∀ (acc : Elt w A × Elt w A) (x y : A), acc.1.map (·.1) = basis → acc.2.map (·.1) = basis →
    Represents acc.1 x → Represents acc.2 y →
    Represents ((js.map f).foldl (addCt C) acc).1 (x + (js.map a).sum) ∧
      Represents ((js.map f).foldl (addCt C) acc).2 (y + (js.map b).sum) ∧
      ((js.map f).foldl (addCt C) acc).1.map (·.1) = basis ∧
      ((js.map f).foldl (addCt C) acc).2.map (·.1) = basis
  | [], _, acc, x, y, h1, h2, h3, h4 => by simpa using ⟨h3, h4, h1, h2⟩
  | j :: js, hr, acc, x, y, h1, h2, h3, h4 => by
    obtain ⟨r1, r2⟩ := hr j (List.mem_cons_self ..)
    obtain ⟨s1, s2⟩ := eltBin_spec C (fun h h' => Cong.add h h') (h1.trans (hf j).1.symm) h3 r1
    obtain ⟨t1, t2⟩ := eltBin_spec C (fun h h' => Cong.add h h') (h2.trans (hf j).2.symm) h4 r2
    have := foldl_spec C hf js (fun j hj => hr j (List.mem_cons_of_mem _ hj)) (addCt C acc (f j))
      (x + a j) (y + b j) (s2.trans h1) (t2.trans h2) s1 t1
    rw [List.map_cons, List.map_cons, List.map_cons, List.foldl_cons, List.sum_cons, List.sum_cons,
      ← add_assoc, ← add_assoc]
    exact this

theorem GoodBasis.nodup {b : List (BitVec w)} (h : GoodBasis b) : b.Nodup := by
  obtain ⟨h2, hp⟩ := h
  induction b with
  | nil => exact List.nodup_nil
  | cons q b ih =>
    obtain ⟨p1, p2⟩ := List.pairwise_cons.1 hp
    refine List.nodup_cons.2 ⟨fun hm => ?_, ih (fun q hq => h2 q (List.mem_cons_of_mem _ hq)) p2⟩
    have h1 := p1 q hm
    rw [Nat.coprime_self] at h1
    have := h2 q (List.mem_cons_self ..)
    omega

theorem mem_chunk {α : Type} {l : List α} {k i j : Nat} {x : α} (h : l[i]? = some x) (hk : 0 < k)
    (hj : j = i / k) : x ∈ (l.drop (j * k)).take k := by
  subst hj
  have hm := Nat.div_add_mod i k
  have hlt := Nat.mod_lt i hk
  rw [Nat.mul_comm] at hm
  have : ((l.drop (i / k * k)).take k)[i % k]? = some x := by
    rw [List.getElem?_take_of_lt hlt, List.getElem?_drop, hm, h]
  exact List.mem_of_getElem? this

theorem chunk_unique {α : Type} {l : List α} (hn : l.Nodup) {k i j : Nat} {x : α} (h : l[i]? = some x)
    (hx : x ∈ (l.drop (j * k)).take k) : j = i / k := by
  obtain ⟨m, hm, he⟩ := List.mem_iff_getElem.1 hx
  rw [List.length_take] at hm
  rw [List.getElem_take, List.getElem_drop] at he
  have h1 : l[j * k + m]? = some x := by
    rw [← he]
    exact List.getElem?_eq_getElem _
  have hi := (List.getElem?_eq_some_iff.1 h).1
  have : i = j * k + m := by
    have := (List.getElem?_inj hi hn).1 (h.trans h1.symm)
    exact this
  rw [this, Nat.add_comm, Nat.add_mul_div_right _ _ (by omega), Nat.div_eq_of_lt (by omega), Nat.zero_add]

/-- The gadget: the lifted parts times their idempotents add up to the value. -/
theorem gadget_sum {v : A} {input : List (BitVec w)} (hg : GoodBasis input) {k N : Nat} (hk : 0 < k)
    (hN : N = (input.length + k - 1) / k) {d : Nat → A} {g : Nat → ℤ}
    (hd : ∀ j < N, ∀ q ∈ (input.drop (j * k)).take k, Cong q.toNat (d j) v)
    (h1 : ∀ j < N, ∀ q ∈ (input.drop (j * k)).take k, (q.toNat : ℤ) ∣ g j - 1)
    (h0 : ∀ j < N, ∀ q ∈ input, q ∉ (input.drop (j * k)).take k → (q.toNat : ℤ) ∣ g j)
    {q : BitVec w} (hq : q ∈ input) : Cong q.toNat (∑ j ∈ Finset.range N, d j * (g j : A)) v := by
  obtain ⟨i, hi, he⟩ := List.mem_iff_getElem.1 hq
  have hi' : input[i]? = some q := by rw [← he]; exact List.getElem?_eq_getElem hi
  have hjN : i / k < N := by
    rw [hN]
    refine (Nat.div_lt_iff_lt_mul hk).2 ?_
    have := Nat.lt_mul_div_succ (input.length + k - 1) hk
    rw [Nat.mul_comm]
    rw [Nat.mul_add, Nat.mul_one] at this
    omega
  have hterm : ∀ j < N, Cong q.toNat (d j * (g j : A)) (if j = i / k then v else 0) := by
    intro j hj
    split
    · rename_i hji
      have hmem : q ∈ (input.drop (j * k)).take k := mem_chunk hi' hk hji
      have e1 := hd j hj q hmem
      have e2 : Cong q.toNat (g j : A) ((1 : ℤ) : A) := Cong.of_int (h1 j hj q hmem)
      have := e1.mul e2
      rwa [Int.cast_one, mul_one] at this
    · rename_i hji
      have hnm : q ∉ (input.drop (j * k)).take k := fun hm => hji (chunk_unique hg.nodup hi' hm)
      have e2 : Cong q.toNat (g j : A) ((0 : ℤ) : A) := Cong.of_int (by simpa using h0 j hj q hq hnm)
      have := (Cong.refl q.toNat (d j)).mul e2
      rwa [Int.cast_zero, mul_zero] at this
  have := Cong.sum hterm
  rwa [Finset.sum_ite_eq', if_pos (Finset.mem_range.2 hjN)] at this

/-- `DecomposeModDownPattern` succeeds. -/
theorem modDown_ok (C : A ≃+ (Fin n → ℤ)) {qs ps : List (BitVec w)} (hg : GoodBasis (qs ++ ps)) :
    ∃ ks, List.Forall₂ (fun (q k : BitVec w) => k.toNat * modulus ps ≡ 1 [MOD q.toNat]) qs ks ∧
      ∀ ct : List (Elt w A), modDown C (qs ++ ps) qs.length ct = .ok (ct.map (modDownElt C qs.length ks)) := by
  have hpc := List.pairwise_append.1 hg.pc
  obtain ⟨ks, e, h⟩ := pInvs_spec (ps := ps) (qs := qs)
    (fun q hq => hg.two q (List.mem_append_left _ hq))
    (fun q hq => coprime_modulus fun p hp => hpc.2.2 q hq p hp)
  refine ⟨ks, h, fun ct => ?_⟩
  rw [modDown, List.drop_left, List.take_left, e]

theorem zipWith_range {α β γ : Type} (f : α → β → γ) (a : Nat → α) (b : Nat → β) (l : List Nat) :
    List.zipWith f (l.map a) (l.map b) = l.map fun j => f (a j) (b j) := by
  induction l with
  | nil => rfl
  | cons x l ih => simp [ih]

/-- The arithmetic of the key switch: the noise is a multiple of `P`, and modulo the moduli of the
input the factor `P` cancels. -/
theorem keySwitch_noise {input primes : List (BitVec w)} (hg : GoodBasis (input ++ primes)) {N : Nat}
    {v sIn s o0 o1 r0 r1 : A} {d e k0 k1 : Nat → A} {g : Nat → ℤ}
    (henc : ∀ j < N, ∀ q ∈ input ++ primes,
      Cong q.toNat (k0 j + s * k1 j) ((modulus primes : A) * g j * sIn + e j))
    (hgs : ∀ q ∈ input, Cong q.toNat (∑ j ∈ Finset.range N, d j * (g j : A)) v)
    (h0 : ∑ j ∈ Finset.range N, d j * k0 j = (modulus primes : A) * o0 + r0)
    (h1 : ∑ j ∈ Finset.range N, d j * k1 j = (modulus primes : A) * o1 + r1) :
    ∃ ν, (modulus primes : A) * ν = ∑ j ∈ Finset.range N, d j * e j - (r0 + s * r1) ∧
      ∀ q ∈ input, Cong q.toNat (o0 + s * o1) (v * sIn + ν) := by
  set P : A := (modulus primes : A) with hP
  -- modulo every modulus
  have hall : ∀ q ∈ input ++ primes, Cong q.toNat (P * (o0 + s * o1))
      (P * ((∑ j ∈ Finset.range N, d j * (g j : A)) * sIn)
        + (∑ j ∈ Finset.range N, d j * e j - (r0 + s * r1))) := by
    intro q hq
    have hs : Cong q.toNat (∑ j ∈ Finset.range N, d j * (k0 j + s * k1 j))
        (∑ j ∈ Finset.range N, d j * (P * g j * sIn + e j)) :=
      Cong.sum fun j hj => (Cong.refl _ _).mul (henc j hj q hq)
    have e1 : ∑ j ∈ Finset.range N, d j * (k0 j + s * k1 j) = P * (o0 + s * o1) + (r0 + s * r1) := by
      have : ∑ j ∈ Finset.range N, d j * (k0 j + s * k1 j)
          = ∑ j ∈ Finset.range N, d j * k0 j + s * ∑ j ∈ Finset.range N, d j * k1 j := by
        rw [Finset.mul_sum, ← Finset.sum_add_distrib]
        exact Finset.sum_congr rfl fun j _ => by ring
      rw [this, h0, h1]
      ring
    have e2 : ∑ j ∈ Finset.range N, d j * (P * g j * sIn + e j)
        = P * ((∑ j ∈ Finset.range N, d j * (g j : A)) * sIn) + ∑ j ∈ Finset.range N, d j * e j := by
      rw [Finset.sum_mul, Finset.mul_sum, ← Finset.sum_add_distrib]
      exact Finset.sum_congr rfl fun j _ => by ring
    rw [e1, e2] at hs
    have := hs.sub (Cong.refl q.toNat (r0 + s * r1))
    rwa [add_sub_cancel_right, add_sub_assoc] at this
  have hdvd : P ∣ ∑ j ∈ Finset.range N, d j * e j - (r0 + s * r1) := by
    refine prod_dvd (List.pairwise_append.1 hg.pc).2.1 fun p hp => ?_
    have hpP : (p.toNat : A) ∣ P := by
      rw [hP]
      exact Nat.cast_dvd_cast (List.dvd_prod (List.mem_map_of_mem hp))
    have h := hall p (List.mem_append_right _ hp)
    unfold Cong at h
    have h2 : (p.toNat : A) ∣ P * (o0 + s * o1) - P * ((∑ j ∈ Finset.range N, d j * (g j : A)) * sIn) :=
      dvd_sub (hpP.mul_right _) (hpP.mul_right _)
    have := dvd_sub h2 h
    rwa [show ∀ a b c : A, a - b - (a - (b + c)) = c by intros; ring] at this
  obtain ⟨ν, hν⟩ := hdvd
  refine ⟨ν, hν.symm, fun q hq => ?_⟩
  have h := hall q (List.mem_append_left _ hq)
  rw [hν, ← mul_add] at h
  have hc : Nat.Coprime q.toNat (modulus primes) :=
    coprime_modulus fun p hp => (List.pairwise_append.1 hg.pc).2.2 q hq p hp
  exact (Cong.cancel hc h).trans (((hgs q hq).mul (Cong.refl _ sIn)).add (Cong.refl _ ν))

theorem take_map_drop {α β : Type} (f : α → β) (l : List α) (a b : Nat) :
    ((l.drop a).take b).map f = ((l.map f).drop a).take b := by
  rw [List.map_take, List.map_drop]

theorem keySwitch_spec (C : A ≃+ (Fin n → ℤ)) {primes : List (BitVec w)} {value : Elt w A} {v sIn s : A}
    (hg : GoodBasis (value.map (·.1) ++ primes)) (hp : primes ≠ []) (hne : value ≠ [])
    (hv : Represents value v) {N : Nat} (hN : N = (value.length + primes.length - 1) / primes.length)
    {key : Nat → Elt w A × Elt w A} {e : Nat → A}
    (hkey : ∀ j < N, IsKey (value.map (·.1)) primes
      (((value.map (·.1)).drop (j * primes.length)).take primes.length) sIn s (e j) (key j)) :
    ∃ out ν r0 r1 o0 o1, ∃ d : Nat → A,
      keySwitch C (value.map (·.1) ++ primes) value ((List.range N).map key) = .ok out ∧
      out.1.map (·.1) = value.map (·.1) ∧ out.2.map (·.1) = value.map (·.1) ∧
      Represents out.1 o0 ∧ Represents out.2 o1 ∧
      (∀ q ∈ value.map (·.1), Cong q.toNat (phase s [o0, o1]) (v * sIn + ν)) ∧
      (modulus primes : A) * ν = ∑ j ∈ Finset.range N, d j * e j - (r0 + s * r1) ∧
      (∀ j < N, Centered C
        (modulus (((value.map (·.1)).drop (j * primes.length)).take primes.length)) (d j)) ∧
      Centered C (modulus primes) r0 ∧ Centered C (modulus primes) r1 := by
  obtain ⟨input, hin⟩ : ∃ input, input = value.map (·.1) := ⟨_, rfl⟩
  have hlen : input.length = value.length := by rw [hin, List.length_map]
  rw [← hin] at hg hkey ⊢
  have hk : 0 < primes.length := List.length_pos_iff.2 hp
  have hL : 0 < value.length := List.length_pos_iff.2 hne
  have hN0 : 0 < N := by
    rw [hN]
    exact Nat.div_pos (by omega) hk
  -- the parts
  set part : Nat → Elt w A := fun j => (value.drop (j * primes.length)).take primes.length with hpart
  set d : Nat → A := fun j => lift C (part j) with hd
  have hpm : ∀ j, (part j).map (·.1) = (input.drop (j * primes.length)).take primes.length := fun j => by
    rw [hin]
    exact take_map_drop _ _ _ _
  have hgin : GoodBasis input := hg.sublist (List.sublist_append_left ..)
  have hgp : ∀ j, GoodBasis ((part j).map (·.1)) := fun j => by
    rw [hpm]
    exact hgin.sublist ((List.take_sublist ..).trans (List.drop_sublist ..))
  have hlift := fun j => lift_spec C (hgp j)
  have hdv : ∀ j < N, ∀ q ∈ (input.drop (j * primes.length)).take primes.length, Cong q.toNat (d j) v := by
    intro j _ q hq
    rw [← hpm] at hq
    obtain ⟨l, hl, rfl⟩ := List.mem_map.1 hq
    exact ((hlift j).1 l hl).symm.trans (hv l (List.mem_of_mem_drop (List.mem_of_mem_take hl)))
  -- the key
  choose! g k0 k1 hK using fun j hj => (hkey j hj).enc
  -- the products
  set f : Nat → Elt w A × Elt w A := fun j =>
    if j < N then mulRingElt C (convertBasis C (input ++ primes) (part j)) (key j)
    else (convertBasis C (input ++ primes) [], convertBasis C (input ++ primes) []) with hf
  have hfb : ∀ j, (f j).1.map (·.1) = input ++ primes ∧ (f j).2.map (·.1) = input ++ primes := by
    intro j
    rw [hf]
    beta_reduce
    split
    · rename_i hj
      have hc := convertBasis_spec C (input ++ primes) (part j)
      obtain ⟨a1, a2⟩ := eltBin_spec C (f := (· * ·)) (fun h h' => Cong.mul h h')
        (hc.2.trans (hkey j hj).basis0.symm) hc.1 (hK j hj).1
      obtain ⟨b1, b2⟩ := eltBin_spec C (f := (· * ·)) (fun h h' => Cong.mul h h')
        (hc.2.trans (hkey j hj).basis1.symm) hc.1 (hK j hj).2.1
      exact ⟨a2.trans hc.2, b2.trans hc.2⟩
    · exact ⟨(convertBasis_spec C _ _).2, (convertBasis_spec C _ _).2⟩
  have hfr : ∀ j < N, Represents (f j).1 (d j * k0 j) ∧ Represents (f j).2 (d j * k1 j) := by
    intro j hj
    rw [hf]
    beta_reduce
    rw [if_pos hj]
    have hc := convertBasis_spec C (input ++ primes) (part j)
    exact ⟨(eltBin_spec C (f := (· * ·)) (fun h h' => Cong.mul h h')
        (hc.2.trans (hkey j hj).basis0.symm) hc.1 (hK j hj).1).1,
      (eltBin_spec C (f := (· * ·)) (fun h h' => Cong.mul h h')
        (hc.2.trans (hkey j hj).basis1.symm) hc.1 (hK j hj).2.1).1⟩
  -- the sum
  obtain ⟨M, rfl⟩ : ∃ M, N = M + 1 := ⟨N - 1, by omega⟩
  have hprods : List.zipWith (mulRingElt C)
      ((partitions primes.length value).map (convertBasis C (input ++ primes)))
      ((List.range (M + 1)).map key) = f 0 :: ((List.range M).map Nat.succ).map f := by
    rw [partitions_eq hk, ← hN, List.map_map, zipWith_range, ← List.map_cons, ← List.range_succ_eq_map]
    refine List.map_congr_left fun j hj => ?_
    rw [hf]
    beta_reduce
    rw [if_pos (List.mem_range.1 hj)]
    rfl
  have hsum := foldl_spec C hfb ((List.range M).map Nat.succ)
    (fun j hj => hfr j (by
      obtain ⟨i, hi, rfl⟩ := List.mem_map.1 hj
      have := List.mem_range.1 hi
      omega)) (f 0) (d 0 * k0 0) (d 0 * k1 0) (hfb 0).1 (hfb 0).2 (hfr 0 hN0).1 (hfr 0 hN0).2
  obtain ⟨sum, hsd⟩ : ∃ sum, sum = (((List.range M).map Nat.succ).map f).foldl (addCt C) (f 0) := ⟨_, rfl⟩
  rw [← hsd] at hsum
  have hl : ∀ h : Nat → A, h 0 + (((List.range M).map Nat.succ).map h).sum
      = ∑ j ∈ Finset.range (M + 1), h j := fun h => by
    rw [← sum_list_range, List.range_succ_eq_map, List.map_cons, List.sum_cons]
  obtain ⟨z0, z1, hb0, hb1⟩ := hsum
  rw [hl fun j => d j * k0 j] at z0
  rw [hl fun j => d j * k1 j] at z1
  -- mod down
  obtain ⟨ks, hks, hmd⟩ := modDown_ok C hg
  obtain ⟨o0, r0, a1, a2, a3, a4, -⟩ := modDownElt_spec C hb0 hg z0 hks
  obtain ⟨o1, r1, b1, b2, b3, b4, -⟩ := modDownElt_spec C hb1 hg z1 hks
  obtain ⟨ν, hν, hc⟩ := keySwitch_noise (s := s) (sIn := sIn) (e := e) hg
    (fun j hj q hq => by
      have := (hK j hj).2.2.2.2 q hq
      simpa [phase] using this)
    (fun q hq => gadget_sum hgin hk (by rw [hlen]; exact hN) hdv (fun j hj => (hK j hj).2.2.1)
      (fun j hj => (hK j hj).2.2.2.1) hq) a1 b1
  refine ⟨(modDownElt C input.length ks sum.1, modDownElt C input.length ks sum.2), ν, r0, r1, o0, o1, d,
    ?_, a4, b4, a3, b3, ?_, hν, ?_, a2, b2⟩
  · rw [keySwitch, ← hin]
    simp only [List.length_append, List.take_left, List.drop_left, ne_eq, not_true_eq_false, if_false]
    rw [if_neg (by omega), if_neg (by rw [partitions_eq hk]; simp [← hN]), hprods]
    beta_reduce
    simp only [← hsd, hmd, List.map_cons, List.map_nil]
  · intro q hq
    simpa [phase] using hc q hq
  · intro j _
    have := (hlift j).2
    rwa [hpm] at this

end Heir.Lwe
