import Verif.Lut.Spec
import Mathlib.Tactic.Ring
import Mathlib.Tactic.Linarith
import Mathlib.Tactic.ByContra
import Mathlib.Tactic.Choose
import Mathlib.Data.List.OfFn
import Mathlib.Algebra.BigOperators.Group.List.Basic
import Mathlib.Algebra.Order.Ring.Int

/-! # Lemmas about lookup tables -/

namespace Heir.Lut

theorem two_pow_pos' (p : Nat) : 0 < 2 ^ p := Nat.two_pow_pos p

theorem dec_enc {p : Nat} (hp : 1 ≤ p) (b : Bool) : dec (enc p b) = b := by
  unfold dec enc
  rw [BitVec.getLsbD_ofNat]
  cases b <;> simp <;> omega

theorem enc_toNat {p : Nat} (hp : 1 ≤ p) (b : Bool) : (enc p b).toNat = b.toNat := by
  unfold enc
  rw [BitVec.toNat_ofNat]
  apply Nat.mod_eq_of_lt
  have : 2 ^ 1 ≤ 2 ^ p := Nat.pow_le_pow_right (by omega) hp
  cases b <;> simp <;> omega

theorem index_lt : ∀ l : List Bool, index l < 2 ^ l.length
  | [] => by simp [index]
  | b :: bs => by
    have := index_lt bs
    simp only [index, List.length_cons, pow_succ]
    cases b <;> simp <;> omega

theorem pow_le_pow_of_le {p q : Nat} (h : q ≤ p) : 2 ^ q ≤ 2 ^ p :=
  Nat.pow_le_pow_right (by omega) h

/-- Two bits combined by a shift and a sum. -/
theorem shl_add_toNat {p : Nat} (hp : 2 ≤ p) (x y : Bool) :
    (enc p x <<< 1 + enc p y).toNat = index [x, y] := by
  have h4 := pow_le_pow_of_le hp
  rw [BitVec.toNat_add, BitVec.toNat_shiftLeft, enc_toNat (by omega), enc_toNat (by omega)]
  cases x <;> cases y <;> simp [index, Nat.shiftLeft_eq] <;>
    first | omega | (apply Nat.mod_eq_of_lt; omega)

theorem mulScalar_toNat {p : Nat} (hp : 1 ≤ p) (x : Bool) (c : Nat) (h : c < 2 ^ p) :
    (enc p x * BitVec.ofInt p c).toNat = x.toNat * c := by
  rw [BitVec.toNat_mul, enc_toNat hp, BitVec.ofInt_natCast, BitVec.toNat_ofNat, Nat.mod_eq_of_lt h]
  cases x <;> simp
  exact Nat.mod_eq_of_lt h

theorem lut3_toNat {p : Nat} (hp : 3 ≤ p) (c b a : Bool) :
    (enc p c * BitVec.ofInt p 4 + enc p b * BitVec.ofInt p 2 + enc p a * BitVec.ofInt p 1).toNat
      = index [c, b, a] := by
  have h8 := pow_le_pow_of_le hp
  have e4 := mulScalar_toNat (by omega : 1 ≤ p) c 4 (by omega)
  have e2 := mulScalar_toNat (by omega : 1 ≤ p) b 2 (by omega)
  have e1 := mulScalar_toNat (by omega : 1 ≤ p) a 1 (by omega)
  push_cast at e4 e2 e1
  rw [BitVec.toNat_add, BitVec.toNat_add, e4, e2, e1]
  cases c <;> cases b <;> cases a <;> simp [index] <;>
    first | omega | (apply Nat.mod_eq_of_lt; omega)

theorem lut2_toNat {p : Nat} (hp : 2 ≤ p) (b a : Bool) :
    (enc p b * BitVec.ofInt p 2 + enc p a * BitVec.ofInt p 1).toNat = index [b, a] := by
  have h8 := pow_le_pow_of_le hp
  have e2 := mulScalar_toNat (by omega : 1 ≤ p) b 2 (by omega)
  have e1 := mulScalar_toNat (by omega : 1 ≤ p) a 1 (by omega)
  push_cast at e2 e1
  rw [BitVec.toNat_add, e2, e1]
  cases b <;> cases a <;> simp [index] <;>
    first | omega | (apply Nat.mod_eq_of_lt; omega)

theorem tfhe3_toNat {p : Nat} (hp : 3 ≤ p) (c b a : Bool) :
    (enc p c <<< 2 + enc p b <<< 1 + enc p a).toNat = index [c, b, a] := by
  have h8 := pow_le_pow_of_le hp
  rw [BitVec.toNat_add, BitVec.toNat_add, BitVec.toNat_shiftLeft, BitVec.toNat_shiftLeft,
    enc_toNat (by omega), enc_toNat (by omega), enc_toNat (by omega)]
  cases c <;> cases b <;> cases a <;> simp [index, Nat.shiftLeft_eq] <;>
    first | omega | (apply Nat.mod_eq_of_lt; omega)

theorem tfhe4_toNat {p : Nat} (hp : 4 ≤ p) (d c b a : Bool) :
    (enc p b <<< 1 + (enc p c <<< 2 + enc p d <<< 3) + enc p a).toNat = index [d, c, b, a] := by
  have h8 := pow_le_pow_of_le hp
  rw [BitVec.toNat_add, BitVec.toNat_add, BitVec.toNat_add, BitVec.toNat_shiftLeft,
    BitVec.toNat_shiftLeft, BitVec.toNat_shiftLeft,
    enc_toNat (by omega), enc_toNat (by omega), enc_toNat (by omega), enc_toNat (by omega)]
  cases d <;> cases c <;> cases b <;> cases a <;> simp [index, Nat.shiftLeft_eq] <;>
    first | omega | (apply Nat.mod_eq_of_lt; omega)

theorem lut4_index (d c b a : Bool) :
    8 * d.toNat + 4 * c.toNat + 2 * b.toNat + a.toNat = index [d, c, b, a] := by
  cases d <;> cases c <;> cases b <;> cases a <;> rfl

/-- The value of a combination of bits that is a number written by them. -/
theorem lincombOf_eval {p : Nat} (env : Nat → BitVec p) (expand : Bool) (xs : List (Ct × Int))
    (t k : Nat) (hne : xs ≠ [])
    (h : (xs.map fun x => x.2 * ((x.1.eval p env).toNat : Int)).sum = k)
    (hr : ∀ r, combine none xs = some r → (r.eval p env).toNat = k) :
    (lincombOf expand xs t).eval p env = enc p (t.testBit k) := by
  unfold lincombOf
  cases expand with
  | false =>
    simp only [Bool.false_eq_true, if_false, Ct.eval]
    have e : (List.ofFn fun i : Fin xs.length =>
        (xs.get i).2 * (((xs.get i).1.eval p env).toNat : Int)).sum = k := by
      rw [← h]
      congr 1
      apply List.ext_getElem
      · simp
      · intro i h1 h2
        simp
    rw [e]
    simp
  | true =>
    simp only [if_true]
    cases hc : combine none xs with
    | none =>
      exfalso
      cases xs with
      | nil => exact hne rfl
      | cons x l =>
        have : ∀ (l : List (Ct × Int)) (r : Ct), combine (some r) l ≠ none := by
          intro l
          induction l with
          | nil => intro r; simp [combine]
          | cons y l ih => intro r; simp only [combine]; exact ih _
        exact this _ _ hc
    | some r => simp only [Ct.eval, hr r hc]

/-- The decomposition on programs whose tables fit. -/
theorem decompose_eval {p : Nat} (hp : 1 ≤ p) (expand : Bool) (env : Nat → Bool) :
    ∀ e : Cggi, e.Fits p →
      (decompose expand e).eval p (fun i => enc p (env i)) = enc p (e.value env)
  | .arg _, _ => rfl
  | .trivial _, _ => rfl
  | .not x, h => by
    simp only [decompose, Ct.eval, Cggi.value, decompose_eval hp expand env x h, dec_enc hp]
  | .gate g x y, h => by
    have hx := decompose_eval hp expand env x h.1
    have hy := decompose_eval hp expand env y h.2.1
    have key : ∀ t, 2 ≤ p → (expandGate (decompose expand x) (decompose expand y) t).eval p
        (fun i => enc p (env i)) = enc p (t.testBit (index [y.value env, x.value env])) := by
      intro t h2
      simp only [expandGate, Ct.eval, hx, hy, shl_add_toNat h2]
    cases g
    case and =>
      rw [decompose, key _ (h.2.2 (by simp)), Cggi.value]
      cases x.value env <;> cases y.value env <;> rfl
    case or =>
      rw [decompose, key _ (h.2.2 (by simp)), Cggi.value]
      cases x.value env <;> cases y.value env <;> rfl
    case xor =>
      rw [decompose, key _ (h.2.2 (by simp)), Cggi.value]
      cases x.value env <;> cases y.value env <;> rfl
    all_goals simp only [decompose, Ct.eval, Cggi.value, hx, hy, dec_enc hp]
  | .lut2 b a t, h => by
    have hb := decompose_eval hp expand env b h.1
    have ha := decompose_eval hp expand env a h.2.1
    simp only [decompose, Cggi.value]
    apply lincombOf_eval _ _ _ _ _ (by simp)
    · simp only [List.map_cons, List.map_nil, List.sum_cons, List.sum_nil, hb, ha, enc_toNat hp]
      cases b.value env <;> cases a.value env <;> rfl
    · intro r hr
      simp only [combine, Option.some.injEq] at hr
      subst hr
      simp only [Ct.eval, hb, ha]
      exact lut2_toNat h.2.2 _ _
  | .lut3 c b a t, h => by
    have hc := decompose_eval hp expand env c h.1
    have hb := decompose_eval hp expand env b h.2.1
    have ha := decompose_eval hp expand env a h.2.2.1
    simp only [decompose, Cggi.value]
    apply lincombOf_eval _ _ _ _ _ (by simp)
    · simp only [List.map_cons, List.map_nil, List.sum_cons, List.sum_nil, hc, hb, ha, enc_toNat hp]
      cases c.value env <;> cases b.value env <;> cases a.value env <;> rfl
    · intro r hr
      simp only [combine, Option.some.injEq] at hr
      subst hr
      simp only [Ct.eval, hc, hb, ha]
      exact lut3_toNat h.2.2.2 _ _ _
  | .lut4 d c b a t, h => by
    simp only [decompose, Ct.eval, Cggi.value, decompose_eval hp expand env d h.1,
      decompose_eval hp expand env c h.2.1, decompose_eval hp expand env b h.2.2.1,
      decompose_eval hp expand env a h.2.2.2, dec_enc hp, lut4_index]

theorem toTfheRust_eval {p : Nat} (hp : 1 ≤ p) (env : Nat → Bool) :
    ∀ e : Cggi, e.FitsTables p →
      (toTfheRust e).eval p (fun i => enc p (env i)) = enc p (e.value env)
  | .arg _, _ => rfl
  | .trivial _, _ => rfl
  | .not x, h => by
    simp only [toTfheRust, Ct.eval, Cggi.value, toTfheRust_eval hp env x h, dec_enc hp]
  | .gate g x y, h => by
    simp only [toTfheRust, Ct.eval, Cggi.value, toTfheRust_eval hp env x h.1,
      toTfheRust_eval hp env y h.2, dec_enc hp]
  | .lut2 b a t, h => by
    simp only [toTfheRust, Ct.eval, Cggi.value, toTfheRust_eval hp env b h.1,
      toTfheRust_eval hp env a h.2.1, shl_add_toNat h.2.2]
  | .lut3 c b a t, h => by
    simp only [toTfheRust, Ct.eval, Cggi.value, toTfheRust_eval hp env c h.1,
      toTfheRust_eval hp env b h.2.1, toTfheRust_eval hp env a h.2.2.1, tfhe3_toNat h.2.2.2]
  | .lut4 d c b a t, h => by
    simp only [toTfheRust, Ct.eval, Cggi.value, toTfheRust_eval hp env d h.1,
      toTfheRust_eval hp env c h.2.1, toTfheRust_eval hp env b h.2.2.1,
      toTfheRust_eval hp env a h.2.2.2.1, tfhe4_toNat h.2.2.2.2]

/-! ## From comb to CGGI -/

theorem allSome_eq {α : Type} : ∀ {l : List (Option α)} {r : List α},
    allSome l = some r ↔ l = r.map some
  | [], r => by cases r <;> simp [allSome]
  | none :: l, r => by cases r <;> simp [allSome]
  | some a :: l, r => by
    cases r with
    | nil =>
      simp only [allSome, List.map_nil, reduceCtorEq, iff_false]
      cases allSome l <;> simp
    | cons b r =>
      simp only [allSome, List.map_cons, List.cons.injEq, Option.some.injEq]
      rw [← allSome_eq (l := l) (r := r)]
      cases allSome l <;> simp

theorem convertTable_value {t : Nat} {l : List Cggi} {e : Cggi} (h : convertTable t l = some e)
    (env : Nat → Bool) : e.value env = t.testBit (index (l.map fun x => x.value env)) := by
  unfold convertTable at h
  split at h <;> simp only [Option.some.injEq, reduceCtorEq] at h <;> subst h <;> rfl

theorem secretToCggi_value (env : Nat → Bool) : ∀ {e : Comb} {c : Cggi},
    secretToCggi e = some c → c.value env = e.value env
  | .secret i, c, h => by simp only [secretToCggi, Option.some.injEq] at h; subst h; rfl
  | .clear b, c, h => by simp only [secretToCggi, Option.some.injEq] at h; subst h; rfl
  | .inv x, c, h => by
    simp only [secretToCggi, Option.map_eq_some_iff] at h
    obtain ⟨x', hx, rfl⟩ := h
    simp only [Cggi.value, Comb.value, secretToCggi_value env hx]
  | .gate g x y, c, h => by
    simp only [secretToCggi, Option.bind_eq_some_iff, Option.map_eq_some_iff] at h
    obtain ⟨x', hx, y', hy, rfl⟩ := h
    simp only [Cggi.value, Comb.value, secretToCggi_value env hx, secretToCggi_value env hy]
  | .table n xs t, c, h => by
    simp only [secretToCggi, Option.bind_eq_some_iff] at h
    obtain ⟨l, hl, hc⟩ := h
    rw [allSome_eq] at hl
    rw [convertTable_value hc]
    simp only [Comb.value]
    congr 2
    have hlen : n = l.length := by simpa using congrArg List.length hl
    apply List.ext_getElem
    · simp [hlen]
    · intro i h1 h2
      have hi : i < n := by simpa using h2
      have hg : secretToCggi (xs ⟨i, hi⟩) = some (l[i]'(by omega)) := by
        have := congrArg (fun z => z[i]?) hl
        simp only [List.getElem?_ofFn, hi, dif_pos, List.getElem?_map] at this
        rw [List.getElem?_eq_getElem (by omega)] at this
        simpa using this
      simp only [List.getElem_map, List.getElem_ofFn]
      exact secretToCggi_value env hg

/-! ## Message bits -/

theorem foldl_max_ge (ops : List CombOp) : ∀ m, m ≤ ops.foldl (fun m op => max m op.size) m := by
  induction ops with
  | nil => intro m; exact le_refl _
  | cons o l ih => intro m; exact le_trans (le_max_left _ _) (ih _)

theorem foldl_max_mem {ops : List CombOp} {o : CombOp} (h : o ∈ ops) :
    ∀ m, o.size ≤ ops.foldl (fun m op => max m op.size) m := by
  induction ops with
  | nil => simp at h
  | cons a l ih =>
    intro m
    rcases List.mem_cons.1 h with rfl | h
    · exact le_trans (le_max_right _ _) (foldl_max_ge l _)
    · exact ih h _

theorem le_findLUTSize {ops : List CombOp} {o : CombOp} (h : o ∈ ops) : o.size ≤ findLUTSize ops :=
  foldl_max_mem h 1

theorem one_le_findLUTSize (ops : List CombOp) : 1 ≤ findLUTSize ops := foldl_max_ge ops 1

theorem convertTable_fits {t p : Nat} {l : List Cggi} {e : Cggi} (h : convertTable t l = some e)
    (hl : ∀ x ∈ l, x.FitsTables p) (hp : l.length ≤ p) : e.FitsTables p := by
  unfold convertTable at h
  split at h <;> simp only [Option.some.injEq, reduceCtorEq] at h <;> subst h <;>
    simp_all [Cggi.FitsTables]

/-- Tables of a converted program fit when the message bits are at least those of the tables. -/
theorem fitsTables {p : Nat} : ∀ {e : Comb} {c : Cggi}, secretToCggi e = some c →
    (∀ o ∈ e.ops, o.size ≤ p) → c.FitsTables p
  | .secret i, c, h, _ => by
    simp only [secretToCggi, Option.some.injEq] at h; subst h; exact trivial
  | .clear b, c, h, _ => by
    simp only [secretToCggi, Option.some.injEq] at h; subst h; exact trivial
  | .inv x, c, h, ho => by
    simp only [secretToCggi, Option.map_eq_some_iff] at h
    obtain ⟨x', hx, rfl⟩ := h
    exact fitsTables (e := x) (c := x') hx fun o h => ho o (by simp [Comb.ops, h])
  | .gate g x y, c, h, ho => by
    simp only [secretToCggi, Option.bind_eq_some_iff, Option.map_eq_some_iff] at h
    obtain ⟨x', hx, y', hy, rfl⟩ := h
    exact ⟨fitsTables hx fun o h => ho o (by simp [Comb.ops, h]),
      fitsTables hy fun o h => ho o (by simp [Comb.ops, h])⟩
  | .table n xs t, c, h, ho => by
    simp only [secretToCggi, Option.bind_eq_some_iff] at h
    obtain ⟨l, hl, hc⟩ := h
    rw [allSome_eq] at hl
    have hlen : n = l.length := by simpa using congrArg List.length hl
    apply convertTable_fits hc
    · intro x hx
      have : some x ∈ List.ofFn fun i : Fin n => secretToCggi (xs i) := by
        rw [hl]; exact List.mem_map.2 ⟨x, hx, rfl⟩
      obtain ⟨i, hi⟩ := List.mem_ofFn.1 this
      refine fitsTables (e := xs i) hi fun o h => ho o ?_
      simp only [Comb.ops, List.mem_append, List.mem_flatten]
      exact Or.inl ⟨_, List.mem_ofFn.2 ⟨i, rfl⟩, h⟩
    · rw [← hlen]
      exact ho (.table n) (by simp [Comb.ops])

/-- With at least two message bits gates fit as well. -/
theorem fits_of_fitsTables {p : Nat} (hp : 2 ≤ p) : ∀ {c : Cggi}, c.FitsTables p → c.Fits p
  | .arg _, _ => trivial
  | .trivial _, _ => trivial
  | .not x, h => fits_of_fitsTables (c := x) hp h
  | .gate _ x y, h => ⟨fits_of_fitsTables (c := x) hp h.1, fits_of_fitsTables (c := y) hp h.2, fun _ => hp⟩
  | .lut2 _ _ _, h => ⟨fits_of_fitsTables hp h.1, fits_of_fitsTables hp h.2.1, h.2.2⟩
  | .lut3 _ _ _ _, h => ⟨fits_of_fitsTables hp h.1, fits_of_fitsTables hp h.2.1,
      fits_of_fitsTables hp h.2.2.1, h.2.2.2⟩
  | .lut4 _ _ _ _ _, h => ⟨fits_of_fitsTables hp h.1, fits_of_fitsTables hp h.2.1,
      fits_of_fitsTables hp h.2.2.1, fits_of_fitsTables hp h.2.2.2.1⟩

/-- A converted program with a table has a table of three or four inputs. -/
theorem hasTable_ops : ∀ {e : Comb} {c : Cggi}, secretToCggi e = some c → e.HasTable →
    ∃ n, 3 ≤ n ∧ CombOp.table n ∈ e.ops
  | .secret _, _, _, h => h.elim
  | .clear _, _, _, h => h.elim
  | .inv x, c, h, ht => by
    simp only [secretToCggi, Option.map_eq_some_iff] at h
    obtain ⟨x', hx, rfl⟩ := h
    obtain ⟨n, h3, hn⟩ := hasTable_ops (e := x) hx ht
    exact ⟨n, h3, by simp [Comb.ops, hn]⟩
  | .gate g x y, c, h, ht => by
    simp only [secretToCggi, Option.bind_eq_some_iff, Option.map_eq_some_iff] at h
    obtain ⟨x', hx, y', hy, rfl⟩ := h
    rcases ht with ht | ht
    · obtain ⟨n, h3, hn⟩ := hasTable_ops (e := x) hx ht
      exact ⟨n, h3, by simp [Comb.ops, hn]⟩
    · obtain ⟨n, h3, hn⟩ := hasTable_ops (e := y) hy ht
      exact ⟨n, h3, by simp [Comb.ops, hn]⟩
  | .table n xs t, c, h, _ => by
    simp only [secretToCggi, Option.bind_eq_some_iff] at h
    obtain ⟨l, hl, hc⟩ := h
    rw [allSome_eq] at hl
    have hlen : n = l.length := by simpa using congrArg List.length hl
    refine ⟨n, ?_, by simp [Comb.ops]⟩
    unfold convertTable at hc
    split at hc
    · simp [hlen]
    · simp [hlen]
    · simp at hc

/-! ## The verifier -/

theorem activeBits_le {t n : Nat} (h : t < 2 ^ n) : activeBits t ≤ n := by
  unfold activeBits
  split
  · omega
  · rename_i h0
    have := (Nat.log2_lt h0).2 h
    omega

theorem verify_lincomb {p : Nat} {xs : List (Ct × Int)} {t : Nat} :
    (lincombOf false xs t).verify p ↔
      (∀ x ∈ xs, x.1.verify p ∧ x.2 ≤ 2 ^ p - 1) ∧ activeBits t ≤ 2 ^ p - 1 + 1 := by
  simp only [lincombOf, Bool.false_eq_true, if_false, Ct.verify]
  constructor
  · rintro ⟨h1, h2, h3⟩
    refine ⟨fun x hx => ?_, h3⟩
    obtain ⟨i, rfl⟩ := List.get_of_mem hx
    exact ⟨h1 i, h2 i⟩
  · rintro ⟨h1, h3⟩
    exact ⟨fun i => (h1 _ (List.get_mem xs i)).1, fun i => (h1 _ (List.get_mem xs i)).2, h3⟩

theorem two_le_of_four_le {p : Nat} (h : 3 ≤ 2 ^ p - 1 + 1) : 2 ≤ p := by
  by_contra hp
  have : 2 ^ p ≤ 2 ^ 1 := pow_le_pow_of_le (by omega)
  omega

theorem verify_expandGate {p t : Nat} {x y : Ct} (h : (expandGate x y t).verify p)
    (ht : 3 ≤ activeBits t) : x.verify p ∧ y.verify p ∧ 2 ≤ p := by
  simp only [expandGate, Ct.verify] at h
  exact ⟨h.1.2, h.1.1, two_le_of_four_le (le_trans ht h.2)⟩

/-- What the verifier accepts without expansion fits. -/
theorem fits_of_verify {p : Nat} : ∀ {e : Cggi}, (decompose false e).verify p → e.Fits p
  | .arg _, _ => trivial
  | .trivial _, _ => trivial
  | .not x, h => fits_of_verify (e := x) h
  | .gate .and x y, h => by
    obtain ⟨hx, hy, h2⟩ := verify_expandGate h (by decide +kernel)
    exact ⟨fits_of_verify hx, fits_of_verify hy, fun _ => h2⟩
  | .gate .or x y, h => by
    obtain ⟨hx, hy, h2⟩ := verify_expandGate h (by decide +kernel)
    exact ⟨fits_of_verify hx, fits_of_verify hy, fun _ => h2⟩
  | .gate .xor x y, h => by
    obtain ⟨hx, hy, h2⟩ := verify_expandGate h (by decide +kernel)
    exact ⟨fits_of_verify hx, fits_of_verify hy, fun _ => h2⟩
  | .gate .nand x y, h => ⟨fits_of_verify h.1, fits_of_verify h.2, by simp⟩
  | .gate .nor x y, h => ⟨fits_of_verify h.1, fits_of_verify h.2, by simp⟩
  | .gate .xnor x y, h => ⟨fits_of_verify h.1, fits_of_verify h.2, by simp⟩
  | .lut2 b a t, h => by
    rw [decompose, verify_lincomb] at h
    simp only [List.mem_cons, List.not_mem_nil, or_false, forall_eq_or_imp, forall_eq] at h
    refine ⟨fits_of_verify h.1.1.1, fits_of_verify h.1.2.1, ?_⟩
    have := h.1.1.2
    by_contra hp
    have h1 : p = 0 ∨ p = 1 := by omega
    rcases h1 with rfl | rfl <;> norm_num at this
  | .lut3 c b a t, h => by
    rw [decompose, verify_lincomb] at h
    simp only [List.mem_cons, List.not_mem_nil, or_false, forall_eq_or_imp, forall_eq] at h
    refine ⟨fits_of_verify h.1.1.1, fits_of_verify h.1.2.1.1, fits_of_verify h.1.2.2.1, ?_⟩
    have := h.1.1.2
    by_contra hp
    have h1 : p = 0 ∨ p = 1 ∨ p = 2 := by omega
    rcases h1 with rfl | rfl | rfl <;> norm_num at this
  | .lut4 d c b a t, h => ⟨fits_of_verify h.1, fits_of_verify h.2.1, fits_of_verify h.2.2.1,
      fits_of_verify h.2.2.2⟩

/-! ## Which programs are converted -/

theorem secretToCggi_supported : ∀ {e : Comb}, e.Supported → ∃ c, secretToCggi e = some c
  | .secret i, _ => ⟨_, rfl⟩
  | .clear b, _ => ⟨_, rfl⟩
  | .inv x, h => by
    obtain ⟨c, hc⟩ := secretToCggi_supported (e := x) h
    exact ⟨.not c, by simp [secretToCggi, hc]⟩
  | .gate g x y, h => by
    obtain ⟨c, hc⟩ := secretToCggi_supported h.1
    obtain ⟨d, hd⟩ := secretToCggi_supported h.2
    exact ⟨.gate g c d, by simp [secretToCggi, hc, hd]⟩
  | .table n xs t, h => by
    have hx : ∀ i, ∃ c, secretToCggi (xs i) = some c := fun i => secretToCggi_supported (h.1 i)
    choose f hf using hx
    have e : allSome (List.ofFn fun i : Fin n => secretToCggi (xs i)) = some (List.ofFn f) := by
      rw [allSome_eq, List.map_ofFn]
      congr 1
      funext i
      exact hf i
    rcases h.2.1 with rfl | rfl
    · exact ⟨.lut3 (f 0) (f 1) (f 2) t, by rw [secretToCggi, e]; rfl⟩
    · exact ⟨.lut4 (f 0) (f 1) (f 2) (f 3) t, by rw [secretToCggi, e]; rfl⟩

/-- Decomposed programs are accepted by the verifier. -/
theorem decompose_verify {p : Nat} (hp : 2 ≤ p) (expand : Bool) : ∀ {e : Comb} {c : Cggi},
    e.Supported → secretToCggi e = some c → (∀ o ∈ e.ops, o.size ≤ p) →
    (decompose expand c).verify p
  | .secret i, c, _, h, _ => by
    simp only [secretToCggi, Option.some.injEq] at h; subst h; exact trivial
  | .clear b, c, _, h, _ => by
    simp only [secretToCggi, Option.some.injEq] at h; subst h; exact trivial
  | .inv x, c, hs, h, ho => by
    simp only [secretToCggi, Option.map_eq_some_iff] at h
    obtain ⟨x', hx, rfl⟩ := h
    exact decompose_verify (e := x) (c := x') hp expand hs hx fun o h => ho o (by simp [Comb.ops, h])
  | .gate g x y, c, hs, h, ho => by
    simp only [secretToCggi, Option.bind_eq_some_iff, Option.map_eq_some_iff] at h
    obtain ⟨x', hx, y', hy, rfl⟩ := h
    have h1 := decompose_verify hp expand hs.1 hx fun o h => ho o (by simp [Comb.ops, h])
    have h2 := decompose_verify hp expand hs.2 hy fun o h => ho o (by simp [Comb.ops, h])
    have h4 := pow_le_pow_of_le hp
    have ha : activeBits andLut = 4 := by decide +kernel
    have hb : activeBits orLut = 4 := by decide +kernel
    have hc : activeBits xorLut = 3 := by decide +kernel
    cases g <;> simp only [decompose, expandGate, Ct.verify, h1, h2, true_and, and_true, ha, hb, hc] <;>
      omega
  | .table n xs t, c, hs, h, ho => by
    simp only [secretToCggi, Option.bind_eq_some_iff] at h
    obtain ⟨l, hl, hc⟩ := h
    rw [allSome_eq] at hl
    have hlen : n = l.length := by simpa using congrArg List.length hl
    have hl' : ∀ x ∈ l, (decompose expand x).verify p := by
      intro x hx
      have : some x ∈ List.ofFn fun i : Fin n => secretToCggi (xs i) := by
        rw [hl]; exact List.mem_map.2 ⟨x, hx, rfl⟩
      obtain ⟨i, hi⟩ := List.mem_ofFn.1 this
      refine decompose_verify (e := xs i) hp expand (hs.1 i) hi fun o h => ho o ?_
      simp only [Comb.ops, List.mem_append, List.mem_flatten]
      exact Or.inl ⟨_, List.mem_ofFn.2 ⟨i, rfl⟩, h⟩
    have hn : n ≤ p := ho (.table n) (by simp [Comb.ops])
    have ht := activeBits_le hs.2.2
    have h2 := pow_le_pow_of_le hn
    unfold convertTable at hc
    split at hc
    · simp only [Option.some.injEq] at hc
      subst hc
      have h3 : n = 3 := by simpa using hlen
      subst h3
      simp only [List.mem_cons, List.not_mem_nil, or_false, forall_eq_or_imp, forall_eq] at hl'
      cases expand
      · rw [decompose, verify_lincomb]
        simp only [List.mem_cons, List.not_mem_nil, or_false, forall_eq_or_imp, forall_eq]
        have h8 : (8 : Int) ≤ 2 ^ p := by exact_mod_cast h2
        refine ⟨⟨⟨hl'.1, by omega⟩, ⟨hl'.2.1, by omega⟩, hl'.2.2, by omega⟩, by omega⟩
      · simp only [decompose, lincombOf, if_true, combine, Ct.verify]
        exact ⟨⟨⟨hl'.1, hl'.2.1⟩, hl'.2.2⟩, by omega⟩
    · simp only [Option.some.injEq] at hc
      subst hc
      simp only [List.mem_cons, List.not_mem_nil, or_false, forall_eq_or_imp, forall_eq] at hl'
      exact ⟨hl'.1, hl'.2.1, hl'.2.2.1, hl'.2.2.2⟩
    · simp at hc

end Heir.Lut
