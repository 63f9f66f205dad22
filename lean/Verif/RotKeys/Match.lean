import Verif.RotKeys.Den

/-!
# Evaluated values and values at run time
-/

namespace Heir.RotKeys

open Heir.Dag (Kind LoopNode Sem Heap Env Lit Ordered)

/-- An evaluated value of a class describes the value at run time. -/
def Rep (slots : Nat) : Cls → Lit → RVal → Prop
  | .num, l, v => ∃ x, l = .scalar x ∧ v = .int x
  | .bool, l, v => ∃ x b, l = .scalar x ∧ v = .bool b ∧ (x ≠ 0 ↔ b = true)
  | .table, l, v => ∃ xs, l = .vec xs ∧ v = .table xs
  | .ct1, l, _ => ∃ xs, l = .vec xs ∧ xs.length = slots
  | .ct2, l, _ => ∃ rows, l = .mat rows ∧ rows ≠ [] ∧ ∀ r ∈ rows, r.length = slots
  | .unk, _, _ => True

/-- Lists of values. -/
def RepL (slots : Nat) (cls : Nat → Cls) : List Nat → List Lit → List RVal → Prop
  | [], [], [] => True
  | a :: as, l :: ls, v :: vs => Rep slots (cls a) l v ∧ RepL slots cls as ls vs
  | _, _, _ => False

variable {slots : Nat} {cls : Nat → Cls} {P : Int → Bool} {D : Heap ROp} {cs : List (Nat × Cst)}

theorem RepL.length : ∀ {as : List Nat} {ls : List Lit} {vs : List RVal},
    RepL slots cls as ls vs → ls.length = as.length ∧ vs.length = as.length
  | [], [], [], _ => ⟨rfl, rfl⟩
  | a :: as, l :: ls, v :: vs, h => by
    have := RepL.length h.2
    simp [this.1, this.2]
  | [], _ :: _, _, h => h.elim
  | [], [], _ :: _, h => h.elim
  | _ :: _, [], _, h => h.elim
  | _ :: _, _ :: _, [], h => h.elim

theorem Rep.sub {a b : Nat} (h : sub cls a b = true) {l : Lit} {v : RVal}
    (hr : Rep slots (cls b) l v) : Rep slots (cls a) l v := by
  simp only [RotKeys.sub, Bool.or_eq_true, beq_iff_eq] at h
  rcases h with h | h
  · rw [h]; trivial
  · rw [h]; exact hr

theorem RepL.sub : ∀ {as bs : List Nat} {ls : List Lit} {vs : List RVal},
    (List.zipWith (sub cls) as bs).all id = true → as.length = bs.length →
    RepL slots cls bs ls vs → RepL slots cls as ls vs
  | [], [], [], [], _, _, _ => trivial
  | a :: as, b :: bs, l :: ls, v :: vs, h, hl, hr => by
    simp only [List.zipWith_cons_cons, List.all_cons, id_eq, Bool.and_eq_true] at h
    exact ⟨Rep.sub h.1 hr.1, RepL.sub h.2 (by simpa using hl) hr.2⟩
  | [], _ :: _, _, _, _, hl, _ => by simp at hl
  | _ :: _, [], _, _, _, hl, _ => by simp at hl
  | [], [], _ :: _, _, _, _, h => h.elim
  | [], [], [], _ :: _, _, _, h => h.elim
  | _ :: _, _ :: _, [], _, _, _, h => h.elim
  | _ :: _, _ :: _, _ :: _, [], _, _, h => h.elim

theorem RepL.of_map {σ : Env Lit} {ρ : Nat → RVal} : ∀ {as : List Nat} {ls : List Lit},
    Dag.allSome (den1 P D σ) as = some ls →
    (∀ v ∈ as, ∀ l, den1 P D σ v = some l → Rep slots (cls v) l (ρ v)) →
    RepL slots cls as ls (as.map ρ)
  | [], ls, h, _ => by
    simp only [Dag.allSome, Option.some.injEq] at h
    subst h
    trivial
  | a :: as, ls, h, hr => by
    obtain ⟨b, bs, h1, h2, rfl⟩ := allSome_cons h
    exact ⟨hr a (by simp) b h1, RepL.of_map h2 fun v hv => hr v (by simp [hv])⟩

/-! ## Environments -/

theorem upd_same (ρ : Nat → RVal) (r : Nat) (v : RVal) : upd ρ r v r = v := by simp [upd]

theorem upd_other (ρ : Nat → RVal) {r x : Nat} (v : RVal) (h : x ≠ r) : upd ρ r v x = ρ x := by
  simp [upd, h]

theorem updL_other : ∀ (ρ : Nat → RVal) {rs : List Nat} (vs : List RVal) {x : Nat}, x ∉ rs →
    updL ρ rs vs x = ρ x
  | ρ, [], vs, x, _ => by cases vs <;> rfl
  | ρ, r :: rs, [], x, _ => rfl
  | ρ, r :: rs, v :: vs, x, h => by
    simp only [List.mem_cons, not_or] at h
    rw [updL, updL_other _ vs h.2, upd_other _ _ h.1]

theorem updL_get : ∀ (ρ : Nat → RVal) {rs : List Nat} {vs : List RVal}, rs.Nodup →
    vs.length = rs.length → ∀ {i r : Nat}, rs[i]? = some r → vs[i]? = some (updL ρ rs vs r)
  | ρ, [], vs, _, _, i, r, h => by simp at h
  | ρ, r' :: rs, [], _, hl, i, r, h => by simp at hl
  | ρ, r' :: rs, v :: vs, hn, hl, i, r, h => by
    rw [List.nodup_cons] at hn
    cases i with
    | zero =>
      simp only [List.getElem?_cons_zero, Option.some.injEq] at h
      subst h
      rw [updL, updL_other _ _ hn.1, upd_same]
      rfl
    | succ i =>
      simp only [List.getElem?_cons_succ] at h ⊢
      rw [updL]
      exact updL_get _ hn.2 (by simpa using hl) h

theorem setVars_get : ∀ (σ : Env Lit) {rs : List Nat} {vs : List Lit}, rs.Nodup →
    vs.length = rs.length → ∀ {i r : Nat}, rs[i]? = some r → vs[i]? = Dag.setVars σ rs vs r
  | σ, [], vs, _, _, i, r, h => by simp at h
  | σ, r' :: rs, [], _, hl, i, r, h => by simp at hl
  | σ, r' :: rs, v :: vs, hn, hl, i, r, h => by
    rw [List.nodup_cons] at hn
    cases i with
    | zero =>
      simp only [List.getElem?_cons_zero, Option.some.injEq] at h
      subst h
      rw [Dag.setVars, Dag.setVars_other _ _ hn.1, Dag.setVar_same]
      rfl
    | succ i =>
      simp only [List.getElem?_cons_succ] at h ⊢
      rw [Dag.setVars]
      exact setVars_get _ hn.2 (by simpa using hl) h

theorem RepL.get : ∀ {as : List Nat} {ls : List Lit} {vs : List RVal}, RepL slots cls as ls vs →
    ∀ {i a : Nat} {l : Lit} {v : RVal}, as[i]? = some a → ls[i]? = some l → vs[i]? = some v →
    Rep slots (cls a) l v
  | [], _, _, _, i, a, l, v, h, _, _ => by simp at h
  | _ :: _, [], _, h, _, _, _, _, _, _, _ => h.elim
  | _ :: _, _ :: _, [], h, _, _, _, _, _, _, _ => h.elim
  | a' :: as, l' :: ls, v' :: vs, h, i, a, l, v, h1, h2, h3 => by
    cases i with
    | zero =>
      simp only [List.getElem?_cons_zero, Option.some.injEq] at h1 h2 h3
      subst h1 h2 h3
      exact h.1
    | succ i =>
      simp only [List.getElem?_cons_succ] at h1 h2 h3
      exact RepL.get h.2 h1 h2 h3

/-- Results set on both sides. -/
theorem RepL.upd {rs : List Nat} {ls : List Lit} {vs : List RVal} (h : RepL slots cls rs ls vs)
    (hn : rs.Nodup) (ρ : Nat → RVal) {i r : Nat} (hi : rs[i]? = some r) {l : Lit}
    (hl : ls[i]? = some l) : Rep slots (cls r) l (updL ρ rs vs r) :=
  h.get hi hl (updL_get ρ hn h.length.2 hi)

/-! ## Operators -/

theorem int32_eq {x y : Int} (h : Dag.int32 x = some y) : y = x ∧ in32 x = true := by
  unfold Dag.int32 at h
  split at h
  · next h1 => simp only [Option.some.injEq] at h; exact ⟨h.symm, by simpa [in32] using h1⟩
  · simp at h

theorem castInts_eq : ∀ {xs ys : List Int}, castInts xs = some ys → ys = xs
  | [], ys, h => by simp only [castInts, Option.some.injEq] at h; exact h.symm
  | x :: xs, ys, h => by
    simp only [castInts] at h
    obtain ⟨a, ha, h⟩ := Option.bind_eq_some_iff.1 h
    obtain ⟨as, has, h⟩ := Option.bind_eq_some_iff.1 h
    simp only [Option.some.injEq] at h
    rw [← h, (int32_eq ha).1, castInts_eq has]

theorem wrapS_of {w : Nat} {x : Int} (hw : 32 ≤ w) (h : in32 x = true) : wrapS w x = x := by
  simp only [in32, decide_eq_true_eq] at h
  unfold wrapS
  have h1 : (2 : Nat) ^ 32 ≤ 2 ^ w := Nat.pow_le_pow_right (by omega) hw
  have h2 : (2 : Nat) ^ 32 = 2 * 2147483648 := by norm_num
  obtain ⟨m, hm⟩ : ∃ m, (2 : Nat) ^ w = 2 * m := ⟨2 ^ (w - 1), by
    rw [← Nat.pow_succ', Nat.succ_eq_add_one, Nat.sub_add_cancel (by omega)]⟩
  rw [hm] at h1 ⊢
  rw [h2] at h1
  have h3 : 2147483648 ≤ m := by omega
  rw [Int.bmod_eq_iff (by omega)]
  refine ⟨by omega, by omega, by simp⟩

theorem zipInt_length {f : Int → Int → Int} : ∀ {a b c : List Int}, Dag.zipInt f a b = some c →
    c.length = a.length
  | [], [], c, h => by simp only [Dag.zipInt, Option.some.injEq] at h; subst h; rfl
  | a :: as, b :: bs, c, h => by
    simp only [Dag.zipInt] at h
    obtain ⟨r, hr, h⟩ := Option.bind_eq_some_iff.1 h
    obtain ⟨rs, hrs, h⟩ := Option.bind_eq_some_iff.1 h
    simp only [Option.some.injEq] at h
    subst h
    simp [zipInt_length hrs]
  | [], _ :: _, c, h => by simp [Dag.zipInt] at h
  | _ :: _, [], c, h => by simp [Dag.zipInt] at h

theorem litBin_ct1 {f : Int → Int → Int} {xs : List Int} {b l : Lit}
    (h : Dag.litBin f (.vec xs) b = some l) : ∃ ys, l = .vec ys ∧ ys.length = xs.length := by
  cases b with
  | scalar _ => simp only [Dag.litBin, Option.some.injEq] at h; exact ⟨xs, h.symm, rfl⟩
  | mat _ => simp only [Dag.litBin, Option.some.injEq] at h; exact ⟨xs, h.symm, rfl⟩
  | vec ys =>
    simp only [Dag.litBin] at h
    obtain ⟨zs, hz, rfl⟩ := Option.map_eq_some_iff.1 h
    exact ⟨zs, rfl, zipInt_length hz⟩

theorem litBin_mat {f : Int → Int → Int} {m : List (List Int)} {b l : Lit}
    (h : Dag.litBin f (.mat m) b = some l) : l = .mat m := by
  cases b <;> simp only [Dag.litBin, Option.some.injEq] at h <;> exact h.symm

theorem holds_val {p : CmpP} (hp : signed p = true) (w : Nat) (a b : Int) :
    Dag.holds (predOf p) a b = p.val w a b := by
  cases p <;> first | rfl | simp [signed] at hp

theorem fn_val (o : BinOp) (a b : Int) : o.fn a b = o.val a b := by cases o <;> rfl

/-- The operators are the operations at run time. -/
theorem rep_op {r : Nat} {k : K} {args : List Nat} {nd : Kind ROp} (hk : okK cs cls r k args = true)
    (hnd : node cs k args = some nd) {ρ : Nat → RVal} {free v : RVal}
    (hC : ∀ a ∈ args, ∀ c, List.lookup a cs = some c → ρ a = cstVal c)
    (he : evalK free k (args.map ρ) = some v) {o : ROp} {c : List Nat} (hoc : nd = .pure o c)
    {σ : Env Lit} {ls : List Lit} (hls : Dag.allSome (den1 P D σ) c = some ls)
    (hr : ∀ a ∈ args, ∀ l, den1 P D σ a = some l → Rep slots (cls a) l (ρ a)) {l : Lit}
    (hl : rotPure o ls = some l) : Rep slots (cls r) l v := by
  subst hoc
  unfold okK at hk
  split at hk
  case h_1 hu => rw [hu]; trivial
  case h_2 i hu =>
    simp only [node, Option.some.injEq, Kind.pure.injEq] at hnd
    obtain ⟨rfl, rfl⟩ := hnd
    simp only [Dag.allSome, Option.some.injEq] at hls
    subst hls
    simp only [rotPure, konstLit] at hl
    obtain ⟨x, hx, rfl⟩ := Option.map_eq_some_iff.1 hl
    simp only [evalK, cstVal, Option.some.injEq] at he
    rw [hu]
    exact ⟨x, rfl, by rw [(int32_eq hx).1, ← he]⟩
  case h_3 op w a b hu =>
    simp only [Bool.and_eq_true, decide_eq_true_eq, beq_iff_eq] at hk
    simp only [node, Option.some.injEq, Kind.pure.injEq] at hnd
    obtain ⟨rfl, rfl⟩ := hnd
    obtain ⟨la, ls', ha, h', rfl⟩ := allSome_cons hls
    obtain ⟨lb, ls'', hb, h'', rfl⟩ := allSome_cons h'
    simp only [Dag.allSome, Option.some.injEq] at h''
    subst h''
    obtain ⟨xa, rfl, ea⟩ := hk.1.2 ▸ hr a (by simp) la ha
    obtain ⟨xb, rfl, eb⟩ := hk.2 ▸ hr b (by simp) lb hb
    simp only [rotPure, Dag.litBin] at hl
    obtain ⟨x, hx, rfl⟩ := Option.map_eq_some_iff.1 hl
    simp only [List.map_cons, List.map_nil, ea, eb, evalK, Option.some.injEq] at he
    rw [fn_val] at hx
    rw [hu]
    exact ⟨x, rfl, by rw [(int32_eq hx).1, ← he, wrapS_of hk.1.1 (int32_eq hx).2]⟩
  case h_4 w a b hu =>
    simp only [Bool.and_eq_true, decide_eq_true_eq, beq_iff_eq] at hk
    obtain ⟨d, hd, hd32⟩ := const32_iff hk.2
    simp only [node, intConst_of hd, Option.map_some, Option.some.injEq, Kind.pure.injEq] at hnd
    obtain ⟨rfl, rfl⟩ := hnd
    obtain ⟨la, ls', ha, h', rfl⟩ := allSome_cons hls
    simp only [Dag.allSome, Option.some.injEq] at h'
    subst h'
    obtain ⟨xa, rfl, ea⟩ := hk.1.2 ▸ hr a (by simp) la ha
    have eb := hC b (by simp) _ hd
    simp only [rotPure, Dag.litFloorDiv, wrap32_of hd32] at hl
    split at hl
    case isFalse => simp at hl
    case isTrue hne =>
      obtain ⟨x, hx, rfl⟩ := Option.map_eq_some_iff.1 hl
      simp only [List.map_cons, List.map_nil, ea, eb, cstVal, evalK, if_neg hne.2,
        Option.some.injEq] at he
      rw [hu]
      exact ⟨x, rfl, by rw [(int32_eq hx).1, ← he, wrapS_of hk.1.1 (int32_eq hx).2]⟩
  case h_5 t i hu =>
    simp only [Bool.and_eq_true, beq_iff_eq] at hk
    simp only [node, Option.some.injEq, Kind.pure.injEq] at hnd
    obtain ⟨rfl, rfl⟩ := hnd
    obtain ⟨la, ls', ha, h', rfl⟩ := allSome_cons hls
    obtain ⟨lb, ls'', hb, h'', rfl⟩ := allSome_cons h'
    simp only [Dag.allSome, Option.some.injEq] at h''
    subst h''
    obtain ⟨xa, rfl, ea⟩ := hk.1 ▸ hr t (by simp) la ha
    obtain ⟨xb, rfl, eb⟩ := hk.2 ▸ hr i (by simp) lb hb
    simp only [rotPure, Dag.litExtract] at hl
    simp only [List.map_cons, List.map_nil, ea, eb, evalK] at he
    split at hl
    · simp at hl
    next hlt =>
    rw [if_neg hlt] at he
    obtain ⟨x, hx, rfl⟩ := Option.map_eq_some_iff.1 hl
    rw [hx] at he
    rw [hu]
    exact ⟨x, rfl, (Option.some.inj he).symm⟩
  case h_6 b hu =>
    simp only [node, Option.some.injEq, Kind.pure.injEq] at hnd
    obtain ⟨rfl, rfl⟩ := hnd
    simp only [Dag.allSome, Option.some.injEq] at hls
    subst hls
    simp only [rotPure, konstLit, Option.some.injEq] at hl
    simp only [evalK, cstVal, Option.some.injEq] at he
    rw [hu]
    exact ⟨_, b, hl.symm, he.symm, by cases b <;> simp⟩
  case h_7 w p a b hu =>
    simp only [Bool.and_eq_true, decide_eq_true_eq, beq_iff_eq] at hk
    simp only [node, Option.some.injEq, Kind.pure.injEq] at hnd
    obtain ⟨rfl, rfl⟩ := hnd
    obtain ⟨la, ls', ha, h', rfl⟩ := allSome_cons hls
    obtain ⟨lb, ls'', hb, h'', rfl⟩ := allSome_cons h'
    simp only [Dag.allSome, Option.some.injEq] at h''
    subst h''
    obtain ⟨xa, rfl, ea⟩ := hk.1.2 ▸ hr a (by simp) la ha
    obtain ⟨xb, rfl, eb⟩ := hk.2 ▸ hr b (by simp) lb hb
    simp only [rotPure, Option.some.injEq] at hl
    simp only [List.map_cons, List.map_nil, ea, eb, evalK, Option.some.injEq] at he
    rw [hu]
    refine ⟨_, _, hl.symm, he.symm, ?_⟩
    rw [holds_val hk.1.1.2 w]
    cases p.val w xa xb <;> simp
  case h_8 vs hu =>
    simp only [node, Option.some.injEq, Kind.pure.injEq] at hnd
    obtain ⟨rfl, rfl⟩ := hnd
    simp only [Dag.allSome, Option.some.injEq] at hls
    subst hls
    simp only [rotPure, konstLit] at hl
    obtain ⟨x, hx, rfl⟩ := Option.map_eq_some_iff.1 hl
    simp only [evalK, cstVal, Option.some.injEq] at he
    rw [hu]
    exact ⟨x, rfl, by rw [castInts_eq hx, ← he]⟩
  case h_9 n x hu =>
    obtain ⟨d, hd, hd32⟩ := const32_iff hk
    simp only [node, intConst_of hd, Option.some.injEq, Kind.pure.injEq] at hnd
    obtain ⟨rfl, rfl⟩ := hnd
    simp only [Dag.allSome, Option.some.injEq] at hls
    subst hls
    simp only [rotPure] at hl
    obtain ⟨y, hy, rfl⟩ := Option.map_eq_some_iff.1 hl
    have ex := hC x (by simp) _ hd
    simp only [List.map_cons, List.map_nil, ex, cstVal, evalK, Option.some.injEq] at he
    rw [hu]
    exact ⟨_, rfl, by rw [(int32_eq hy).1, ← he]⟩
  case h_21 => simp at hk
  all_goals
    simp only [beq_iff_eq] at hk
    simp only [node, Option.some.injEq, Kind.pure.injEq] at hnd
    obtain ⟨rfl, rfl⟩ := hnd
  case h_10 op w a b hu =>
    obtain ⟨la, ls', ha, h', rfl⟩ := allSome_cons hls
    obtain ⟨lb, ls'', hb, h'', rfl⟩ := allSome_cons h'
    simp only [Dag.allSome, Option.some.injEq] at h''
    subst h''
    obtain ⟨xs, rfl, hx⟩ := hk ▸ hr a (by simp) la ha
    obtain ⟨ys, rfl, hy⟩ := litBin_ct1 hl
    rw [hu]
    exact ⟨ys, rfl, hy.trans hx⟩
  case h_11 op a b hu =>
    obtain ⟨la, ls', ha, h', rfl⟩ := allSome_cons hls
    obtain ⟨lb, ls'', hb, h'', rfl⟩ := allSome_cons h'
    simp only [Dag.allSome, Option.some.injEq] at h''
    subst h''
    obtain ⟨xs, rfl, hx⟩ := hk ▸ hr a (by simp) la ha
    obtain ⟨ys, rfl, hy⟩ := litBin_ct1 hl
    rw [hu]
    exact ⟨ys, rfl, hy.trans hx⟩
  case h_12 t i hu =>
    obtain ⟨la, ls', ha, h', rfl⟩ := allSome_cons hls
    obtain ⟨lb, ls'', hb, h'', rfl⟩ := allSome_cons h'
    simp only [Dag.allSome, Option.some.injEq] at h''
    subst h''
    obtain ⟨rows, rfl, hne, hx⟩ := hk ▸ hr t (by simp) la ha
    cases lb with
    | vec _ => simp [rotPure, Dag.litExtract] at hl
    | mat _ => simp [rotPure, Dag.litExtract] at hl
    | scalar j =>
      simp only [rotPure, Dag.litExtract] at hl
      split at hl
      · simp at hl
      · obtain ⟨row, hrow, rfl⟩ := Option.map_eq_some_iff.1 hl
        rw [hu]
        exact ⟨row, rfl, hx row (List.mem_of_getElem? hrow)⟩
  case h_13 s hu =>
    obtain ⟨la, ls', ha, h', rfl⟩ := allSome_cons hls
    simp only [Dag.allSome, Option.some.injEq] at h'
    subst h'
    obtain ⟨xs, rfl, hx⟩ := hk ▸ hr s (by simp) la ha
    simp only [rotPure, Option.some.injEq] at hl
    rw [hu]
    exact ⟨xs, hl.symm, hx⟩
  case h_14 s d i hu =>
    obtain ⟨la, ls', ha, h', rfl⟩ := allSome_cons hls
    obtain ⟨lb, ls'', hb, h'', rfl⟩ := allSome_cons h'
    obtain ⟨xs, rfl, hx⟩ := hk ▸ hr d (by simp) lb hb
    simp only [rotPure, Option.some.injEq] at hl
    rw [hu]
    exact ⟨xs, hl.symm, hx⟩
  case h_15 s d hu =>
    obtain ⟨la, ls', ha, h', rfl⟩ := allSome_cons hls
    obtain ⟨lb, ls'', hb, h'', rfl⟩ := allSome_cons h'
    obtain ⟨xs, rfl, hx⟩ := hk ▸ hr d (by simp) lb hb
    simp only [rotPure, Option.some.injEq] at hl
    rw [hu]
    exact ⟨xs, hl.symm, hx⟩
  case h_16 op w a b hu =>
    obtain ⟨la, ls', ha, h', rfl⟩ := allSome_cons hls
    obtain ⟨lb, ls'', hb, h'', rfl⟩ := allSome_cons h'
    simp only [Dag.allSome, Option.some.injEq] at h''
    subst h''
    obtain ⟨rows, rfl, hne, hx⟩ := hk ▸ hr a (by simp) la ha
    rw [hu]
    exact ⟨rows, litBin_mat (f := op.fn) (b := lb) hl, hne, hx⟩
  case h_17 op a b hu =>
    obtain ⟨la, ls', ha, h', rfl⟩ := allSome_cons hls
    obtain ⟨lb, ls'', hb, h'', rfl⟩ := allSome_cons h'
    simp only [Dag.allSome, Option.some.injEq] at h''
    subst h''
    obtain ⟨rows, rfl, hne, hx⟩ := hk ▸ hr a (by simp) la ha
    rw [hu]
    exact ⟨rows, litBin_mat (f := op.fn) (b := lb) hl, hne, hx⟩
  case h_18 s hu =>
    obtain ⟨la, ls', ha, h', rfl⟩ := allSome_cons hls
    simp only [Dag.allSome, Option.some.injEq] at h'
    subst h'
    obtain ⟨rows, rfl, hne, hx⟩ := hk ▸ hr s (by simp) la ha
    simp only [rotPure, Option.some.injEq] at hl
    rw [hu]
    exact ⟨rows, hl.symm, hne, hx⟩
  case h_19 s d i hu =>
    obtain ⟨la, ls', ha, h', rfl⟩ := allSome_cons hls
    obtain ⟨lb, ls'', hb, h'', rfl⟩ := allSome_cons h'
    obtain ⟨rows, rfl, hne, hx⟩ := hk ▸ hr d (by simp) lb hb
    simp only [rotPure, Option.some.injEq] at hl
    rw [hu]
    exact ⟨rows, hl.symm, hne, hx⟩
  case h_20 s d hu =>
    obtain ⟨la, ls', ha, h', rfl⟩ := allSome_cons hls
    obtain ⟨lb, ls'', hb, h'', rfl⟩ := allSome_cons h'
    obtain ⟨rows, rfl, hne, hx⟩ := hk ▸ hr d (by simp) lb hb
    simp only [rotPure, Option.some.injEq] at hl
    rw [hu]
    exact ⟨rows, hl.symm, hne, hx⟩

/-! ## Rotations -/

theorem amounts_eq {σ : Env Lit} {ρ : Nat → RVal} : ∀ {sh : List (Int ⊕ Nat)} {vs : List Lit}
    {as as' : List Int}, Dag.allSome (den1 P D σ) (dynShifts sh) = some vs →
    (∀ v ∈ dynShifts sh, ∀ l, den1 P D σ v = some l → Rep slots .num l (ρ v)) →
    amounts (staticShifts sh) vs = some as → shiftVals ρ sh = some as' → as = as'
  | [], vs, as, as', h, _, h1, h2 => by
    simp only [dynShifts, List.filterMap_nil, Dag.allSome, Option.some.injEq] at h
    subst h
    simp only [staticShifts, List.map_nil, amounts, Option.some.injEq] at h1
    simp only [shiftVals, Option.some.injEq] at h2
    rw [← h1, ← h2]
  | .inl i :: sh, vs, as, as', h, hr, h1, h2 => by
    simp only [staticShifts, List.map_cons, amounts] at h1
    obtain ⟨a, ha, h1⟩ := Option.bind_eq_some_iff.1 h1
    obtain ⟨bs, hbs, h1⟩ := Option.bind_eq_some_iff.1 h1
    simp only [Option.some.injEq] at h1
    simp only [shiftVals] at h2
    obtain ⟨cs', hcs, rfl⟩ := Option.map_eq_some_iff.1 h2
    have hd : dynShifts (.inl i :: sh) = dynShifts sh := rfl
    rw [hd] at h hr
    rw [← h1, (int32_eq ha).1, amounts_eq h hr hbs hcs]
  | .inr v :: sh, vs, as, as', h, hr, h1, h2 => by
    have hd : dynShifts (.inr v :: sh) = v :: dynShifts sh := rfl
    rw [hd] at h hr
    obtain ⟨l, ls, hl, hls, rfl⟩ := allSome_cons h
    obtain ⟨x, rfl, hx⟩ := hr v (by simp) l hl
    simp only [staticShifts, List.map_cons, amounts] at h1
    obtain ⟨bs, hbs, h1⟩ := Option.bind_eq_some_iff.1 h1
    simp only [Option.some.injEq] at h1
    simp only [shiftVals, hx] at h2
    obtain ⟨cs', hcs, rfl⟩ := Option.map_eq_some_iff.1 h2
    rw [← h1, amounts_eq hls (fun v hv => hr v (by simp [hv])) hbs hcs]

theorem normalize_mod {a : Int} {s : Nat} (hs : s ≠ 0) : (normalize a s - a) % (s : Int) = 0 := by
  unfold normalize
  have hs' : (0 : Int) < s := by omega
  have h1 := Int.mul_tdiv_add_tmod a s
  have h2 := Int.mul_tdiv_add_tmod (a.tmod s + s) s
  apply Int.emod_eq_zero_of_dvd
  refine ⟨1 - a.tdiv s - (a.tmod s + s).tdiv s, ?_⟩
  have e1 : a.tmod s = a - s * a.tdiv s := by omega
  have e2 : (a.tmod s + s).tmod s = a.tmod s + s - s * (a.tmod s + s).tdiv s := by omega
  rw [e2, e1]
  ring

/-- A rotation whose record avoids the residue of `x₀` does not rotate by `x₀`. -/
theorem rot_avoids {x₀ : Int} (hP : P = fun k => decide ((k - x₀) % (slots : Int) = 0)) {t : Lit}
    {ct : Cls} (hct : ct = .ct1 ∨ ct = .ct2) {u : RVal} (ht : Rep slots ct t u)
    {sh : List (Option Int)} {vs : List Lit} {l : Lit}
    (hl : rotPure (.rotate sh) (t :: vs) = some l) (hrec : ∀ k ∈ recOf (.rotate sh) (t :: vs), P k = false)
    {as : List Int} (has : amounts sh vs = some as) : l = t ∧ x₀ ∉ as := by
  simp only [rotPure] at hl
  obtain ⟨ss, hss, rfl⟩ := Option.map_eq_some_iff.1 hl
  refine ⟨rfl, fun hx => ?_⟩
  simp only [recOf, hss, Option.getD_some] at hrec
  simp only [shiftsOf] at hss
  obtain ⟨d, hd, hss⟩ := Option.bind_eq_some_iff.1 hss
  obtain ⟨as', has', hss⟩ := Option.bind_eq_some_iff.1 hss
  rw [has, Option.some.injEq] at has'
  subst has'
  have hds : d = slots := by
    rcases hct with rfl | rfl
    · obtain ⟨xs, rfl, hxs⟩ := ht
      simp only [lastDim, Option.some.injEq] at hd
      rw [← hd, hxs]
    · obtain ⟨rows, rfl, hne, hxs⟩ := ht
      simp only [lastDim, Option.some.injEq] at hd
      cases rows with
      | nil => exact absurd rfl hne
      | cons row rows =>
        simp only [List.headD_cons] at hd
        rw [← hd, hxs row (by simp)]
  subst hds
  split at hss
  · simp at hss
  · next hne =>
    simp only [Option.some.injEq] at hss
    have hd0 : d ≠ 0 := fun h0 => hne ⟨h0, by rintro rfl; simp at hx⟩
    have := hrec (normalize x₀ d) (by rw [← hss]; exact List.mem_map.2 ⟨x₀, hx, rfl⟩)
    rw [hP] at this
    simp only [decide_eq_false_iff_not] at this
    exact this (normalize_mod hd0)

/-! ## Variables and unknown operations -/

theorem replicate_rows {n m : Nat} : ∀ r ∈ List.replicate n (List.replicate m (0 : Int)), r.length = m := by
  intro r hr
  rw [List.eq_of_mem_replicate hr, List.length_replicate]

theorem rep_default {G : Sig} {r : Nat} {l : Lit} (h : G.env r = some l) (v : RVal) :
    Rep G.slots (defaultCls G.slots (G.ty r)) l v := by
  unfold Sig.env at h
  have c1 : ∀ n, zeroOf (some [n]) = some l → n = G.slots → Rep G.slots .ct1 l v := by
    intro n h hs
    simp only [zeroOf, Option.some.injEq] at h
    exact ⟨_, h.symm, by rw [List.length_replicate, hs]⟩
  have c2 : ∀ n m s, zeroOf (some (n :: m :: s)) = some l → m = G.slots → 0 < n →
      Rep G.slots .ct2 l v := by
    intro n m s h hs hn
    simp only [zeroOf, Option.some.injEq] at h
    refine ⟨_, h.symm, ?_, ?_⟩
    · intro h0
      have := congrArg List.length h0
      simp at this
      omega
    · intro r hr
      rw [replicate_rows r hr, hs]
  unfold defaultCls
  split
  · next ht => rw [ht] at h; exact c1 _ h rfl
  · next ht => rw [ht] at h; exact c1 _ h rfl
  · next n ht =>
    rw [ht] at h
    split
    · next h0 => exact c2 _ _ _ h rfl h0
    · trivial
  · next n m s ht =>
    rw [ht] at h
    split
    · next h0 => exact c2 _ _ _ h h0.1 h0.2
    · trivial
  · next n ht =>
    rw [ht] at h
    split
    · next h0 => exact c1 _ h h0
    · trivial
  · next n m s ht =>
    rw [ht] at h
    split
    · next h0 => exact c2 _ _ _ h h0.1 h0.2
    · trivial
  · trivial

theorem rep_ct {c : Cls} (hc : c = .ct1 ∨ c = .ct2) {l : Lit} {u v : RVal} (h : Rep slots c l u) :
    Rep slots c l v := by
  rcases hc with rfl | rfl <;> exact h

theorem rep_opq {G : Sig} (hD : Ordered D) {sc : List Nat} {args : List (Nat × Bool)} {r : Nat}
    (hr : D r = opqNode args) (ha : ∀ a ∈ args, a.1 ∈ sc) (hV : ∀ v ∈ sc, IsVal (D v))
    (hok : okOpq G cls args r = true) {σ : Env Lit} {ρ : Nat → RVal} (hσ : σ r = G.env r)
    (hrep : ∀ a ∈ sc, ∀ l, den1 P D σ a = some l → Rep G.slots (cls a) l (ρ a)) {l : Lit}
    (hl : den1 P D σ r = some l) (v : RVal) : Rep G.slots (cls r) l v := by
  simp only [okOpq, Bool.or_eq_true, beq_iff_eq] at hok
  rcases hok with hu | hok
  · rw [hu]; trivial
  · unfold opqNode at hr
    split at hr
    · next h0 =>
      rw [h0] at hok
      simp only [beq_iff_eq] at hok
      rw [den1_var hr, hσ] at hl
      rw [hok]
      exact rep_default hl v
    · next hne =>
      have hmem : ∀ c ∈ (args.filter (·.2)).map Prod.fst, c ∈ sc := fun c hc => opqNode_mem ha hc
      rw [den1_pure hD hr (fun v hv => hV v (hmem v hv))] at hl
      obtain ⟨vs, hvs, hl⟩ := Option.bind_eq_some_iff.1 hl
      cases hc : (args.filter (·.2)).map Prod.fst with
      | nil => exact absurd hc hne
      | cons a as =>
        rw [hc] at hok hvs
        simp only [Bool.and_eq_true, beq_iff_eq, Bool.or_eq_true] at hok
        obtain ⟨la, ls, hla, -, rfl⟩ := allSome_cons hvs
        have := (rs_pure hl).2
        simp only [rotPure, Option.some.injEq] at this
        subst this
        rw [hok.1]
        exact rep_ct hok.2 (hrep a (hmem a (by rw [hc]; simp)) la hla)

end Heir.RotKeys
