import Verif.RotKeys.Model

/-!
# Execution of programs and the programs the analysis understands

`exec` runs a block on integers, booleans and tables of integers; everything else is `opaque`.
Results the semantics does not determine, and the number of rounds of unknown regions, come from
an arbitrary `World`.  The run returns the amounts of the rotations performed, in order.

`wf`: the values are in static single assignment form, numbered in program order.  `typed` and
`live` are the conditions under which the shifts can be known: they are integers computed by known
operations from constants and loop counters, and each rotation is used.
-/

namespace Heir.RotKeys

/-! ## Execution -/

inductive RVal where
  | int (i : Int)
  | bool (b : Bool)
  | table (vs : List Int)
  | opaque
deriving DecidableEq, Repr

/-- Undetermined results, by the number of operations executed before. -/
structure World where
  val : Nat → RVal
  rounds : Nat → Nat

def upd (ρ : Nat → RVal) (r : Nat) (v : RVal) : Nat → RVal := fun x => if x = r then v else ρ x

def updL : (Nat → RVal) → List Nat → List RVal → Nat → RVal
  | ρ, r :: rs, v :: vs => updL (upd ρ r v) rs vs
  | ρ, _, _ => ρ

/-- Two's complement arithmetic on `w` bits. -/
def wrapS (w : Nat) (x : Int) : Int := Int.bmod x (2 ^ w)

def BinOp.val : BinOp → Int → Int → Int
  | .add, a, b => a + b
  | .sub, a, b => a - b
  | .mul, a, b => a * b

/-- `arith.cmpi` on `w` bits. -/
def CmpP.val (w : Nat) : CmpP → Int → Int → Bool
  | .slt, a, b => a < b
  | .sle, a, b => a ≤ b
  | .sgt, a, b => a > b
  | .sge, a, b => a ≥ b
  | .ult, a, b => a % 2 ^ w < b % 2 ^ w
  | .ule, a, b => a % 2 ^ w ≤ b % 2 ^ w
  | .ugt, a, b => a % 2 ^ w > b % 2 ^ w
  | .uge, a, b => a % 2 ^ w ≥ b % 2 ^ w
  | .eq, a, b => a = b
  | .ne, a, b => a ≠ b

def cstVal : Cst → RVal
  | .int v => .int v
  | .bool b => .bool b
  | .table vs => .table vs
  | .float => .opaque

/-- The result of an operation; `free` when it is not determined. -/
def evalK (free : RVal) : K → List RVal → Option RVal
  | .const c, _ => some (cstVal c)
  | .bin o w, [.int a, .int b] => some (.int (wrapS w (o.val a b)))
  | .cmp w p, [.int a, .int b] => some (.bool (p.val w a b))
  | .divs w, [.int a, .int b] => if b = 0 then none else some (.int (wrapS w (a.tdiv b)))
  | .extract, [.table vs, .int i] => if i < 0 then none else (vs[i.toNat]?).map .int
  | .splat n, [.int c] => some (.table (List.replicate n c))
  | _, _ => some free

/-- The amounts of a rotation. -/
def shiftVals (ρ : Nat → RVal) : List (Int ⊕ Nat) → Option (List Int)
  | [] => some []
  | .inl i :: sh => (shiftVals ρ sh).map (i :: ·)
  | .inr v :: sh =>
    match ρ v with
    | .int a => (shiftVals ρ sh).map (a :: ·)
    | _ => none

/-- `l, l + s, …` below `u`. -/
def steps (l u s : Int) : List Int :=
  (List.range ((u - l + s - 1) / s).toNat).map fun (j : Nat) => l + j * s

/-- Rounds of a loop; the rotations are collected. -/
def rounds (f : Int → List RVal → Nat → Option (List RVal × List Int × Nat)) :
    List Int → List RVal → Nat → Option (List RVal × List Int × Nat)
  | [], vals, p => some (vals, [], p)
  | i :: is, vals, p =>
    (f i vals p).bind fun (vals, tr, p) =>
      (rounds f is vals p).map fun (vals, tr', p) => (vals, tr ++ tr', p)

/-- The free values for results `rs`. -/
def fresh (W : World) (p : Nat) (rs : List Nat) : List RVal :=
  (List.range rs.length).map fun j => W.val (p + j)

/-- A block from the values `ρ`, after `p` operations: the operands of the terminator, the
rotations performed, the operations executed.  `none`: undefined behaviour. -/
def exec (W : World) : Block → (Nat → RVal) → Nat → Option (List RVal × List Int × Nat)
  | .done _ vs, ρ, p => some (vs.map ρ, [], p)
  | .op r k args rest, ρ, p =>
    (evalK (W.val p) k (args.map ρ)).bind fun v => exec W rest (upd ρ r v) (p + 1)
  | .rot r _ sh rest, ρ, p =>
    (shiftVals ρ sh).bind fun as =>
      (exec W rest (upd ρ r (W.val p)) (p + 1)).map fun (ys, tr, p) => (ys, as ++ tr, p)
  | .opq rs _ rest, ρ, p => exec W rest (updL ρ rs (fresh W p rs)) (p + 1 + rs.length)
  | .region rs _ ivs body rest, ρ, p =>
    (rounds (fun _ _ p => exec W body (updL ρ ivs (fresh W p ivs)) (p + 1 + ivs.length))
        ((List.range (W.rounds p)).map fun i => (i : Int)) [] (p + 1)).bind fun (_, tr, p) =>
      (exec W rest (updL ρ rs (fresh W p rs)) (p + 1 + rs.length)).map
        fun (ys, tr', p) => (ys, tr ++ tr', p)
  | .loop _ lb ub st iv inits args rs body rest, ρ, p =>
    match ρ lb, ρ ub, ρ st with
    | .int l, .int u, .int s =>
      if s ≤ 0 then none
      else
        (rounds (fun i vals p => exec W body (updL (upd ρ iv (.int i)) args vals) p)
            (steps l u s) (inits.map ρ) p).bind fun (vals, tr, p) =>
          (exec W rest (updL ρ rs vals) p).map fun (ys, tr', p) => (ys, tr ++ tr', p)
    | _, _, _ => none
  | .ite _ c rs _ t e rest, ρ, p =>
    match ρ c with
    | .bool b =>
      (if b then exec W t ρ p else exec W e ρ p).bind fun (vals, tr, p) =>
        (exec W rest (updL ρ rs vals) p).map fun (ys, tr', p) => (ys, tr ++ tr', p)
    | _ => none

/-- Keys serve a run: every rotation performed is congruent to a key modulo the number of slots. -/
def Covers (slots : Nat) (keys tr : List Int) : Prop :=
  ∀ x ∈ tr, ∃ k ∈ keys, (k - x) % slots = 0

/-! ## Static single assignment -/

/-- Increasing names from `lo` on; the next free name. -/
def inc : Nat → List Nat → Option Nat
  | lo, [] => some lo
  | lo, r :: rs => if lo ≤ r then inc (r + 1) rs else none

/-- Operands are visible (`sc`), results are new and increasing from `lo`; the next free name. -/
def wf : Nat → List Nat → Block → Option Nat
  | lo, sc, .done y vs => if lo ≤ y ∧ vs.all (sc.contains ·) then some (y + 1) else none
  | lo, sc, .op r _ args rest =>
    if lo ≤ r ∧ args.all (sc.contains ·) then wf (r + 1) (r :: sc) rest else none
  | lo, sc, .rot r t sh rest =>
    if lo ≤ r ∧ sc.contains t ∧ (dynShifts sh).all (sc.contains ·) then
      wf (r + 1) (r :: sc) rest else none
  | lo, sc, .opq rs args rest =>
    if args.all (sc.contains ·.1) then
      (inc lo rs).bind fun hi => wf hi (rs ++ sc) rest else none
  | lo, sc, .region rs args ivs body rest =>
    if args.all (sc.contains ·.1) then
      (inc lo ivs).bind fun h1 => (wf h1 (ivs ++ sc) body).bind fun h2 =>
        (inc h2 rs).bind fun h3 => wf h3 (rs ++ sc) rest
    else none
  | lo, sc, .loop n lb ub st iv inits args rs body rest =>
    if lo ≤ iv ∧ sc.contains lb ∧ sc.contains ub ∧ sc.contains st ∧ inits.all (sc.contains ·) ∧
        inits.length = args.length ∧ rs.length = args.length ∧ body.yields.length = args.length then
      (inc (iv + 1) args).bind fun h1 => (wf h1 (args ++ iv :: sc) body).bind fun h2 =>
        if h2 ≤ n then (inc (n + 1) rs).bind fun h3 => wf h3 (rs ++ sc) rest else none
    else none
  | lo, sc, .ite n c rs _ t e rest =>
    if sc.contains c ∧ t.yields.length = rs.length ∧ e.yields.length = rs.length then
      (wf lo sc t).bind fun h1 => (wf h1 sc e).bind fun h2 =>
        if h2 ≤ n then (inc (n + 1) rs).bind fun h3 => wf h3 (rs ++ sc) rest else none
    else none

/-! ## Programs that can be analysed -/

/-- What is known of a value: an integer, a boolean, a table of integers, a vector of slots, a
list of vectors of slots, nothing. -/
inductive Cls where
  | num | bool | table | ct1 | ct2 | unk
deriving DecidableEq, Repr

/-- The class of a value of this type about which nothing is known: a ciphertext is a vector of
slots, a tensor of `n` ciphertexts a list of `n` of them, and so are tensors of these shapes. -/
def defaultCls (slots : Nat) (t : Ty) : Cls :=
  match t with
  | .secret => .ct1
  | .secretTensor [] => .ct1
  | .secretTensor [n] => if 0 < n then .ct2 else .unk
  | .secretTensor (n :: m :: _) => if m = slots ∧ 0 < n then .ct2 else .unk
  | .tensor [n] => if n = slots then .ct1 else .unk
  | .tensor (n :: m :: _) => if m = slots ∧ 0 < n then .ct2 else .unk
  | _ => .unk

def signed : CmpP → Bool
  | .ult => false
  | .ule => false
  | .ugt => false
  | .uge => false
  | _ => true

def in32 (x : Int) : Bool := -2 ^ 31 ≤ x ∧ x < 2 ^ 31

/-- `v` is a constant that fits 32 bits. -/
def const32 (cs : List (Nat × Cst)) (v : Nat) : Bool :=
  match List.lookup v cs with
  | some (.int i) => in32 i
  | _ => false

/-- The class of a result is justified: integers come from constants, arithmetic on at least 32
bits, division by constants, or tables. -/
def okK (cs : List (Nat × Cst)) (cls : Nat → Cls) (r : Nat) (k : K) (args : List Nat) : Bool :=
  match cls r, k, args with
  | .unk, _, _ => true
  | .num, .const (.int _), _ => true
  | .num, .bin _ w, [a, b] => 32 ≤ w && cls a == .num && cls b == .num
  | .num, .divs w, [a, b] => 32 ≤ w && cls a == .num && const32 cs b
  | .num, .extract, [t, i] => cls t == .table && cls i == .num
  | .bool, .const (.bool _), _ => true
  | .bool, .cmp w p, [a, b] => 32 ≤ w && signed p && cls a == .num && cls b == .num
  | .table, .const (.table _), _ => true
  | .table, .splat _, [x] => const32 cs x
  | .ct1, .bin _ _, [a, _] => cls a == .ct1
  | .ct1, .fbin _, [a, _] => cls a == .ct1
  | .ct1, .extract, [t, _] => cls t == .ct2
  | .ct1, .slice, [s] => cls s == .ct1
  | .ct1, .insert, [_, d, _] => cls d == .ct1
  | .ct1, .insertSlice, [_, d] => cls d == .ct1
  | .ct2, .bin _ _, [a, _] => cls a == .ct2
  | .ct2, .fbin _, [a, _] => cls a == .ct2
  | .ct2, .slice, [s] => cls s == .ct2
  | .ct2, .insert, [_, d, _] => cls d == .ct2
  | .ct2, .insertSlice, [_, d] => cls d == .ct2
  | _, _, _ => false

/-- Class of the result of an unknown operation: that of its first secret operand if there is
one. -/
def okOpq (G : Sig) (cls : Nat → Cls) (args : List (Nat × Bool)) (r : Nat) : Bool :=
  cls r == .unk ||
  match (args.filter (·.2)).map Prod.fst with
  | [] => cls r == defaultCls G.slots (G.ty r)
  | a :: _ => cls r == cls a && (cls a == .ct1 || cls a == .ct2)

/-- The class of a copy of a value: the same, or nothing. -/
def sub (cls : Nat → Cls) (a b : Nat) : Bool := cls a == .unk || cls a == cls b

/-- The classes of a block are justified; the shifts of rotations are integers, their operands
vectors of slots; conditions are booleans, the bounds of loops constants. -/
def typed (G : Sig) (cs : List (Nat × Cst)) (cls : Nat → Cls) : Block → Bool
  | .done _ _ => true
  | .op r k args rest => okK cs cls r k args && typed G cs cls rest
  | .rot r t sh rest =>
    (cls t == .ct1 || cls t == .ct2) && sub cls r t && (dynShifts sh).all (cls · == .num) &&
      typed G cs cls rest
  | .opq rs args rest => rs.all (okOpq G cls args) && typed G cs cls rest
  | .region rs args _ _ rest => rs.all (okOpq G cls args) && typed G cs cls rest
  | .loop _ lb ub st iv inits args rs body rest =>
    const32 cs lb && const32 cs ub && const32 cs st &&
    (cls iv == .num || cls iv == .unk) &&
    (List.zipWith (sub cls) args inits).all id && (List.zipWith (sub cls) args body.yields).all id &&
    (List.zipWith (sub cls) rs args).all id &&
    typed G cs cls body && typed G cs cls rest
  | .ite _ c rs _ t e rest =>
    cls c == .bool && (List.zipWith (sub cls) rs t.yields).all id &&
    (List.zipWith (sub cls) rs e.yields).all id &&
    typed G cs cls t && typed G cs cls e && typed G cs cls rest

/-- The loop, with bounds of 32 bits, runs at least once. -/
def runsOnce (cs : List (Nat × Cst)) (lb ub st : Nat) : Bool :=
  const32 cs lb && const32 cs ub && const32 cs st &&
  match List.lookup lb cs, List.lookup ub cs, List.lookup st cs with
  | some (.int l), some (.int u), some (.int s) => l < u && 0 < s
  | _, _, _ => false

/-- Operands whose value the result of an operation is computed from. -/
def needs : K → List Nat → List Nat
  | .const _, _ => []
  | .splat _, _ => []
  | .divs _, a :: _ => [a]
  | _, args => args

/-- The values a block needs for its terminator; `none` if it contains a rotation that the
terminator does not need.  A value that only one branch of a conditional needs, or that only the
body of a loop which may not run needs, does not count as needed. -/
def live (cs : List (Nat × Cst)) : Block → Option (List Nat)
  | .done _ vs => some vs
  | .op r k args rest => do
    let L ← live cs rest
    if L.contains r then some (needs k args ++ L) else some L
  | .rot r t sh rest => do
    let L ← live cs rest
    if L.contains r then some (t :: dynShifts sh ++ L) else none
  | .opq rs args rest => do
    let L ← live cs rest
    if rs.any (L.contains ·) then some ((args.filter (·.2)).map Prod.fst ++ L) else some L
  | .region rs args _ body rest => do
    let L ← live cs rest
    if body.rots ≠ [] then none
    else if rs.any (L.contains ·) then some ((args.filter (·.2)).map Prod.fst ++ L) else some L
  | .loop _ lb ub st iv inits _ rs body rest => do
    let L ← live cs rest
    if rs.any (L.contains ·) then do
      let M ← live cs body
      some (inits ++ (if runsOnce cs lb ub st then M.filter (· < iv) else []) ++ L)
    else if body.rots = [] then some L else none
  | .ite _ c rs _ t e rest => do
    let L ← live cs rest
    if rs.any (L.contains ·) then do
      let M ← live cs t
      let M' ← live cs e
      some (c :: M.filter (M'.contains ·) ++ L)
    else if t.rots = [] ∧ e.rots = [] then some L else none

/-- The values outside of the loop: integers, booleans and tables are constants. -/
def outerOk (G : Sig) (cs : List (Nat × Cst)) (cls : Nat → Cls) (sc : List Nat) : Bool :=
  sc.all fun v =>
    match cls v, List.lookup v cs with
    | .unk, _ => true
    | .num, some (.int _) => true
    | .bool, some (.bool _) => true
    | .table, some (.table _) => true
    | .num, _ => false
    | .bool, _ => false
    | .table, _ => false
    | c, none => c == defaultCls G.slots (G.ty v)
    | c, some .float => c == defaultCls G.slots (G.ty v)
    | _, some _ => false

/-- All rotations by constants. -/
def allConst (cs : List (Nat × Cst)) (b : Block) : Bool :=
  b.rots.all fun sh => (constShifts cs sh).isSome

/-- A block outside of loops each of whose outermost loops rotates by constants only, or is typed
(by `cls`) with all rotations needed by its results. -/
def tame (G : Sig) (cs : List (Nat × Cst)) (cls : Nat → Cls) : List Nat → Block → Bool
  | _, .done _ _ => true
  | sc, .op r _ _ rest => tame G cs cls (r :: sc) rest
  | sc, .rot r _ _ rest => tame G cs cls (r :: sc) rest
  | sc, .opq rs _ rest => tame G cs cls (rs ++ sc) rest
  | sc, .region rs _ ivs body rest =>
    tame G cs cls (ivs ++ sc) body && tame G cs cls (rs ++ sc) rest
  | sc, .loop n lb ub st iv inits args rs body rest =>
    (allConst cs body ||
      (outerOk G cs cls sc && (live cs body).isSome &&
        typed G cs cls (.loop n lb ub st iv inits args [] body (.done (n + 1) [])))) &&
    tame G cs cls (rs ++ sc) rest
  | sc, .ite _ _ rs _ t e rest =>
    tame G cs cls sc t && tame G cs cls sc e && tame G cs cls (rs ++ sc) rest

end Heir.RotKeys
