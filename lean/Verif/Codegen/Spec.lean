import Verif.Codegen.Model

/-!
# What syntax trees and operations mean
-/

namespace Heir.Codegen

/-! ## isl -/

/-- A number of 32 bits. -/
def fit (n : Int) : Option Int := if -2 ^ 31 ≤ n ∧ n < 2 ^ 31 then some n else none

inductive V where
  | int (n : Int)
  | bool (b : Bool)
deriving DecidableEq, Repr

def V.isBool : V → Bool
  | .int _ => false
  | .bool _ => true

def V.num : V → Int
  | .int n => n
  | .bool b => if b then 1 else 0

/-- The operators of two numbers, as documented in isl: `div` is exact, the dividend of `pdivq` is not
negative, `fdivq` rounds down.  Divisors are positive. -/
def binSem (k : Bin) (a b : Int) : Option Int :=
  match k with
  | .add => fit (a + b)
  | .sub => fit (a - b)
  | .mul => fit (a * b)
  | .div => if 0 < b ∧ b ∣ a then some (a / b) else none
  | .pdivq => if 0 ≤ a ∧ 0 < b then some (a / b) else none
  | .fdivq => if 0 < b then some (a.fdiv b) else none
  | .max => some (if a < b then b else a)
  | .min => some (if a < b then a else b)
  | _ => none

def logSem (k : Bin) (a b : Bool) : Option Bool :=
  match k with
  | .and => some (a && b)
  | .or => some (a || b)
  | _ => none

def cmpSem (k : Cmp) (a b : Int) : Bool :=
  match k with
  | .eq => a = b
  | .lt => a < b
  | .le => a ≤ b
  | .gt => b < a
  | .ge => b ≤ a

/-- An operator of two operands, on values. -/
def bin2 (k : Bin) : V → V → Option V
  | .int a, .int b => (binSem k a b).map .int
  | .bool a, .bool b => (logSem k a b).map .bool
  | _, _ => none

def foldV (f : V → V → Option V) : V → List V → Option V
  | a, [] => some a
  | a, b :: bs => (f a b).bind fun c => foldV f c bs

/-- Operators.  `zdivr` is the remainder of C, `pdivr` is not negative. -/
def opSem (k : Kind) (vs : List V) : Option V :=
  match k, vs with
  | .bin k, a :: b :: vs => foldV (bin2 k) a (b :: vs)
  | .minus, [.int a] => (fit (-a)).map .int
  | .cmp k, [a, b] => some (.bool (cmpSem k a.num b.num))
  | .select, [.bool c, a, b] => some (if c then a else b)
  | .zdivr, [.int a, .int b] => if 0 < b then some (.int (a.tmod b)) else none
  | .pdivr, [.int a, .int b] => if 0 ≤ a ∧ 0 < b then some (.int (a % b)) else none
  | _, _ => none

mutual

def eval (env : Nat → Option Int) : Expr → Option V
  | .id x => (env x).map .int
  | .int n => (fit n).map .int
  | .op k args => (evals env args).bind (opSem k)

def evals (env : Nat → Option Int) : List Expr → Option (List V)
  | [] => some []
  | e :: es =>
    match eval env e, evals env es with
    | some v, some vs => some (v :: vs)
    | _, _ => none

end

def evalInt (env : Nat → Option Int) (e : Expr) : Option Int :=
  match eval env e with
  | some (.int n) => some n
  | _ => none

def ints : List V → Option (List Int)
  | [] => some []
  | .int n :: vs => (ints vs).map (n :: ·)
  | _ => none

/-- Values of the variable of a loop from `lb` to `ub` (excluded). -/
def steps (lb ub step : Int) : List Int :=
  (List.range ((ub - lb + step - 1) / step).toNat).map fun (k : Nat) => lb + (k : Int) * step

/-- One list after the other. -/
def concat {β : Type} : List (Option (List β)) → Option (List β)
  | [] => some []
  | none :: _ => none
  | some xs :: rest => (concat rest).map (xs ++ ·)

mutual

/-- The arguments of the statement, in the order of execution, if all numbers have 32 bits. -/
def trace : Node → (Nat → Option Int) → Option (List (List Int))
  | .loop x init le ub step body, env =>
    match evalInt env init, evalInt env ub, evalInt env step with
    | some lb, some u, some s =>
      match fit (if le then u + 1 else u) with
      | some u' =>
        if 0 < s ∧ u' - lb ≤ 2 ^ 31 then
          concat ((steps lb u' s).map fun i => trace body fun y => if y = x then some i else env y)
        else none
      | none => none
    | _, _, _ => none
  | .ifThen c t, env =>
    match eval env c with
    | some (.bool true) => trace t env
    | some (.bool false) => some []
    | _ => none
  | .ifElse c t e, env =>
    match eval env c with
    | some (.bool true) => trace t env
    | some (.bool false) => trace e env
    | _ => none
  | .block ns, env => traces ns env
  | .user args, env =>
    match evals env args with
    | some vs => (ints vs).map fun is => [is]
    | none => none

def traces : List Node → (Nat → Option Int) → Option (List (List Int))
  | [], _ => some []
  | x :: ns, env =>
    match trace x env, traces ns env with
    | some a, some b => some (a ++ b)
    | _, _ => none

end

/-! ## MLIR -/

/-- A value: an `i32`, an `i1`, or one carried by the loops. -/
inductive MV (α : Type) where
  | int (n : Int)
  | bool (b : Bool)
  | data (a : α)

abbrev Env (α : Type) := Nat → Option (MV α)

/-- Numbers of 32 bits wrap around. -/
def wrap (n : Int) : Int := (BitVec.ofInt 32 n).toInt

def abinSem (k : ABin) (a b : Int) : Option Int :=
  match k with
  | .addi => some (wrap (a + b))
  | .subi => some (wrap (a - b))
  | .muli => some (wrap (a * b))
  | .divsi => if b = 0 ∨ a = -2 ^ 31 ∧ b = -1 then none else some (a.tdiv b)
  | .floordivsi => if b = 0 ∨ a = -2 ^ 31 ∧ b = -1 then none else some (a.fdiv b)
  | .remsi => if b = 0 ∨ a = -2 ^ 31 ∧ b = -1 then none else some (a.tmod b)
  | .maxsi => some (if a < b then b else a)
  | .minsi => some (if a < b then a else b)
  | _ => none

def alogSem (k : ABin) (a b : Bool) : Option Bool :=
  match k with
  | .andi => some (a && b)
  | .ori => some (a || b)
  | _ => none

variable {α : Type}

def abin2 (k : ABin) : MV α → MV α → Option (MV α)
  | .int a, .int b => (abinSem k a b).map .int
  | .bool a, .bool b => (alogSem k a b).map .bool
  | _, _ => none

/-- `arith.cmpi` of `i32`; that of `i1` takes `true` for -1. -/
def acmp (k : Cmp) : MV α → MV α → Option (MV α)
  | .int a, .int b => some (.bool (cmpSem k a b))
  | .bool a, .bool b => some (.bool (cmpSem k (if a then -1 else 0) (if b then -1 else 0)))
  | _, _ => none

def set (σ : Env α) (r : Nat) (v : MV α) : Env α := fun i => if i = r then some v else σ i

def sets (σ : Env α) : List Nat → List (MV α) → Option (Env α)
  | [], [] => some σ
  | r :: rs, v :: vs => sets (set σ r v) rs vs
  | _, _ => none

def gets (σ : Env α) : List Nat → Option (List (MV α))
  | [] => some []
  | r :: rs =>
    match σ r, gets σ rs with
    | some v, some vs => some (v :: vs)
    | _, _ => none

def nums : List (MV α) → Option (List Int)
  | [] => some []
  | .int n :: vs => (nums vs).map (n :: ·)
  | _ => none

def datas : List (MV α) → Option (List α)
  | [] => some []
  | .data a :: vs => (datas vs).map (a :: ·)
  | _ => none

/-- A loop with values carried. -/
def carry {β : Type} (f : Int → β → Option β) : List Int → β → Option β
  | [], b => some b
  | i :: is, b => (f i b).bind (carry f is)

mutual

/-- One operation.  What is built in the regions is visible in them only.  `f` is the meaning of the
body. -/
def run (f : List Int → List α → List α) : Op → Env α → Option (Env α)
  | .const r n, σ => some (set σ r (.int (wrap n)))
  | .bin r k a b, σ => (σ a).bind fun x => (σ b).bind fun y => (abin2 k x y).map (set σ r)
  | .cmpi r k a b, σ => (σ a).bind fun x => (σ b).bind fun y => (acmp k x y).map (set σ r)
  | .ext r a, σ =>
    match σ a with
    | some (.bool b) => some (set σ r (.int (if b then 1 else 0)))
    | _ => none
  | .select r c a b, σ =>
    match σ c, σ a, σ b with
    | some (.bool c), some x, some y => some (set σ r (if c then x else y))
    | _, _, _ => none
  | .loop rs iv args lb ub step inits body yields, σ =>
    match σ lb, σ ub, σ step, gets σ inits with
    | some (.int l), some (.int u), some (.int s), some vs =>
      if 0 < s then
        (carry (fun i vs => (sets (set σ iv (.int i)) args vs).bind fun σ' =>
          (runs f body σ').bind fun σ'' => gets σ'' yields) (steps l u s) vs).bind (sets σ rs)
      else none
    | _, _, _, _ => none
  | .ite rs c t ty e ey, σ =>
    match σ c with
    | some (.bool true) => ((runs f t σ).bind fun σ' => gets σ' ty).bind (sets σ rs)
    | some (.bool false) => ((runs f e σ).bind fun σ' => gets σ' ey).bind (sets σ rs)
    | _ => none
  | .body rs idx iters, σ =>
    ((gets σ idx).bind nums).bind fun is => ((gets σ iters).bind datas).bind fun vs =>
      sets σ rs ((f is vs).map .data)

def runs (f : List Int → List α → List α) : List Op → Env α → Option (Env α)
  | [], σ => some σ
  | o :: os, σ => (run f o σ).bind (runs f os)

end

/-- The initial values come first. -/
def start (xs : List α) : Env α := fun i => (xs[i]?).map .data

/-- The values of the loop that is returned. -/
def result (f : List Int → List α → List α) (p : List Op × List Nat) (xs : List α) : Option (List α) :=
  (runs f p.1 (start xs)).bind fun σ => (gets σ p.2).bind datas

/-! ## Trees that are served -/

/-- The type of an operator, `true` for booleans. -/
def kindTy (k : Kind) (tys : List Bool) : Option Bool :=
  match k, tys with
  | .bin k, a :: b :: ts =>
    match k with
    | .max | .min => if (a :: b :: ts).all (! ·) then some false else none
    | .and | .or => if (a :: b :: ts).all id then some true else none
    | _ => if (a :: b :: ts) = [false, false] then some false else none
  | .minus, [false] => some false
  | .cmp k, [a, b] => if k = .eq ∨ a = false ∨ b = false then some true else none
  | .select, [true, a, b] => if a = b then some a else none
  | .zdivr, [false, false] => some false
  | .pdivr, [false, false] => some false
  | _, _ => none

mutual

def tyOf (sc : List Nat) : Expr → Option Bool
  | .id x => if x ∈ sc then some false else none
  | .int _ => some false
  | .op k args => (tysOf sc args).bind (kindTy k)

def tysOf (sc : List Nat) : List Expr → Option (List Bool)
  | [] => some []
  | e :: es =>
    match tyOf sc e, tysOf sc es with
    | some t, some ts => some (t :: ts)
    | _, _ => none

end

mutual

/-- Expressions have types and variables of nested loops have different names. -/
def Node.Served (sc : List Nat) : Node → Prop
  | .loop x init _ ub step body => x ∉ sc ∧ tyOf sc init = some false ∧ tyOf sc ub = some false ∧
      tyOf sc step = some false ∧ Node.Served (x :: sc) body
  | .ifThen c t => tyOf sc c = some true ∧ Node.Served sc t
  | .ifElse c t e => tyOf sc c = some true ∧ Node.Served sc t ∧ Node.Served sc e
  | .block ns => AllServed sc ns
  | .user args => ∃ ts, tysOf sc args = some ts ∧ ∀ t ∈ ts, t = false

def AllServed (sc : List Nat) : List Node → Prop
  | [] => True
  | x :: ns => Node.Served sc x ∧ AllServed sc ns

end

/-- No sequences. -/
def Node.Perfect : Node → Prop
  | .loop _ _ _ _ _ body => body.Perfect
  | .ifThen _ t => t.Perfect
  | .ifElse _ t e => t.Perfect ∧ e.Perfect
  | .block _ => False
  | .user _ => True

def Node.isLoop : Node → Bool
  | .loop .. => true
  | _ => false

end Heir.Codegen
