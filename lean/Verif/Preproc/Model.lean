import Mathlib.Data.List.Basic

/-!
# Splitting the encoding of plaintexts off a function

`split-preprocessing` cuts a function into one that encodes all plaintexts and
stores them, and one that loads them instead of encoding them.  The storage is
then laid out in flat memory.  A program is a sequence of operations; `rest`
is what follows an operation in its block.  Operations are pure and are given
by an interpretation.
-/

namespace Heir.Preproc

/-- Bounds and step of a loop (constants). -/
structure Loop where
  lb : Int
  ub : Int
  step : Int
deriving DecidableEq, Repr

/-- Number of iterations (LoopLikeOpInterface::getStaticTripCount of the loops
with constant bounds; numbers of iterations are not bounded here). -/
def Loop.trip (l : Loop) : Nat :=
  if 0 < l.step then ((l.ub - l.lb + l.step - 1) / l.step).toNat else 0

/-- Values of the induction variable. -/
def Loop.ivals (l : Loop) : List Int := (List.range l.trip).map fun k : Nat => l.lb + (k : Int) * l.step

/-- Code of a block.  Values are numbers, and `id` stands for the pointer to
the operation.  The operands of the terminators of `ite` and `loop` are the
last lists of their regions; `shape` is the shape of the encoded value, empty if it is
a plaintext and not a tensor.  `store` and `load` are
lib/Dialect/Preprocessing/IR/PreprocessingOps.td:31-84, with the
`tensor.extract` before a store and the `tensor.from_elements` after a load
said by `one`. -/
inductive Code where
  | done
  | op (id : Nat) (res : List Nat) (f : Nat) (args : List Nat) (rest : Code)
  | enc (id site res f ty : Nat) (shape : List Nat) (args : List Nat) (rest : Code)
  | ite (id : Nat) (res : List Nat) (c : Nat) (t : Code) (ty : List Nat) (e : Code) (ey : List Nat) (rest : Code)
  | loop (id : Nat) (res : List Nat) (iv : Nat) (l : Loop) (inits iters : List Nat) (body : Code)
      (ys : List Nat) (rest : Code)
  | store (site ty v : Nat) (one : Bool) (idx : List Nat) (rest : Code)
  | load (site ty res : Nat) (one : Bool) (idx : List Nat) (rest : Code)
deriving DecidableEq, Repr

/-! ## Meaning of code -/

/-- Meaning of the operations: `fn` of the pure operations, `enc` of the
encoders (for tensors of one plaintext or for plaintexts), `truth` of
conditions, `ofInt` and `toInt` of indices, `unpack` of `tensor.extract` at 0 and `pack`
of `tensor.from_elements`. -/
structure Interp (V : Type) where
  fn : Nat → List V → List V
  enc : Nat → Bool → List V → V
  truth : V → Bool
  ofInt : Int → V
  toInt : V → Int
  unpack : V → V
  pack : V → V

/-- What a store or load names: site, element type, enclosing loops from outer
to inner and the values of the indices. -/
structure Ref where
  site : Nat
  ty : Nat
  loops : List Loop
  idx : List Int
deriving DecidableEq, Repr

/-- `store` is the memory; `ok` is false after an access out of bounds or a
load of what was never stored. -/
structure State (V K : Type) where
  env : Nat → V
  store : K → Option V
  ok : Bool

variable {V K : Type}

/-- Bind values to names. -/
def setAll (e : Nat → V) : List Nat → List V → Nat → V
  | v :: vs, x :: xs => setAll (fun w => if w = v then x else e w) vs xs
  | _, _ => e

def State.set (s : State V K) (vs : List Nat) (xs : List V) : State V K :=
  { s with env := setAll s.env vs xs }

/-- A store to the place `k`. -/
def State.write [DecidableEq K] (s : State V K) (k : Option K) (x : V) : State V K :=
  match k with
  | some k => { s with store := fun k' => if k' = k then some x else s.store k' }
  | none => { s with ok := false }

/-- A load from the place `k`. -/
def State.read (s : State V K) (k : Option K) (g : V → V) (res : Nat) : State V K :=
  match k.bind s.store with
  | some x => s.set [res] [g x]
  | none => { s with ok := false }

/-- Does the encoded value have a tensor type? -/
def isOne (shape : List Nat) : Bool := !shape.isEmpty

/-- Execution.  `key` gives the place of a store or load, none if there is no
such place.  A loop runs its body for each value of the induction variable and
then binds its results. -/
def run [DecidableEq K] (I : Interp V) (key : Ref → Option K) : List Loop → Code → State V K → State V K
  | _, .done, s => s
  | ls, .op _ res f args rest, s => run I key ls rest (s.set res (I.fn f (args.map s.env)))
  | ls, .enc _ _ res f _ shape args rest, s =>
    run I key ls rest (s.set [res] [I.enc f (isOne shape) (args.map s.env)])
  | ls, .ite _ res c t ty e ey rest, s =>
    run I key ls rest
      (if I.truth (s.env c) then (run I key ls t s).set res (ty.map (run I key ls t s).env)
        else (run I key ls e s).set res (ey.map (run I key ls e s).env))
  | ls, .loop _ res iv l inits iters body ys rest, s =>
    let s1 := l.ivals.foldl (fun s k =>
      (run I key (ls ++ [l]) body (s.set [iv] [I.ofInt k])).set iters
        (ys.map (run I key (ls ++ [l]) body (s.set [iv] [I.ofInt k])).env)) (s.set iters (inits.map s.env))
    run I key ls rest (s1.set res (iters.map s1.env))
  | ls, .store site ty v one idx rest, s =>
    run I key ls rest (s.write (key ⟨site, ty, ls, idx.map fun i => I.toInt (s.env i)⟩)
      (if one then I.unpack (s.env v) else s.env v))
  | ls, .load site ty res one idx rest, s =>
    run I key ls rest (s.read (key ⟨site, ty, ls, idx.map fun i => I.toInt (s.env i)⟩)
      (if one then I.pack else id) res)

/-! ## The pass -/

/-- Number the encoders in the order of the walk
(lib/Transforms/SplitPreprocessing/SplitPreprocessing.cpp:225-231). -/
def number : Code → Nat → Code × Nat
  | .done, n => (.done, n)
  | .op id res f args rest, n => (.op id res f args (number rest n).1, (number rest n).2)
  | .enc id _ res f ty shape args rest, n => (.enc id n res f ty shape args (number rest (n + 1)).1, (number rest (n + 1)).2)
  | .ite id res c t ty e ey rest, n =>
    let t' := number t n
    let e' := number e t'.2
    let r' := number rest e'.2
    (.ite id res c t'.1 ty e'.1 ey r'.1, r'.2)
  | .loop id res iv l inits iters body ys rest, n =>
    let b' := number body n
    let r' := number rest b'.2
    (.loop id res iv l inits iters b'.1 ys r'.1, r'.2)
  | .store site ty v one idx rest, n => (.store site ty v one idx (number rest n).1, (number rest n).2)
  | .load site ty res one idx rest, n => (.load site ty res one idx (number rest n).1, (number rest n).2)

/-- An operation together with its terminators: the operation that contains it
in the function, its operands and those of its terminators, and the results
and block arguments it defines. -/
structure Row where
  id : Nat
  parent : Option Nat
  isEnc : Bool
  uses : List Nat
  defs : List Nat
deriving DecidableEq, Repr

/-- The operations of a function, outer before inner. -/
def rows (p : Option Nat) : Code → List Row
  | .done => []
  | .op id res _ args rest => ⟨id, p, false, args, res⟩ :: rows p rest
  | .enc id _ res _ _ _ args rest => ⟨id, p, true, args, [res]⟩ :: rows p rest
  | .ite id res c t ty e ey rest =>
    ⟨id, p, false, c :: ty ++ ey, res⟩ :: (rows (some id) t ++ rows (some id) e ++ rows p rest)
  | .loop id res iv _ inits iters body ys rest =>
    ⟨id, p, false, inits ++ ys, iv :: iters ++ res⟩ :: (rows (some id) body ++ rows p rest)
  | .store _ _ _ _ _ rest => rows p rest
  | .load _ _ _ _ _ rest => rows p rest

/-- What `computeDependenciesToClone` pushes for an operation: the operation
around it and those that define its operands or, for block arguments, own the
block (SplitPreprocessing.cpp:80-100). -/
def succs (rs : List Row) (o : Nat) : List Nat :=
  (rs.filter (·.id = o)).flatMap fun r =>
    r.parent.toList ++ r.uses.flatMap fun v => (rs.filter (v ∈ ·.defs)).map (·.id)

/-- `pushAsNeeded` (SplitPreprocessing.cpp:65-70); the second list is the
worklist, last pushed first. -/
def push (s : List Nat × List Nat) (o : Nat) : List Nat × List Nat :=
  if o ∈ s.1 then s else (s.1 ++ [o], o :: s.2)

/-- The worklist loop (SplitPreprocessing.cpp:77-101), for at most `fuel` rounds. -/
def close (rs : List Row) : Nat → List Nat × List Nat → List Nat × List Nat
  | 0, s => s
  | _ + 1, (seen, []) => (seen, [])
  | fuel + 1, (seen, o :: work) => close rs fuel ((succs rs o).foldl push (seen, work))

/-- `computeDependenciesToClone` (SplitPreprocessing.cpp:57-104).  Each
operation is pushed at most once, so that many rounds are enough. -/
def deps (c : Code) : List Nat :=
  (close (rows none c) (rows none c).length
    ((((rows none c).filter (·.isEnc)).map (·.id)).foldl push ([], []))).1

/-- The inputs of the function that encodes (SplitPreprocessing.cpp:614-642):
operands that no cloned operation defines and that are not ciphertexts. -/
def inputs (ct : Nat → Bool) (c : Code) : List Nat :=
  (((deps c).flatMap fun o => ((rows none c).filter (·.id = o)).flatMap (·.uses)).filter fun v =>
    !ct v && (rows none c).all fun r => !(decide (v ∈ r.defs) && decide (r.id ∈ deps c))).dedup

/-- `recursiveCloneOpWithFilter` (SplitPreprocessing.cpp:318-350) and the
insertion of stores (SplitPreprocessing.cpp:469-510).  `ivs` are the induction
variables of the loops around the code (SplitPreprocessing.cpp:352-367). -/
def slice (S : List Nat) (ivs : List Nat) : Code → Code
  | .done => .done
  | .op id res f args rest =>
    if id ∈ S then .op id res f args (slice S ivs rest) else slice S ivs rest
  | .enc id site res f ty shape args rest =>
    if id ∈ S then .enc id site res f ty shape args (.store site ty res (isOne shape) ivs (slice S ivs rest))
    else slice S ivs rest
  | .ite id res c t ty e ey rest =>
    if id ∈ S then .ite id res c (slice S ivs t) ty (slice S ivs e) ey (slice S ivs rest) else slice S ivs rest
  | .loop id res iv l inits iters body ys rest =>
    if id ∈ S then .loop id res iv l inits iters (slice S (ivs ++ [iv]) body) ys (slice S ivs rest)
    else slice S ivs rest
  | .store site ty v one idx rest => .store site ty v one idx (slice S ivs rest)
  | .load site ty res one idx rest => .load site ty res one idx (slice S ivs rest)

/-- `createPreprocessedFunction` (SplitPreprocessing.cpp:517-597): loads in
place of the encoders. -/
def loads (ivs : List Nat) : Code → Code
  | .done => .done
  | .op id res f args rest => .op id res f args (loads ivs rest)
  | .enc _ site res _ ty shape _ rest => .load site ty res (isOne shape) ivs (loads ivs rest)
  | .ite id res c t ty e ey rest => .ite id res c (loads ivs t) ty (loads ivs e) ey (loads ivs rest)
  | .loop id res iv l inits iters body ys rest =>
    .loop id res iv l inits iters (loads (ivs ++ [iv]) body) ys (loads ivs rest)
  | .store site ty v one idx rest => .store site ty v one idx (loads ivs rest)
  | .load site ty res one idx rest => .load site ty res one idx (loads ivs rest)

/-- `isAllowedPlaintextType` (SplitPreprocessing.cpp:112-123). -/
def allowedShape (shape : List Nat) : Bool := shape = [] || shape = [1]

/-- Are the types of all encoded values allowed? -/
def allowed : Code → Bool
  | .done => true
  | .op _ _ _ _ rest => allowed rest
  | .enc _ _ _ _ _ shape _ rest => allowedShape shape && allowed rest
  | .ite _ _ _ t _ e _ rest => allowed t && allowed e && allowed rest
  | .loop _ _ _ _ _ _ body _ rest => allowed body && allowed rest
  | .store _ _ _ _ _ rest => allowed rest
  | .load _ _ _ _ _ rest => allowed rest

/-- A function: arguments, body and returned values; `helper` functions are
left alone. -/
structure Func where
  args : List Nat
  code : Code
  rets : List Nat
  helper : Bool

/-- The two functions made from one. -/
structure Split where
  inputs : List Nat
  prep : Code
  main : Code

/-- `convertFunc` of a function whose encoders are numbered
(SplitPreprocessing.cpp:243-288): none if it fails, no split if there is no
encoder.  The removal of dead values is not modelled. -/
def convert (ct : Nat → Bool) (f : Func) : Option (Option Split) :=
  if f.helper || !(rows none f.code).any (·.isEnc) then some none
  else if allowed f.code then
    some (some ⟨inputs ct f.code, slice (deps f.code) [] f.code, loads [] f.code⟩)
  else none

/-- Number the encoders of the functions of a module one after the other. -/
def numberAll : List Func → Nat → List Func
  | [], _ => []
  | f :: fs, n => { f with code := (number f.code n).1 } :: numberAll fs (number f.code n).2

/-- `runOnOperation` (SplitPreprocessing.cpp:209-241), after the normalization
of loops. -/
def split (ct : Nat → Bool) (m : List Func) : Option (List (Func × Option Split)) :=
  (numberAll m 0).mapM fun f => (convert ct f).map fun s => (f, s)

/-- Arguments with which the function that encodes starts: its inputs, and
placeholders for the other arguments of the function
(SplitPreprocessing.cpp:403-439). -/
def prepEnv (f : Func) (s : Split) (vals dummy : Nat → V) : Nat → V := fun v =>
  if v ∈ s.inputs then vals v else if v ∈ f.args then dummy v else vals v

/-- Memory in which nothing is stored. -/
def emptyStore : K → Option V := fun _ => none

/-- The rewritten function (SplitPreprocessing.cpp:290-316): encode, store,
then compute.  Values returned, and whether all accesses were to places that
exist and were stored. -/
def runSplit [DecidableEq K] (I : Interp V) (key : Ref → Option K) (f : Func) (s : Split) (vals dummy : Nat → V) :
    List V × Bool :=
  let s1 := run I key [] s.prep ⟨prepEnv f s vals dummy, emptyStore, true⟩
  let s2 := run I key [] s.main ⟨vals, s1.store, s1.ok⟩
  (f.rets.map s2.env, s2.ok)

/-- The storage as the dialect describes it: a place for each site and each
value of the indices. -/
def abstractKey (r : Ref) : Option (Nat × List Int) := some (r.site, r.idx)

end Heir.Preproc
