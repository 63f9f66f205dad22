/-!
# Conversion of allocating operations into in-place ones

Model of the passes `lattigo-alloc-to-inplace` and `openfhe-alloc-to-inplace`
(/repo/lib/Dialect/Lattigo/Transforms/AllocToInPlace.cpp,
/repo/lib/Dialect/Openfhe/Transforms/AllocToInPlace.cpp,
/repo/lib/Utils/AllocToInPlaceUtils.h) on one block of straight-line code.

Only operands and results that are ciphertexts are listed; evaluators, keys,
plaintexts, shift amounts and attributes belong to the number that names the
function an operation computes.
-/

namespace Heir.InPlace

/-- What an operation does with its ciphertext operands.

* `conv f pat`: an evaluator operation the pass has a pattern for, in its
  allocating form (`Op.out = none`, AllocToInPlace.cpp:317-339 of Lattigo,
  :199-208 of OpenFHE) or in its in-place form (`Op.out = some storage`,
  `InPlaceOpInterface`).  `pat` says whether the Lattigo pattern also tries
  `findStorageFromMemrefPattern` (binary operations and rotations do, unary
  operations and level drops do not).
* `alloc f`: another operation with a new ciphertext as its result
  (encryption, bootstrapping, ...).
* `plain f`: an operation with no ciphertext among its results (decryption, a
  debug call on a ciphertext, ...).
* `fetch cell`: `tensor.extract`, `memref.load`, `scf.for` with no iteration:
  the result refers to the ciphertext the operand refers to.  `cell` is the
  location in memory of a `memref.load`.  The operand is the value which was
  put there; this resolution of memory is part of the program here.
* `hold cell seen`: an operation that keeps references to its operands until the
  end: `memref.store` (into `cell`), `tensor.insert`, `tensor.insert_slice`,
  `func.return`, `scf.yield` (`seen = true`: `isStored` recognises them),
  `tensor.from_elements`, or a `tensor.insert` whose result only goes to debug
  calls (`seen = false`). -/
inductive Kind where
  | conv (f : Nat) (pat : Bool)
  | alloc (f : Nat)
  | plain (f : Nat)
  | fetch (cell : Option Nat)
  | hold (cell : Option Nat) (seen : Bool)
deriving DecidableEq, Repr

/-- An operation: its ciphertext operands, the operand an in-place operation
writes its result into, and its result.  The result of a `hold` is a tensor (or
nothing) and that of a `plain` is not a ciphertext. -/
structure Op where
  kind : Kind
  args : List Nat
  out : Option Nat
  res : Nat
deriving DecidableEq, Repr

/-- A block: the values below `nargs` are its arguments. -/
structure Prog where
  nargs : Nat
  ops : List Op
deriving Repr

/-- All operands of an operation, among them the storage of an in-place one
(`Value::getUses` sees both). -/
def Op.uses (op : Op) : List Nat := op.args ++ op.out.toList

/-- `isDeadAfterLocal` (/repo/lib/Utils/AllocToInPlaceUtils.h:45-57) and, on one
block, `Liveness::isDeadAfter`: no operation behind this one uses the value. -/
def deadAfter (post : List Op) (v : Nat) : Bool :=
  post.all fun o => !o.uses.contains v

/-- `isStored` (/repo/lib/Utils/AllocToInPlaceUtils.h:59-92): some operation of
the kinds listed there uses the value. -/
def isStored (ops : List Op) (v : Nat) : Bool :=
  ops.any fun o => match o.kind with
    | .hold _ true => o.args.contains v
    | _ => false

/-- `storageToReferringValues`
(/repo/lib/Utils/AllocToInPlaceUtils.h:247): in the order of insertion, each
storage with the values referring to it. -/
abbrev Info := List (Nat × List Nat)

/-- `CallerProvidedStorageInfo::getStorageFromValue`
(/repo/lib/Utils/AllocToInPlaceUtils.h:145-162). -/
def getStorage (st : Info) (v : Nat) : Option Nat :=
  (st.find? fun e => e.1 == v || e.2.contains v).map (·.1)

/-- `CallerProvidedStorageInfo::addReferringValue`
(/repo/lib/Utils/AllocToInPlaceUtils.h:126-128). `operator[]` makes a new entry
if there is none. -/
def addRef (st : Info) (s : Nat) (vs : List Nat) : Info :=
  if st.any (fun e => e.1 == s) then
    st.map fun e => if e.1 == s then (e.1, e.2 ++ vs) else e
  else st ++ [(s, vs)]

/-- One operation of `initializeAllocToInPlaceBlockStorage`
(/repo/lib/Utils/AllocToInPlaceUtils.h:264-289). -/
def initStep (st : Info) (op : Op) : Info :=
  match op.kind with
  | .conv _ _ => match op.out with
    | some s => match getStorage st s with
      | some root => addRef st root [op.res]
      | none => st
    | none => st ++ [(op.res, [])]
  | .alloc _ => st ++ [(op.res, [])]
  | .plain _ | .fetch _ | .hold _ _ => st

/-- `initializeAllocToInPlaceBlockStorage`
(/repo/lib/Utils/AllocToInPlaceUtils.h:250-295). -/
def initInfo (ops : List Op) : Info := ops.foldl initStep []

/-- `getCurrentStorageLevel` (/repo/lib/Utils/AllocToInPlaceUtils.h:238-245);
`lev` is `getLevel`, levels consumed. -/
def storageLevel (lev : Nat → Option Nat) (e : Nat × List Nat) : Option Nat :=
  lev (e.2.getLast?.getD e.1)

/-- The test on levels of `getAvailableStorage`
(/repo/lib/Utils/AllocToInPlaceUtils.h:195-208). -/
def levelFits (lev : Nat → Option Nat) (op : Op) (e : Nat × List Nat) : Bool :=
  match lev op.res, storageLevel lev e with
  | some l, some s => s ≤ l
  | _, _ => false

/-- The conditions of `getAvailableStorage` on one storage
(/repo/lib/Utils/AllocToInPlaceUtils.h:183-217). On one block a value properly
dominates an operation if an operation before it defines it. -/
def available (lev : Nat → Option Nat) (pre : List Op) (op : Op)
    (post : List Op) (e : Nat × List Nat) : Bool :=
  pre.any (fun o => o.res == e.1) &&
    !(isStored (pre ++ op :: post) e.1 ||
      e.2.any (isStored (pre ++ op :: post))) &&
    levelFits lev op e &&
    (e.2.all (deadAfter post) && deadAfter post e.1)

/-- `getAvailableStorage`: the first storage that will do
(/repo/lib/Utils/AllocToInPlaceUtils.h:178-220). -/
def getAvailable (lev : Nat → Option Nat) (st : Info) (pre : List Op) (op : Op)
    (post : List Op) : Option Nat :=
  (st.find? (available lev pre op post)).map (·.1)

/-- `findStorageFromMemrefPattern`
(/repo/lib/Dialect/Lattigo/Transforms/AllocToInPlace.cpp:54-88): an operand
loaded from a cell into which the result is stored.  Equal cells stand for
memrefs which must alias with indices which are provably equal. -/
def memrefStorage (pre : List Op) (op : Op) (post : List Op) : Option Nat :=
  let stores := post.filterMap fun o => match o.kind with
    | .hold (some c) true => if o.args.contains op.res then some c else none
    | _ => none
  stores.findSome? fun c => op.args.find? fun a =>
    pre.any (fun o => o.kind == .fetch (some c) && o.res == a) &&
      deadAfter post a

/-- `replaceAllocWithInPlace`
(/repo/lib/Utils/AllocToInPlaceUtils.h:222-235): the new result refers to the
storage, then the values that referred to the old result do.  The new
operation's result has the old one's name here, as `replaceOp` puts it in the
old one's place. -/
def merge (st : Info) (s r : Nat) : Info :=
  (addRef st s (r :: ((st.find? fun e => e.1 == r).map (·.2)).getD [])).filter
    fun e => !(e.1 == r)

/-- The storage a pattern of the Lattigo pass uses
(/repo/lib/Dialect/Lattigo/Transforms/AllocToInPlace.cpp:105-112, 155-159,
201-208, 264-268): a storage of the block or the cell of the
load–operation–store pattern. `some none`: no storage. `none`: the call
`getLevel(...).value()` (:124) on an operation without a level. -/
def pickStorage (lev : Nat → Option Nat) (st : Info) (pre : List Op) (op : Op)
    (post : List Op) (pat : Bool) : Option (Option Nat) :=
  match getAvailable lev st pre op post with
  | some s => some (some s)
  | none =>
    if pat then
      match memrefStorage pre op post with
      | some s => if (lev op.res).isSome then some (some s) else none
      | none => some none
    else some none

/-- One operation of the Lattigo pass: the operation as it leaves it and the
storages after it. -/
def lattigoStep (lev : Nat → Option Nat) (st : Info) (pre : List Op) (op : Op)
    (post : List Op) : Option (Info × Op) :=
  match op.kind with
  | .conv _ pat =>
    match op.out with
    | some _ => some (st, op)
    | none =>
      match pickStorage lev st pre op post pat with
      | none => none
      | some none => some (st, op)
      | some (some s) => some (merge st s op.res, { op with out := some s })
  | _ => some (st, op)

/-- The walk over the block
(/repo/lib/Dialect/Lattigo/Transforms/AllocToInPlace.cpp:341-342): the
operations already walked, those still to be walked. -/
def lattigoGo (lev : Nat → Option Nat) :
    Info → List Op → List Op → Option (List Op)
  | _, pre, [] => some pre
  | st, pre, op :: post =>
    match lattigoStep lev st pre op post with
    | none => none
    | some (st', op') => lattigoGo lev st' (pre ++ [op']) post

/-- The pass for Lattigo on one block. -/
def lattigo (lev : Nat → Option Nat) (p : Prog) : Option Prog :=
  (lattigoGo lev (initInfo p.ops) [] p.ops).map fun ops =>
    { p with ops := ops }

/-- `valueToStorage` of `OperandMutatedStorageInfo`
(/repo/lib/Utils/AllocToInPlaceUtils.h:364). -/
abbrev Refs := List (Nat × Nat)

/-- `OperandMutatedStorageInfo::getStorageFromValue`
(/repo/lib/Utils/AllocToInPlaceUtils.h:325-335). -/
def refStorage (refs : Refs) (v : Nat) : Nat := (refs.lookup v).getD v

/-- `isSafeToMutateInPlace` (/repo/lib/Utils/AllocToInPlaceUtils.h:355-360). -/
def safeToMutate (refs : Refs) (post : List Op) (m : Nat) : Bool :=
  deadAfter post m && deadAfter post (refStorage refs m)

/-- One operation of the OpenFHE pass
(/repo/lib/Dialect/Openfhe/Transforms/AllocToInPlace.cpp:33-53, 70-86, 102-117):
the first ciphertext operand is overwritten if that is safe. -/
def openfheStep (refs : Refs) (op : Op) (post : List Op) : Refs × Op :=
  match op.kind, op.out, op.args with
  | .conv _ _, none, m :: _ =>
    if safeToMutate refs post m then
      ((op.res, m) :: refs, { op with out := some m })
    else (refs, op)
  | _, _, _ => (refs, op)

/-- The walk over the block
(/repo/lib/Dialect/Openfhe/Transforms/AllocToInPlace.cpp:210-211). -/
def openfheGo : Refs → List Op → List Op → List Op
  | _, pre, [] => pre
  | refs, pre, op :: post =>
    openfheGo (openfheStep refs op post).1
      (pre ++ [(openfheStep refs op post).2]) post

/-- The pass for OpenFHE on one block. -/
def openfhe (p : Prog) : Prog := { p with ops := openfheGo [] [] p.ops }

end Heir.InPlace
