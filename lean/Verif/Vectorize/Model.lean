import Verif.Graph.Model

/-! # Vectorization of straight-line code

`lib/Transforms/BooleanVectorizer/BooleanVectorizer.cpp` and
`lib/Transforms/StraightLineVectorizer/StraightLineVectorizer.cpp` on one block. Values are numbered;
numbers that no operation of the block defines are block arguments or values from outside. An
operation has one result (an operation with several stands for their tuple). The order of the numbers
is that of the pointers in `std::set<Operation*>`, so it says nothing about the order in the block. -/

namespace Heir.Vectorize

/-- A value: a scalar or a tensor of values. -/
inductive Val (α : Type)
  | scalar (a : α)
  | tensor (l : List (Val α))

/-- `tensor.extract`; out of bounds is undefined. -/
def Val.get {α : Type} : Val α → Nat → Option (Val α)
  | .tensor l, k => l[k]?
  | .scalar _, _ => none

/-- An operation of a block. `captured` are the values used in its regions and defined outside of
them. `packed` stands for the `from_elements` operations and the batched operation on them
(`BooleanVectorizer.cpp:36-75`, `:199-209`): its lanes are the operations batched. `extract` stands for
the `tensor.extract` with its constant index. -/
inductive Node (K : Type)
  | op (id : Nat) (kind : K) (args captured : List Nat)
  | packed (id : Nat) (lanes : List (K × List Nat))
  | extract (id src lane : Nat)

variable {K : Type}

/-- The result. -/
def Node.id : Node K → Nat
  | .op i _ _ _ => i
  | .packed i _ => i
  | .extract i _ _ => i

/-- The values used. -/
def Node.refs : Node K → List Nat
  | .op _ _ args captured => args ++ captured
  | .packed _ lanes => lanes.flatMap (·.2)
  | .extract _ src _ => [src]

/-- `replaceAllUsesWith` in one operation, its regions included. -/
def Node.rename (old new : Nat) : Node K → Node K
  | .op i k args captured => .op i k (args.map fun r => if r = old then new else r)
      (captured.map fun r => if r = old then new else r)
  | .packed i lanes => .packed i (lanes.map fun l => (l.1, l.2.map fun r => if r = old then new else r))
  | .extract i src lane => .extract i (if src = old then new else src) lane

/-! ## Execution -/

/-- All of the optional values. -/
def sequence {β : Type} : List (Option β) → Option (List β)
  | [] => some []
  | none :: _ => none
  | some b :: l => (sequence l).map (b :: ·)

/-- The value of an operation; `none` for a use before the definition or an extraction out of bounds.
`sem` says what an operation of the block computes from its operands and captured values; a packed
operation computes each lane. -/
def Node.eval {α : Type} (sem : K → List (Val α) → List (Val α) → Val α)
    (env : Nat → Option (Val α)) : Node K → Option (Val α)
  | .op _ k args captured => (sequence (args.map env)).bind fun a =>
      (sequence (captured.map env)).map fun c => sem k a c
  | .packed _ lanes => (sequence (lanes.map fun l =>
      (sequence (l.2.map env)).map fun a => sem l.1 a [])).map Val.tensor
  | .extract _ src lane => (env src).bind fun v => v.get lane

/-- A block run in order. -/
def run {α : Type} (sem : K → List (Val α) → List (Val α) → Val α) :
    (Nat → Option (Val α)) → List (Node K) → Option (Nat → Option (Val α))
  | env, [] => some env
  | env, n :: l => (n.eval sem env).bind fun v => run sem (Graph.upd env n.id (some v)) l

/-! ## The graph -/

/-- The operands of the operation that defines a value; those of the slice leave captured values out,
`BackwardSliceOptions::omitUsesFromAbove` being true. -/
def operands (block : List (Node K)) (i : Nat) : List Nat :=
  match block.find? (fun n => n.id == i) with
  | some (.op _ _ args _) => args
  | some (.packed _ lanes) => lanes.flatMap (·.2)
  | some (.extract _ src _) => [src]
  | none => []

/-- `getBackwardSlice` of the operation that defines a value, without the operation itself; only
operations of the block, those outside of it are no vertices of the graph. The fuel is the number of
operations. -/
def slice (block : List (Node K)) : Nat → Nat → List Nat
  | 0, _ => []
  | fuel + 1, i => (operands block i).flatMap fun r =>
      if block.any (fun n => n.id == r) then r :: slice block fuel r else []

/-- Whether an operation is a candidate: `isa<BatchVectorizableOpInterface>`, or elementwise and of the
dialect given. -/
def Node.isVec (vec : K → Bool) : Node K → Bool
  | .op _ k _ _ => vec k
  | _ => false

/-- The graph, `BooleanVectorizer.cpp:120-137`, `StraightLineVectorizer.cpp:41-61`. -/
def buildGraph (vec : K → Bool) (block : List (Node K)) : Graph.Graph Nat :=
  block.foldl (fun g n =>
    if n.isVec vec then
      (slice block block.length n.id).foldl (fun g u => (g.addEdge u n.id).1) (g.addVertex n.id)
    else g) Graph.Graph.empty

/-! ## Buckets -/

/-- `compatibleOps[key].back().size() < parallelism`, with the `int` converted to `size_t`, or no
limit, `BooleanVectorizer.cpp:96-97`. -/
def hasRoom (par : Int) (bucket : List Nat) : Bool :=
  par == 0 || decide ((bucket.length : Int) < if par < 0 then par + 2 ^ 64 else par)

/-- An operation added to the last bucket or to a new one, `BooleanVectorizer.cpp:96-103`. -/
def addToBuckets (par : Int) (o : Nat) : List (List Nat) → List (List Nat)
  | [] => [[o]]
  | [b] => if hasRoom par b then [b ++ [o]] else [b, [o]]
  | b :: bs => b :: addToBuckets par o bs

/-- The map from keys to buckets; the order of the keys, that of a `DenseMap`, does not matter. -/
abbrev Buckets := List (Nat × List (List Nat))

/-- One operation of a level, `BooleanVectorizer.cpp:90-113`, `StraightLineVectorizer.cpp:86-97`: it is
added to *all* keys it is compatible with. -/
def addOp (compat : Nat → Nat → Bool) (par : Int) (m : Buckets) (o : Nat) : Buckets :=
  if m.any (fun kb => compat kb.1 o) then
    m.map fun kb => if compat kb.1 o then (kb.1, addToBuckets par o kb.2) else kb
  else m ++ [(o, [[o]])]

/-- `buildCompatibleOps`, `BooleanVectorizer.cpp:86-118`; the straight-line vectorizer has no limit. -/
def buildCompatibleOps (compat : Nat → Nat → Bool) (par : Int) (level : List Nat) : Buckets :=
  level.foldl (addOp compat par) []

/-! ## The rewriting -/

/-- The operations of the block in no order, and the next number free. -/
structure State (K : Type) where
  nodes : List (Node K)
  next : Nat

/-- The operation with the result, as a lane. `none` if it is gone: a pointer to an erased operation
is read. -/
def laneOf (nodes : List (Node K)) (o : Nat) : Option (K × List Nat) :=
  match nodes.find? (fun n => n.id == o) with
  | some (.op _ k args _) => some (k, args)
  | _ => none

/-- An extraction in place of one operation of a bucket, `BooleanVectorizer.cpp:216-224`. -/
def replaceOp (packed : Nat) (st : State K) (ol : Nat × Nat) : State K :=
  ⟨(st.nodes ++ [Node.extract st.next packed ol.2]).map (Node.rename ol.1 st.next), st.next + 1⟩

/-- One bucket, `BooleanVectorizer.cpp:197-226`, `StraightLineVectorizer.cpp:115-147`. -/
def rewriteBucket (st : State K) (bucket : List Nat) : Option (State K) :=
  (sequence (bucket.map (laneOf st.nodes))).map fun lanes =>
    bucket.zipIdx.foldl (replaceOp st.next) ⟨st.nodes ++ [.packed st.next lanes], st.next + 1⟩

/-- `op->erase()`: `none` for an operation that is gone or used. -/
def eraseOp (st : State K) (o : Nat) : Option (State K) :=
  if st.nodes.any (fun n => n.id == o) && !st.nodes.any (fun n => n.refs.contains o) then
    some ⟨st.nodes.filter fun n => n.id != o, st.next⟩
  else none

/-- The buckets of one key, `BooleanVectorizer.cpp:181-234`: all are rewritten, then all erased. With
less than two operations nothing is done. -/
def rewriteKey (st : State K) (kb : Nat × List (List Nat)) : Option (State K) :=
  if (kb.2.map List.length).sum < 2 then some st
  else (kb.2.foldlM rewriteBucket st).bind fun st' => kb.2.flatten.foldlM eraseOp st'

/-- One level, `BooleanVectorizer.cpp:160-235`. Compatibility is asked on the operations as they are
then. -/
def rewriteLevel (compat : Node K → Node K → Bool) (par : Int) (st : State K) (level : List Nat) :
    Option (State K) :=
  (buildCompatibleOps (fun a b =>
    match st.nodes.find? (fun n => n.id == a), st.nodes.find? (fun n => n.id == b) with
    | some x, some y => compat x y
    | _, _ => false) par level).foldlM rewriteKey st

/-- `tryBoolVectorizeBlock`, `BooleanVectorizer.cpp:120-238`, and `tryVectorizeBlock`,
`StraightLineVectorizer.cpp:40-152` (with `par = 0`). The operations of the block afterwards, in no
order: `sortTopologically` puts them in one. `none` is undefined behaviour or the failed assertion. -/
def vectorize (vec : K → Bool) (compat : Node K → Node K → Bool) (par : Int) (next : Nat)
    (block : List (Node K)) : Option (List (Node K)) :=
  match (buildGraph vec block).sortGraphByLevels with
  | some (some levels) => (levels.foldlM (rewriteLevel compat par) ⟨block, next⟩).map State.nodes
  | _ => none

/-! ## Compatibility -/

/-- What `isBatchCompatible` of the CGGI operations reads. -/
inductive Name
  | gate | not | lut3 | other (n : Nat)
  deriving DecidableEq

/-- The kind of an operation: its class, the types of its results and its attributes. -/
structure Kind where
  name : Name
  result : Nat
  attrs : Nat
  deriving DecidableEq

/-- The operations of CGGI with the interface, `CGGIBinOps.td:15-39`, `CGGIPBSOps.td:65`. -/
def Kind.boolVec (k : Kind) : Bool :=
  match k.name with
  | .other _ => false
  | _ => true

/-- `isBatchCompatible`, `CGGIOps.cpp:188-315`. The gates are one class, `isPackedGateOp`. -/
def Kind.batchCompatible (k l : Kind) : Bool :=
  match k.name with
  | .gate => l.name == .gate && k.result == l.result && k.attrs == l.attrs
  | .not => l.name == .not && k.attrs == l.attrs && k.result == l.result
  | .lut3 => l.name == .lut3
  | .other _ => false

/-- `areCompatible`, `StraightLineVectorizer.cpp:29-39`; `mappable` is the trait. -/
def Kind.areCompatible (mappable : Name → Bool) (k l : Kind) : Bool :=
  k.name == l.name && k.result == l.result && k.attrs == l.attrs && mappable k.name

/-- Compatibility of operations by their kinds. -/
def byKind (c : K → K → Bool) : Node K → Node K → Bool
  | .op _ k _ _, .op _ l _ _ => c k l
  | _, _ => false

/-- The type given to each `from_elements` by the straight-line vectorizer is that of the results,
`StraightLineVectorizer.cpp:117-133`; the operands must have its element type. -/
def fromElementsTyped (result : Nat) (operandTypes : List (List Nat)) : Prop :=
  ∀ l ∈ operandTypes, ∀ t ∈ l, t = result

end Heir.Vectorize
