import Verif.Preproc.Model
import Mathlib.Data.List.Sort

/-!
# Laying out the stored plaintexts in flat memory
-/

namespace Heir.Preproc

/-- A store or load: site, element type, loops around it from outer to inner
and number of indices. -/
structure Access where
  site : Nat
  ty : Nat
  loops : List Loop
  arity : Nat
deriving DecidableEq, Repr

/-- The stores, in the order of the walk. -/
def storesOf (ls : List Loop) : Code → List Access
  | .done => []
  | .op _ _ _ _ rest => storesOf ls rest
  | .enc _ _ _ _ _ _ _ rest => storesOf ls rest
  | .ite _ _ _ t _ e _ rest => storesOf ls t ++ storesOf ls e ++ storesOf ls rest
  | .loop _ _ _ l _ _ body _ rest => storesOf (ls ++ [l]) body ++ storesOf ls rest
  | .store site ty _ _ idx rest => ⟨site, ty, ls, idx.length⟩ :: storesOf ls rest
  | .load _ _ _ _ _ rest => storesOf ls rest

/-- The loads, in the order of the walk. -/
def loadsOf (ls : List Loop) : Code → List Access
  | .done => []
  | .op _ _ _ _ rest => loadsOf ls rest
  | .enc _ _ _ _ _ _ _ rest => loadsOf ls rest
  | .ite _ _ _ t _ e _ rest => loadsOf ls t ++ loadsOf ls e ++ loadsOf ls rest
  | .loop _ _ _ l _ _ body _ rest => loadsOf (ls ++ [l]) body ++ loadsOf ls rest
  | .store _ _ _ _ _ rest => loadsOf ls rest
  | .load site ty _ _ idx rest => ⟨site, ty, ls, idx.length⟩ :: loadsOf ls rest

/-- Stores of a module after the pass. -/
def moduleStores (fs : List (Func × Option Split)) : List Access :=
  fs.flatMap fun x => match x.2 with
    | some s => storesOf [] s.prep
    | none => []

/-- Loads of a module after the pass. -/
def moduleLoads (fs : List (Func × Option Split)) : List Access :=
  fs.flatMap fun x => match x.2 with
    | some s => loadsOf [] s.main
    | none => []

/-- `calculateSize`
(lib/Analysis/PreprocessingStorageLayoutAnalysis/PreprocessingStorageLayoutAnalysis.cpp:24-45),
over the loops from inner to outer; none if a product does not fit 64 bits. -/
def calcSize : List Loop → Nat → Option Nat
  | [], n => some n
  | l :: ls, n => if n * l.trip < 2 ^ 63 then calcSize ls (n * l.trip) else none

/-- `SiteLayout` (PreprocessingStorageLayoutAnalysis.h:16-19) with its keys. -/
structure Entry where
  ty : Nat
  site : Nat
  off : Nat
  size : Nat
deriving DecidableEq, Repr

/-- `siteLayouts` and `totalSizes`; a type without stores has size 0
(lib/Dialect/Preprocessing/Conversions/PreprocessingToMemref/PreprocessingToMemref.cpp:82). -/
structure Layout where
  table : List Entry
  total : Nat → Nat

/-- The loop over the sites (PreprocessingStorageLayoutAnalysis.cpp:98-117). -/
def place : List Access → (Nat → Nat) → Option Layout
  | [], cur => some ⟨[], cur⟩
  | a :: as, cur =>
    match calcSize a.loops.reverse 1 with
    | none => none
    | some n =>
      if cur a.ty + n < 2 ^ 63 then
        (place as fun t => if t = a.ty then cur a.ty + n else cur t).map fun L =>
          ⟨⟨a.ty, a.site, cur a.ty, n⟩ :: L.table, L.total⟩
      else none

/-- The analysis (PreprocessingStorageLayoutAnalysis.cpp:49-119): each site
is stored once, each load has a store of its type, then sites in increasing
order. -/
def analyze (stores loads : List Access) : Option Layout :=
  if (stores.map (·.site)).Nodup ∧ ∀ l ∈ loads, ∃ s ∈ stores, s.site = l.site ∧ s.ty = l.ty then
    place (stores.insertionSort fun a b => a.site ≤ b.site) fun _ => 0
  else none

/-- Strides of the loops from inner to outer
(lib/Dialect/Preprocessing/Conversions/Util.cpp:246-283); none if one does
not fit 64 bits. -/
def strides : List Loop → Nat → Option (List Nat)
  | [], _ => some []
  | l :: ls, cur => if cur * l.trip < 2 ^ 63 then (strides ls (cur * l.trip)).map (cur :: ·) else none

/-- What an index adds (Util.cpp:285-311). -/
def dimOffset (l : Loop) (iv : Int) (stride : Nat) : Int :=
  let norm := if l.lb = 0 then iv else iv - l.lb
  let norm := if l.step = 1 then norm else norm.fdiv l.step
  if 1 < stride then norm * stride else norm

/-- Sum over the indices from inner to outer. -/
def addUp : List Loop → List Int → List Nat → Int → Int
  | l :: ls, i :: is, s :: ss, a => addUp ls is ss (a + dimOffset l i s)
  | _, _, _, a => a

/-- `getLinearIndex` (Util.cpp:232-314). -/
def linearIndex (loops : List Loop) (idx : List Int) (base : Nat) : Option Int :=
  if loops.length = idx.length then
    (strides loops.reverse 1).map fun ss => addUp loops.reverse idx.reverse ss base
  else none

/-- Place of a store or load in the flat memory of its type
(PreprocessingToMemref.cpp:113-211); none if the lowering fails or the place
is out of bounds. -/
def flatKey (L : Layout) (r : Ref) : Option (Nat × Int) :=
  match L.table.find? fun e => e.ty = r.ty ∧ e.site = r.site with
  | none => none
  | some e =>
    match linearIndex r.loops r.idx e.off with
    | none => none
    | some a => if 0 ≤ a ∧ a < L.total r.ty then some (r.ty, a) else none

/-- `validate-preprocessing`
(lib/Dialect/Preprocessing/Transforms/ValidatePreprocessing.cpp:52-150):
each site has one store and one load, with as many indices and the same
element type. The check that a function has one `preprocessing.empty` and
that of storage types are left out: one function makes one storage. -/
def validate (stores loads : List Access) : Bool :=
  (stores ++ loads).all fun a =>
    match stores.filter (·.site = a.site), loads.filter (·.site = a.site) with
    | [s], [l] => s.arity = l.arity && s.ty = l.ty
    | _, _ => false

end Heir.Preproc
