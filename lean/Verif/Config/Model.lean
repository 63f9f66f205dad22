import Verif.Config.Spec

/-!
# Model of the configuration of the crypto context

`lib/Dialect/Openfhe/Transforms/ConfigureCryptoContext.cpp`, `walkFuncAndCallees` of
`lib/Utils/Utils.h` and `lib/Analysis/AddAndKeySwitchCountAnalysis`.

Functions are numbers; regions within functions are flattened.  The analysis of rotations is an
argument, see `Verif/RotKeys`.
-/

namespace Heir.Config

/-! ### Functions and their callees -/

/-- What is pushed when `next` is walked, `Utils.h:140-148`. -/
def pushed (calls : Nat → List Nat) (done : List Nat) (next : Nat) : List Nat :=
  (calls next).filter fun g => decide (g ∉ done) && decide (g ≠ next)

/-- `walkFuncAndCallees`, `lib/Utils/Utils.h:132-153`, with a number of rounds: `hit` says whether the
callback interrupts somewhere in the function.  `none`: not finished. -/
def walk (calls : Nat → List Nat) (hit : Nat → Bool) : Nat → List Nat → List Nat → Option Bool
  | _, [], _ => some false
  | 0, _ :: _, _ => none
  | k + 1, next :: queue, done =>
    if hit next then some true
    else walk calls hit k (queue ++ pushed calls done next) (next :: done)

/-- The number of rounds. -/
def visits (calls : Nat → List Nat) : Nat → List Nat → List Nat → Nat
  | _, [], _ => 0
  | 0, _ :: _, _ => 0
  | k + 1, next :: queue, done => 1 + visits calls k (queue ++ pushed calls done next) (next :: done)

/-! ### The configuration -/

/-- `hasRelinOp`, `ConfigureCryptoContext.cpp:99-110`. -/
def isRelin : Kind → Bool
  | .relin | .mul | .relinInPlace | .chebyshev => true
  | _ => false

/-- `hasBootstrapOp`, `ConfigureCryptoContext.cpp:113-123`. -/
def isBootstrap : Kind → Bool
  | .bootstrap => true
  | _ => false

/-- `hasAdvancedSHEOp`, `ConfigureCryptoContext.cpp:126-136`. -/
def isAdvanced : Kind → Bool
  | .chebyshev => true
  | _ => false

/-- Whether a function or a callee has an operation. -/
def has (m : Module) (p : Kind → Bool) (rounds entry : Nat) : Option Bool :=
  walk m.calls (fun f => (m.ops f).any p) rounds [entry] []

/-- The functions that are generated, as what they offer, `ConfigureCryptoContext.cpp:139-226`; the
features as `OpenFhePkeEmitter.cpp:2100-2108` prints them. -/
def provided (relin boot advanced : Bool) (rots : List Int) : List Resource :=
  (if advanced || boot then [.advancedShe] else []) ++ (if boot then [.fhe] else []) ++
  (if relin || boot then [.mulKey] else []) ++ rots.map .rotKey ++
  (if boot then [.bootSetup, .bootKey] else [])

/-- `getConfig` as far as keys are concerned, `ConfigureCryptoContext.cpp:253-415`: `rots` is the result of
the analysis of rotations, `none` if it fails. -/
def getConfig (m : Module) (rots : Option (List Int)) (rounds entry : Nat) :
    Option (Option (List Resource)) :=
  (has m isBootstrap rounds entry).bind fun boot =>
    (has m isAdvanced rounds entry).bind fun advanced =>
      (has m isRelin rounds entry).map fun relin => rots.map (provided relin boot advanced)

/-- The outcome of the pass: whether it succeeds, and what is generated. -/
structure Outcome where
  success : Bool
  generated : Option (List Resource)
deriving DecidableEq, Repr

/-- `runOnOperation`, `ConfigureCryptoContext.cpp:418-432`: failure is signalled only if `convertFunc`
fails, which it does not. -/
def run (m : Module) (rots : Option (List Int)) (rounds entry : Nat) : Option Outcome :=
  (getConfig m rots rounds entry).map fun c => ⟨true, c⟩

/-! ### Depth and counts -/

/-- The operations with `IncreasesMulDepthOpInterface`, `OpenfheOps.td:321-333`. -/
def increases : Kind → Nat
  | .mul | .mulNoRelin | .mulPlain => 1
  | _ => 0

/-- `deriveResultMulDepth` along the operations from an input to a value,
`MulDepthAnalysis.cpp:39-57`. -/
def analysisDepth (path : List Kind) : Nat :=
  path.foldl (fun d k => if k = .bootstrap then 0 else d + increases k) 0

/-- The depth, `ConfigureCryptoContext.cpp:268` and `302-362`: the option, else the level of the CKKS scheme
parameters, else the largest depth that the analysis finds, with that of bootstrapping. -/
def depth (option : Nat) (level : Option Nat) (depths : List Nat) (boot : Bool) (bootDepth : Nat) : Nat :=
  let d := if option = 0 then level.getD 0 else option
  if d = 0 then depths.foldl (fun m x => if m < x then x else m) d + (if boot then bootDepth else 0)
  else d

/-- The counts, `ConfigureCryptoContext.cpp:386-413`: depth, additions and key switches. -/
def counts3 (bfv : Bool) (d : Nat) (attr : Option (Nat × Nat)) : Nat × Nat × Nat :=
  let c := attr.getD (0, 0)
  if bfv && decide (d ≠ 0) then (d, 0, 0) else (d, c.1, c.2)

/-! ### The analysis of counts -/

/-- A `CountState`: additions and key switches. -/
abbrev Count := Nat × Nat

/-- The state of a value; `none` for plaintexts. -/
def state (st : List (Option Count)) (a : Nat) : Option Count := (st[a]?).getD none

/-- `visitOperation`, `AddAndKeySwitchCountAnalysis.cpp:28-130`; `switch` are relinearizations and
rotations. -/
def transfer (st : List (Option Count)) : Op → Option Count
  | .input => some (1, 0)
  | .plain => none
  | .add a b =>
    if state st a = none ∧ state st b = none then none
    else some (([a, b].filterMap (state st)).foldl (fun z c => (z.1 + c.1, z.2 + c.2)) (0, 0))
  | .mul a b => if state st a = none ∧ state st b = none then none else some (1, 0)
  | .switch a => (state st a).map fun c => (c.1, c.2 + 1)
  | .modReduce _ => some (0, 0)
  | .other as => (as.filterMap (state st)).head?

/-- The analysis of a program. -/
def counts (prog : List Op) : List (Option Count) := prog.foldl (fun st op => st ++ [transfer st op]) []

/-- `getCount` on all values, `AddAndKeySwitchCountAnalysis.cpp:136-183`: the largest counts, from those of
earlier `secret.generic`s. -/
def maxCounts (start : Count) (st : List (Option Count)) : Count :=
  st.foldl (fun m c => (max m.1 (c.getD (0, 0)).1, max m.2 (c.getD (0, 0)).2)) start

/-- `annotateCount`, `AddAndKeySwitchCountAnalysis.cpp:130-190`: the attributes for the `secret.generic`s in
order. -/
def annotate : Count → List (List Op) → List Count
  | _, [] => []
  | start, g :: gs => maxCounts start (counts g) :: annotate (maxCounts start (counts g)) gs

end Heir.Config
