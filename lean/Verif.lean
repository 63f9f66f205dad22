import Verif.Arith
import Verif.ModArith.Model
import Verif.ModArith.Spec
import Verif.ModArith.Lemmas
import Verif.ModArith.Lemmas2
import Verif.ModArith.Props
import Verif.NumTheory.Model
import Verif.NumTheory.Lemmas
import Verif.NumTheory.Lemmas2
import Verif.NumTheory.Props
import Verif.Loop
import Verif.NTT.Model
import Verif.NTT.Spec
import Verif.NTT.Algebra
import Verif.NTT.Refine
import Verif.NTT.Lemmas
import Verif.NTT.Emitted
import Verif.NTT.Props
import Verif.RNS.Model
import Verif.RNS.Spec
import Verif.RNS.Lemmas
import Verif.RNS.Garner
import Verif.RNS.Props
import Verif.Poly.Model
import Verif.Poly.Spec
import Verif.Poly.Lemmas
import Verif.Poly.Instances
import Verif.Poly.Props
import Verif.PolyClass.Model
import Verif.PolyClass.Spec
import Verif.PolyClass.Lemmas
import Verif.PolyClass.Mul
import Verif.PolyClass.Cheb
import Verif.PolyClass.Props
import Verif.PolyEval.Model
import Verif.PolyEval.Mono
import Verif.PolyEval.Cheb
import Verif.PolyEval.PS
import Verif.PolyEval.Props
import Verif.Dag.Model
import Verif.Dag.Spec
import Verif.Dag.Lemmas
import Verif.Dag.Caching
import Verif.Dag.Check
import Verif.Dag.Props
import Verif.Dag.Tree
import Verif.Kernel.Model
import Verif.Kernel.Lemmas
import Verif.Kernel.Accum
import Verif.Kernel.Rolled
import Verif.Kernel.Pow2
import Verif.Kernel.Matvec
import Verif.Kernel.Cyclic
import Verif.Kernel.Spec
import Verif.Kernel.Props
import Verif.Kernel.MatmulProps
import Verif.Layout.Model
import Verif.Layout.Float
import Verif.Layout.Spec
import Verif.Layout.Lemmas
import Verif.Layout.Props
import Verif.Graph.Model
import Verif.Graph.Spec
import Verif.Graph.Lemmas
import Verif.Graph.Levels
import Verif.Graph.Colour
import Verif.Graph.Path
import Verif.Graph.Props
import Verif.Graph.SccModel
import Verif.Graph.SccSpec
import Verif.Graph.Tarjan
import Verif.Graph.Contract
import Verif.Graph.Condense
import Verif.Graph.SccProps
import Verif.Shift.Model
import Verif.Shift.Spec
import Verif.Shift.Rounds
import Verif.Shift.Groups
import Verif.Shift.Rotate
import Verif.Shift.Network
import Verif.Shift.Props
import Verif.Rotate.Model
import Verif.Rotate.Spec
import Verif.Rotate.Lemmas
import Verif.Rotate.Props
import Verif.Range.Props
import Verif.Relin.Props
import Verif.InPlace.Props
import Verif.Reduce.Model
import Verif.Reduce.Spec
import Verif.Reduce.Lemmas
import Verif.Reduce.Props
import Verif.Chain.Model
import Verif.Chain.Spec
import Verif.Chain.Lemmas
import Verif.Chain.Props
import Verif.Balance.Model
import Verif.Balance.Spec
import Verif.Balance.Basic
import Verif.Balance.Flatten
import Verif.Balance.Tree
import Verif.Balance.Rewrite
import Verif.Balance.Props
import Verif.Static.Model
import Verif.Static.Spec
import Verif.Static.Lemmas
import Verif.Static.Props
import Verif.Secret.Model
import Verif.Secret.Spec
import Verif.Secret.Lemmas
import Verif.Secret.Convert
import Verif.Secret.Flow
import Verif.Secret.Props
import Verif.Quart.Model
import Verif.Quart.Spec
import Verif.Quart.Props
import Verif.Forward.Model
import Verif.Forward.Spec
import Verif.Forward.Lemmas
import Verif.Forward.Memory
import Verif.Forward.Tensor
import Verif.Forward.Props
import Verif.Fold.Model
import Verif.Fold.Spec
import Verif.Fold.Lemmas
import Verif.Fold.Props
import Verif.Conv.Model
import Verif.Conv.Spec
import Verif.Conv.Lemmas
import Verif.Conv.Filters
import Verif.Conv.Props
import Verif.Linalg.Model
import Verif.Linalg.Spec
import Verif.Linalg.Lemmas
import Verif.Linalg.Shape
import Verif.Linalg.Props
import Verif.Lwe.Model
import Verif.Lwe.Spec
import Verif.Lwe.Lemmas
import Verif.Lwe.KeySwitch
import Verif.Lwe.Props
import Verif.Mgmt.Model
import Verif.Mgmt.Spec
import Verif.Mgmt.Lemmas
import Verif.Mgmt.Passes
import Verif.Mgmt.After
import Verif.Mgmt.Values
import Verif.Mgmt.Secret
import Verif.Mgmt.Linear
import Verif.Mgmt.Apart
import Verif.Mgmt.Levels
import Verif.Mgmt.Cross
import Verif.Mgmt.CrossWalk
import Verif.Mgmt.LevelsAll
import Verif.Mgmt.DepthLemmas
import Verif.Mgmt.Meaning
import Verif.Mgmt.DepthMatch
import Verif.Mgmt.Props
import Verif.Scale.Model
import Verif.Scale.Spec
import Verif.Scale.Lemmas
import Verif.Scale.Held
import Verif.Scale.Raise
import Verif.Scale.Populate
import Verif.Scale.PopulateAll
import Verif.Scale.Whole
import Verif.Scale.Props
import Verif.Noise.Props
import Verif.Place.Props
import Verif.Toeplitz.Props
import Verif.Toeplitz.Violations
import Verif.Lut.Props
import Verif.Vectorize.Props
import Verif.Rewrite.Props
import Verif.Rewrite.Softmax
import Verif.Approx.Props
import Verif.Approx.Ops
import Verif.Generic.Props
import Verif.RotKeys.Props
import Verif.Memref.Props
import Verif.Verilog.Props
import Verif.Rtlil.Props
import Verif.Tfhe.Props
import Verif.Codegen.Props
import Verif.Assign.Props
import Verif.ArithMod.Props
import Verif.PolyNtt.Props
import Verif.Halo.Props
import Verif.Fuse.Props
import Verif.Hoist.Props
import Verif.Hoist.MatvecProps
import Verif.LayoutOpt.Props
import Verif.LayoutOpt.ProgProps
import Verif.Rotom.Props
import Verif.Rotom.LowerProps
import Verif.Rotom.SeedProps
import Verif.Rotom.SyntaxProps
import Verif.Rotom.MeaningProps
import Verif.Preproc.Props
import Verif.Emit.Props
import Verif.Params.Props
import Verif.TensorOps.Props
import Verif.Config.Props
import Verif.PolyFold.Props
import Verif.LogArith.Props
import Verif.BfvNoise.Props
