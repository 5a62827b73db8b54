import Verif.Lemmas.NpSwap
import Verif.Lemmas.SumMat
import Verif.Lemmas.ProdMat
import Verif.Lemmas.Kron
import Verif.Lemmas.Distribute
import Verif.Lemmas.DistMat
import Verif.Lemmas.RepProd
import Verif.Lemmas.ExprSem
import Verif.Props.RepAlgebra
import Verif.Props.Lorentz
import Verif.Props.Cubes
import Verif.Props.RubiksGroup
import Verif.Props.CubeObjects
import Verif.Props.SmallGroups
import Verif.Props.Sho
import Verif.Props.GroupObjects
import Verif.Props.PlaneGroups
import Verif.Props.GroupProducts
import Verif.Props.GroupEq
import Verif.Props.Datasets
import Verif.Props.Hamiltonian
import Verif.Props.Trainer
import Verif.Props.Solver
import Verif.Props.NullSpace
import Verif.Props.Sampled
import Verif.Props.AsDict
import Verif.Model.UniformRep
import Verif.Model.Layers
import Verif.Spec.Layers
import Verif.Lemmas.SetG
import Verif.Lemmas.RShift
import Verif.Lemmas.LinearLayer
import Verif.Lemmas.Gate
import Verif.Lemmas.Bilinear
import Verif.Props.Gate
import Verif.Props.Bilinear
import Verif.Spec.Elements
import Verif.Lemmas.Network
import Verif.Props.Layers
import Verif.Lemmas.Deferred
import Verif.Props.Deferred
import Verif.Lemmas.UniformRep
import Verif.Lemmas.DimOne
import Verif.Lemmas.UniformOne
import Verif.Props.UniformRep
import Verif.Spec.Args
import Verif.Lemmas.Args
import Verif.Props.Emlp
import Verif.Model.Augment
import Verif.Props.Augment
import Verif.Model.LinApply
import Verif.Spec.LinApply
import Verif.Lemmas.LinApply9
import Verif.Props.LinApply
import Verif.Props.Lorentz2
import Verif.Props.Flags
import Verif.Lemmas.Direct
import Verif.Lemmas.Multi
import Verif.Lemmas.MultiMul
import Verif.Lemmas.MultiExpr
import Verif.Lemmas.Terms
import Verif.Spec.Multi
import Verif.Props.Direct
import Verif.Props.RhoOp
import Verif.Props.FrontEnds
import Verif.Props.Standardize
import Verif.Props.HamiltonianNets
import Verif.Props.DynamicsCases
import Verif.Props.Errors
import Verif.Props.GridGroup
import Verif.Props.Descent
import Verif.Props.DescentRound
import Verif.Props.Sparsify
import Verif.Props.Losses
import Verif.Props.Experiments
import Verif.Props.HamDataset
import Verif.Props.Jvp
import Verif.Props.DocReps
import Verif.Props.DatasetReps
import Verif.Props.CubeData
import Verif.Spec.Commutant
import Verif.Lemmas.LayerComplete
import Verif.Props.Universal
import Verif.Props.Commutants
import Verif.Props.Commutants2
import Verif.Model.DiskCache
import Verif.Spec.DiskCache
import Verif.Props.DiskCache
import Verif.Model.Threads
import Verif.Lemmas.Threads
import Verif.Props.Threads
import Verif.Model.Trial
import Verif.Props.Trial
import Verif.Model.Animation
import Verif.Props.Animation
import Verif.Spec.Approx
import Verif.Lemmas.Approx
import Verif.Lemmas.ApproxSolver
import Verif.Lemmas.RepUnit
import Verif.Lemmas.ApproxExp
import Verif.Lemmas.ApproxWord
import Verif.Lemmas.ApproxLayer
import Verif.Props.Approx
import Verif.Spec.Smooth
import Verif.Lemmas.Smooth
import Verif.Lemmas.ExprExp
import Verif.Lemmas.Rollouts
import Verif.Props.Smooth
import Verif.Props.SmoothDynamics
import Verif.Lemmas.SvdExists
import Verif.Spec.ApproxNet
import Verif.Lemmas.ApproxNet
import Verif.Props.ApproxNet
import Verif.Lemmas.MultiLayer
import Verif.Props.MultiLayers
import Verif.Lemmas.GlobalFlow
import Verif.Lemmas.Mlp
import Verif.Props.Mlp
import Verif.Lemmas.ExpForms
import Verif.Lemmas.Classical
import Verif.Lemmas.Classical2
import Verif.Lemmas.Classical3
import Verif.Lemmas.Classical4
import Verif.Lemmas.Classical5
import Verif.Props.Classical
import Verif.Model.ClassicalGroups
import Verif.Props.ClassicalObjects
import Verif.Props.ClassicalObjects2
import Verif.Model.ComplexGroups
import Verif.Props.ComplexObjects
import Verif.Props.Components
import Verif.Spec.Rank
import Verif.Lemmas.SignFam
import Verif.Props.Ranks
import Verif.Lemmas.ExpRot
import Verif.Model.Samples
import Verif.Spec.Samples
import Verif.Lemmas.Samples
import Verif.Props.Samples
import Verif.Model.CustomOp
import Verif.Spec.CustomOp
import Verif.Lemmas.CustomOp
import Verif.Props.CustomOp
import Verif.Lemmas.Samples2
import Verif.Props.Samples2
import Verif.Model.Training
import Verif.Spec.Training
import Verif.Lemmas.Training
import Verif.Props.Training
import Verif.Spec.TrainingFlows
import Verif.Lemmas.TrainingFlows
import Verif.Props.TrainingDynamics
import Verif.Spec.Shuffle
import Verif.Props.Shuffle
import Verif.Spec.GradientTraining
import Verif.Props.GradientTraining
import Verif.Model.RegressorPlus
import Verif.Props.RegressorPlus
import Verif.Spec.TrainingRuns
import Verif.Props.TrainingRuns
import Verif.Spec.Characters
import Verif.Props.Characters
import Verif.Spec.Degree
import Verif.Props.Homogeneous
import Verif.Props.Determined
import Verif.Lemmas.DualGens
import Verif.Lemmas.Tensor
import Verif.Props.Determinant
import Verif.Spec.Frame
import Verif.Lemmas.Frame
import Verif.Lemmas.FrameNet
import Verif.Props.Coordinates
import Verif.Spec.Count
import Verif.Lemmas.Counting
import Verif.Props.Counting
import Verif.Props.Subgroups
import Verif.Props.DualCounts
import Verif.Lemmas.Depth
import Verif.Props.Depth
import Verif.Props.Strict
import Verif.Props.LinearAlg
import Verif.Props.Wrap
import Verif.Props.Absorb
import Verif.Props.GroupMean
import Verif.Lemmas.MeasFam
import Verif.Props.Haar
import Verif.Props.HaarExists
import Verif.Props.PlaneCount
import Verif.Props.AugMean
import Verif.Props.AugHaar
