import Verif.Model.Prelude
import Verif.Model.Value
import Verif.Model.Layout
import Verif.Model.Assign
import Verif.Spec.Layout
import Verif.Spec.Assign
import Verif.Lemmas.Dict
import Verif.Lemmas.Blocks
import Verif.Lemmas.Layout
import Verif.Lemmas.Assign
import Verif.Props.Layout
import Verif.Props.Assign
import Verif.Model.Sparse
import Verif.Spec.Sparse
import Verif.Lemmas.Sparse
import Verif.Props.Sparse
import Verif.Model.Noise
import Verif.Model.Cholesky
import Verif.Lemmas.Cholesky
import Verif.Spec.Noise
import Verif.Lemmas.Noise
import Verif.Props.Noise
import Verif.Model.Factor
import Verif.Model.Graph
import Verif.Spec.Graph
import Verif.Lemmas.Group
import Verif.Lemmas.Factor
import Verif.Lemmas.Graph
import Verif.Lemmas.ExampleGraph
import Verif.Props.Graph
import Verif.Spec.Linearize
import Verif.Lemmas.Linearize
import Verif.Lemmas.ExampleDeriv
import Verif.Props.Linearize
import Verif.Model.DefaultJacobian
import Verif.Spec.DefaultJacobian
import Verif.Lemmas.DefaultJacobian
import Verif.Props.DefaultJacobian
import Verif.Model.LinSolve
import Verif.Lemmas.ConjugateGradient
import Verif.Lemmas.LinSolve
import Verif.Props.LinSolve
import Verif.Lemmas.CgSolve
import Verif.Props.CgSolve
import Verif.Model.Scalar
import Verif.Model.Solver
import Verif.Spec.Solver
import Verif.Lemmas.Solver
import Verif.Lemmas.SolverOrder
import Verif.Lemmas.SolverSolve
import Verif.Props.Solver
import Verif.Model.Lift
import Verif.Spec.SolverReal
import Verif.Lemmas.Lift
import Verif.Lemmas.SolverReal
import Verif.Lemmas.Dogleg
import Verif.Lemmas.DoglegStep
import Verif.Lemmas.SolverRuns
import Verif.Props.SolverReal
import Verif.Lemmas.Stationary
import Verif.Lemmas.Affine
import Verif.Lemmas.ExamplePoly
import Verif.Props.SolverSpecial
import Verif.Props.SolverWitness
import Verif.Props.FixedOrder
import Verif.Model.Covariance
import Verif.Spec.Covariance
import Verif.Lemmas.Covariance
import Verif.Props.Covariance
import Verif.Model.Lie
import Verif.Spec.Lie
import Verif.Lemmas.LieCalculus
import Verif.Lemmas.Lie
import Verif.Lemmas.LieSO2
import Verif.Lemmas.LieSE2
import Verif.Lemmas.LieSO3
import Verif.Lemmas.LieSE3
import Verif.Lemmas.LieSE3Laws
import Verif.Lemmas.LieMotion
import Verif.Lemmas.Geometry
import Verif.Lemmas.GeometryGradient
import Verif.Props.Geometry
import Verif.Lemmas.LieRetract
import Verif.Props.Retraction
import Verif.Props.PoseJacobian
import Verif.Spec.Huber
import Verif.Lemmas.Huber
import Verif.Props.Huber
import Verif.Model.Cache
import Verif.Lemmas.Cache
import Verif.Props.Cache
import Verif.Model.G2o
import Verif.Spec.G2o
import Verif.Lemmas.G2o
import Verif.Props.G2o
import Verif.Spec.G2oAny
import Verif.Lemmas.G2oAny
import Verif.Props.G2oAny
import Verif.Spec.LinearRate
import Verif.Lemmas.LinearRate
import Verif.Props.LinearRate
import Verif.Lemmas.Simulation
import Verif.Spec.Symmetry
import Verif.Lemmas.Symmetry
import Verif.Lemmas.SymmetryPose
import Verif.Spec.Progress
import Verif.Lemmas.Progress
import Verif.Props.Progress
import Verif.Props.Equivariance
import Verif.Props.OrderIndependence
import Verif.Model.Defaults
import Verif.Spec.Invariants
import Verif.Props.Invariants
import Verif.Model.PoseGraphScript
import Verif.Spec.PoseGraphScript
import Verif.Lemmas.PoseGraphScript
import Verif.Props.PoseGraphScript
import Verif.Spec.LocalRate
import Verif.Spec.LocalDamped
import Verif.Lemmas.LocalRate
import Verif.Lemmas.LocalDamped
import Verif.Props.LocalRate
import Verif.Props.LocalDamped
import Verif.Spec.Budget
import Verif.Lemmas.Budget
import Verif.Props.Budget
import Verif.Spec.Likelihood
import Verif.Lemmas.Likelihood
import Verif.Props.Likelihood
import Verif.Model.SimpleScript
import Verif.Lemmas.SimpleScript
import Verif.Props.SimpleScript
import Verif.Spec.Parts
import Verif.Lemmas.Parts
import Verif.Props.Parts
import Verif.Props.Repeated
import Verif.Lemmas.Repeated
import Verif.Lemmas.RetractAny
import Verif.Props.RetractAny
import Verif.Props.RetractShort
import Verif.Props.Marginal
import Verif.Props.FixedAnyOrder
import Verif.Model.PoseGraphMain
import Verif.Spec.PoseGraphMain
import Verif.Lemmas.PoseGraphMain
import Verif.Props.PoseGraphMain
import Verif.Lemmas.CrossedFile
import Verif.Props.CrossedFile
import Verif.Model.HuberTest
import Verif.Lemmas.Outlier
import Verif.Props.Outlier
import Verif.Spec.DampedStep
import Verif.Lemmas.DampedStep
import Verif.Props.DampedStep
import Verif.Lemmas.Decrease
import Verif.Props.Decrease
import Verif.Props.Stopping
import Verif.Model.Compiled
import Verif.Spec.Compiled
import Verif.Lemmas.Compiled
import Verif.Props.Compiled
import Verif.Lemmas.Reuse
import Verif.Model.OrderingTest
import Verif.Props.Reuse
import Verif.Spec.Acceptance
import Verif.Lemmas.Acceptance
import Verif.Props.Acceptance
import Verif.Spec.Mismatch
import Verif.Props.Mismatch
import Verif.Spec.Rejections
import Verif.Lemmas.Rejections
import Verif.Lemmas.RejectionSteps
import Verif.Props.Rejections
import Verif.Model.Utils
import Verif.Spec.Utils
import Verif.Lemmas.Utils
import Verif.Props.Utils
import Verif.Lemmas.ExampleStall
import Verif.Props.Stalling
import Verif.Spec.DoglegLimit
import Verif.Lemmas.DoglegLimit
import Verif.Props.DoglegLimit
import Verif.Props.ReadExact
import Verif.Props.FixedSameOrder
import Verif.Spec.GaussNewtonLimit
import Verif.Props.GaussNewtonLimit
import Verif.Spec.Rounding
import Verif.Lemmas.Rounding
import Verif.Lemmas.FloatExample
import Verif.Props.Rounding
import Verif.Spec.GaussMarkov
import Verif.Props.GaussMarkov
import Verif.Props.MoreData
import Verif.Props.Weight
import Verif.Props.Accuracy
import Verif.Props.Closest
import Verif.Spec.Anchored
import Verif.Lemmas.Anchored
import Verif.Props.Anchored
import Verif.Model.MarginalizationTest
import Verif.Props.MarginalizationTest
import Verif.Model.IntegrationTest
import Verif.Lemmas.IntegrationTest
import Verif.Props.IntegrationTest
import Verif.Model.SparseTest
import Verif.Lemmas.SparseTest
import Verif.Props.SparseTest
import Verif.Model.PoseGraphsTest
import Verif.Lemmas.PoseGraphsTest
import Verif.Props.PoseGraphsTest
import Verif.Model.CgScalar
import Verif.Spec.ZeroColumn
import Verif.Lemmas.CgScalar
import Verif.Lemmas.ZeroColumn
import Verif.Lemmas.ExampleFlat
import Verif.Props.ZeroColumn
import Verif.Spec.CgFinite
import Verif.Lemmas.CgFinite
import Verif.Lemmas.WeightExt
import Verif.Props.CgFinite
import Verif.Props.NotFinite
import Verif.Spec.PoseColumns
import Verif.Lemmas.PoseColumns
import Verif.Props.PoseColumns
import Verif.Spec.Unseen
import Verif.Lemmas.Unseen
import Verif.Props.Unseen
import Verif.Model.Dtype
import Verif.Spec.Dtype
import Verif.Lemmas.Dtype
import Verif.Props.Dtype
import Verif.Spec.Robust
import Verif.Spec.Rotation
import Verif.Lemmas.Robust
import Verif.Lemmas.RobustStep
import Verif.Lemmas.Rotation
import Verif.Props.Robust
import Verif.Props.Rotation
import Verif.Props.RotationTrust
import Verif.Spec.Signs
import Verif.Lemmas.Signs
import Verif.Props.Signs
import Verif.Spec.Information
import Verif.Lemmas.Information
import Verif.Props.Information
import Verif.Spec.Inliers
import Verif.Lemmas.Inliers
import Verif.Props.Inliers
import Verif.Spec.SameCovariance
import Verif.Lemmas.Compare
import Verif.Props.SameCovariance
import Verif.Spec.Renaming
import Verif.Lemmas.Renaming
import Verif.Props.Renaming
import Verif.Model.SparseBatch
import Verif.Spec.SparseBatch
import Verif.Props.SparseBatch
import Verif.Spec.Rectangular
import Verif.Lemmas.Rectangular
import Verif.Props.Rectangular
import Verif.Spec.Frechet
import Verif.Props.Frechet
import Verif.Props.FrechetDefault
import Verif.Spec.LocalMin
import Verif.Props.LocalMin
import Verif.Lemmas.LieFrechet
import Verif.Props.GeometryTotal
import Verif.Lemmas.LieCompose
import Verif.Lemmas.NewtonStep
import Verif.Props.JacobianNear
import Verif.Props.GeometryNewton
import Verif.Spec.NearFit
import Verif.Props.GeometryDamped
import Verif.Props.GeometryStop
import Verif.Spec.ExtReal
import Verif.Props.ExtReal
import Verif.Spec.FileFit
import Verif.Lemmas.FileFit
import Verif.Lemmas.FilePoses
import Verif.Props.FileFit
import Verif.Props.FileFixed
