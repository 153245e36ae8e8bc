import Verif.Model.Scalar
import Verif.Model.Constraint
import Verif.Model.Structs
import Verif.Model.QP
import Verif.Model.RawQP
import Verif.Model.FlatBlocks
import Verif.Model.FullSystem
import Verif.Model.NullSpace
import Verif.Spec.QPSpec
import Verif.Props.Constraints
import Verif.Props.QPSetup
import Verif.Props.QPIterates
import Verif.Props.QPResult
import Verif.Props.QPMore
import Verif.Props.QPReuse
import Verif.Spec.NullSpaceSpec
import Verif.Props.NullSpace
import Verif.Model.Residual
import Verif.Spec.ResidualSpec
import Verif.Props.Residual
import Verif.Model.Nonlinear
import Verif.Lemmas.LineSearch
import Verif.Lemmas.NLSLoop
import Verif.Spec.NLSSpec
import Verif.Lemmas.NLSView
import Verif.Lemmas.DemoNLS
import Verif.Props.NLSLog
import Verif.Props.Interpolation
import Verif.Props.NLSDescent
import Verif.Props.NLSState
import Verif.Lemmas.NLSSim
import Verif.Props.NLSReuse
import Verif.Props.NLSParams
import Verif.Spec.LinearizeSpec
import Verif.Lemmas.Linearize
import Verif.Props.Linearize
import Verif.Spec.DerivativeSpec
import Verif.Lemmas.Derivative
import Verif.Props.Derivative
import Verif.Props.NLSNullSpace
import Verif.Props.NLSBounds
import Verif.Props.Totality
import Verif.Lemmas.DemoReal
import Verif.Props.LinearLS
import Verif.Model.Tracing
import Verif.Spec.JsonText
import Verif.Props.Tracing
import Verif.Props.TraceJson
import Verif.Model.CppStructs
import Verif.Model.Serialization
import Verif.Model.Format
import Verif.Spec.SerializationSpec
import Verif.Props.Serialization
import Verif.Props.SerializationLogs
import Verif.Spec.FormatSpec
import Verif.Props.Format
import Verif.Model.Rounding
import Verif.Lemmas.Rounding
import Verif.Model.F64
import Verif.Lemmas.F64
import Verif.Lemmas.F64More
import Verif.Lemmas.DemoF64
import Verif.Props.DoubleConstraints
import Verif.Props.Doubles
import Verif.Props.DoublesState
import Verif.Props.DoublesStep
import Verif.Lemmas.DemoHill
import Verif.Props.NLSUnconstrained
import Verif.Props.NLSExamples
import Verif.Props.MoreExamples
import Verif.Props.FirstOrder
import Verif.Props.FirstOrderExamples
import Verif.Model.TransformChains
import Verif.Spec.TransformSpec
import Verif.Lemmas.Transform
import Verif.Lemmas.Actuator
import Verif.Props.TransformChains
import Verif.Props.TransformDerivatives
import Verif.Props.Actuator
import Verif.Props.ActuatorUpdate
import Verif.Props.ActuatorExamples
import Verif.Props.Termination
import Verif.Spec.ReportSpec
import Verif.Props.Report
import Verif.Spec.AssertSpec
import Verif.Props.Messages
import Verif.Props.Exceptions
import Verif.Props.QPOrder
import Verif.Props.NLSOrder
import Verif.Props.Subproblem
import Verif.Model.Sizes
import Verif.Props.ChangedProblem
import Verif.Model.Stateful
import Verif.Spec.CallsSpec
import Verif.Props.UserCalls
import Verif.Spec.MissingSpec
import Verif.Props.MissingMembers
import Verif.Spec.LogSpec
import Verif.Props.AnyUserCode
import Verif.Lemmas.GaussNewton
import Verif.Spec.BasinSpec
import Verif.Props.QuadraticConvergence
import Verif.Props.QuadraticExamples
import Verif.Model.Lifecycle
import Verif.Props.Lifecycle
import Verif.Spec.DoubleSpec
import Verif.Props.DoublesMore
import Verif.Props.DoublesTermination
import Verif.Spec.Certificates
import Verif.Props.QPInfeasible
import Verif.Props.InfeasibleStart
import Verif.Model.ScopedTrace
import Verif.Spec.TraceSpec
import Verif.Props.ScopedTrace
import Verif.Model.SolveTrace
import Verif.Spec.SolveTraceSpec
import Verif.Props.SolveTrace
import Verif.Model.TestUtils
import Verif.Props.TestUtils
import Verif.Props.QPDualStep
import Verif.Spec.SmoothSpec
import Verif.Props.GlobalConvergence
import Verif.Props.GlobalExamples
import Verif.Spec.DampedSpec
import Verif.Props.DampedLS
import Verif.Props.DampedLSExamples
import Verif.Spec.ConstrainedSpec
import Verif.Props.ConstrainedLS
import Verif.Props.ConstrainedLSExamples
import Verif.Model.Assertions
import Verif.Spec.AssertText
import Verif.Props.AssertText
import Verif.Spec.JsonMeaning
import Verif.Props.JsonUnique
import Verif.Props.JsonRead
import Verif.Props.JsonWrite
import Verif.Lemmas.IEEE
import Verif.Spec.CoordinateSpec
import Verif.Props.Coordinates
import Verif.Props.CoordinatesExamples
import Verif.Spec.RoundOffSpec
import Verif.Spec.RoundOffNLSSpec
import Verif.Lemmas.RoundOff
import Verif.Props.DoubleKKT
import Verif.Props.DoubleCost
import Verif.Lemmas.HessEntries
import Verif.Props.DoubleHessian
import Verif.Spec.RoundOffLinSpec
import Verif.Spec.InexactSpec
import Verif.Props.Inexact
import Verif.Props.DoubleFirstOrder
import Verif.Props.DoubleSigns
import Verif.Props.DoubleBounds
import Verif.Spec.DoubleThrowSpec
import Verif.Props.DoubleExceptions
import Verif.Props.Maratos
import Verif.Props.MaratosExamples
import Verif.Model.EigenLDLT
import Verif.Lemmas.LDLT
import Verif.Lemmas.LDLTSolve
import Verif.Props.EigenLDLT
import Verif.Props.EigenLDLTNonlinear
import Verif.Props.EigenLDLTExamples
import Verif.Model.EigenQR
import Verif.Lemmas.EigenLLT
import Verif.Lemmas.EigenQR
import Verif.Lemmas.EigenQRContract
import Verif.Lemmas.EigenQRRank
import Verif.Props.EigenQR
import Verif.Props.EigenQRNonlinear
import Verif.Props.EigenQRExamples
import Verif.Props.EndToEnd
import Verif.Props.EndToEndExamples
import Verif.Props.Resume
import Verif.Props.ResumeExamples
import Verif.Props.LDLTRoundOff
import Verif.Props.LDLTRoundOffExamples
import Verif.Spec.UnitsSpec
import Verif.Props.Units
import Verif.Props.SmallCost
import Verif.Props.UnitsExamples
import Verif.Props.UnitsConstrained
import Verif.Spec.QPUnitsSpec
import Verif.Props.QPUnits
import Verif.Props.QPUnitsExamples
import Verif.Props.Again
import Verif.Props.AgainExamples
import Verif.Spec.QPExactSpec
import Verif.Props.QPDistance
import Verif.Props.QPDistanceExamples
import Verif.Props.ConcurrentSolves
import Verif.Spec.PenaltySpec
import Verif.Props.PenaltyBound
import Verif.Props.PenaltyExamples
import Verif.Spec.SmoothEqSpec
import Verif.Props.EqualityConvergence
import Verif.Props.EqualityLipschitz
import Verif.Props.EqualityExamples
import Verif.Spec.EqBasinSpec
import Verif.Lemmas.EqGaussNewton
import Verif.Props.EqualityQuadratic
import Verif.Props.EqualityQuadraticExamples
import Verif.Spec.SmallResidualSpec
import Verif.Lemmas.SmallResidual
import Verif.Props.SmallResidual
import Verif.Props.SmallResidualExamples
import Verif.Spec.BoundedSpec
import Verif.Props.BoundedConvergence
import Verif.Props.BoundedExamples
import Verif.Spec.FlipSpec
import Verif.Props.Flip
import Verif.Props.FlipExamples
import Verif.Spec.DeterminedSpec
import Verif.Props.EqTotal
import Verif.Props.EqOrder
import Verif.Spec.StoppingSpec
import Verif.Props.Stopping
import Verif.Props.StoppingExamples
import Verif.Props.CoordinatesReturns
import Verif.Spec.ObservationSpec
import Verif.Props.Observation
import Verif.Props.ObservationExamples
import Verif.Spec.RepresentationSpec
import Verif.Spec.AngleSpec
import Verif.Props.Representation
import Verif.Props.RepresentationExamples
import Verif.Spec.GroupingSpec
import Verif.Props.Grouping
import Verif.Props.GroupingExamples
import Verif.Spec.SymmetrySpec
import Verif.Props.Symmetry
import Verif.Props.SymmetryExamples
