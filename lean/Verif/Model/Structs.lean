import Verif.Model.Scalar

/-!
# Plain data types  (`/repo/include/mini_opt/structs.hpp`, `/repo/source/structs.cc`)
-/

set_option autoImplicit false

namespace MiniOpt

variable {α : Type} [Scalar α]

/-- `enum class BarrierStrategy` (`structs.hpp:24-31`). -/
inductive BarrierStrategy where
  | complementarity | fixedDecrease | predictorCorrector
  deriving DecidableEq, Repr

/-- `enum class InitialGuessMethod` (`structs.hpp:34-41`). -/
inductive InitialGuessMethod where
  | naive | solveEqualityConstrained | userProvided
  deriving DecidableEq, Repr

/-- `struct AlphaValues` (`structs.hpp:45-50`). -/
structure AlphaValues (α : Type) where
  primal : α
  dual : α
  deriving DecidableEq

/-- `struct IPIterationOutputs` (`structs.hpp:53-64`). The C++ fields `alpha_probe` and `mu_affine` are
NaN unless the predictor-corrector branch filled them; the model uses `none` for that
(`Verif/Model/Serialization.lean` restores the NaN). -/
structure IPIterationOutputs (α : Type) where
  mu : α
  alpha : AlphaValues α
  alphaProbe : Option (AlphaValues α)
  muAffine : Option α
  deriving DecidableEq

/-- `struct KKTError` (`structs.hpp:68-78`). -/
structure KKTError (α : Type) where
  rDual : α
  rComp : α
  rPrimalEq : α
  rPrimalIneq : α
  deriving DecidableEq

/-- `KKTError::Max` (`structs.hpp:75-77`): `std::max` over an initializer list, i.e. a left-to-right scan
replacing the current value when it is `<` the next one. -/
def KKTError.max (e : KKTError α) : α :=
  cmax (cmax (cmax e.rDual e.rComp) e.rPrimalEq) e.rPrimalIneq

/-- `struct QPInteriorPointIteration` (`structs.hpp:81-94`). -/
structure QPIteration (α : Type) where
  kktInitial : KKTError α
  kktFinal : KKTError α
  ip : IPIterationOutputs α
  deriving DecidableEq

/-- `enum class QPInteriorPointTerminationState` (`structs.hpp:97-102`). -/
inductive QPTermination where
  | satisfiedKktTol | maxIterations
  deriving DecidableEq, Repr

/-- `struct QPLagrangeMultipliers` (`structs.hpp:108-113`). -/
structure QPLagrangeMultipliers (α : Type) where
  min : α
  lInfinity : α
  deriving DecidableEq

/-- `struct QPInteriorPointSolverOutputs` (`structs.hpp:116-134`). -/
structure QPOutputs (α : Type) where
  termination : QPTermination
  iterations : List (QPIteration α)
  lagrange : Option (QPLagrangeMultipliers α)
  deriving DecidableEq

/-- `enum class QPNullSpaceTerminationState` (`structs.hpp:137-142`). -/
inductive NullSpaceTermination where
  | success | notPositiveDefinite
  deriving DecidableEq, Repr

/-- `enum class LineSearchStrategy` (`structs.hpp:148-153`). -/
inductive LineSearchStrategy where
  | armijoBacktrack | polynomialApproximation
  deriving DecidableEq, Repr

/-- `enum class OptimizerState` (`structs.hpp:159-164`). -/
inductive OptimizerState where
  | nominal | attemptingRestoreLM
  deriving DecidableEq, Repr

/-- `struct Errors` (`structs.hpp:169-186`). -/
structure Errors (α : Type) where
  f : α
  equality : α
  deriving DecidableEq

/-- `Errors::Total` (`structs.hpp:177`). -/
def Errors.total (e : Errors α) (penalty : α) : α := e.f + penalty * e.equality

/-- `Errors::LInfinity` (`structs.hpp:180`). -/
def Errors.lInfinity (e : Errors α) : α := cmax e.f e.equality

/-- `Errors::ContainsInvalidValues` (`structs.hpp:183-185`). -/
def Errors.containsInvalid (e : Errors α) : Prop :=
  ¬ Scalar.isFinite e.f ∨ ¬ Scalar.isFinite e.equality

@[reducible] instance (e : Errors α) : Decidable e.containsInvalid := by
  unfold Errors.containsInvalid; infer_instance

/-- `struct DirectionalDerivatives` (`structs.hpp:189-203`). -/
structure DirectionalDerivatives (α : Type) where
  dF : α
  dEquality : α
  deriving DecidableEq

/-- `DirectionalDerivatives::Total` (`structs.hpp:197`). -/
def DirectionalDerivatives.total (d : DirectionalDerivatives α) (penalty : α) : α :=
  d.dF + penalty * d.dEquality

/-- `DirectionalDerivatives::LInfinity` (`structs.hpp:200-202`). -/
def DirectionalDerivatives.lInfinity (d : DirectionalDerivatives α) : α :=
  cmax (Scalar.abs d.dF) (Scalar.abs d.dEquality)

/-- `struct LineSearchStep` (`structs.hpp:206-212`). -/
structure LineSearchStep (α : Type) where
  alpha : α
  errors : Errors α
  deriving DecidableEq

/-- `enum class StepSizeSelectionResult` (`structs.hpp:215-228`). -/
inductive StepResult where
  | success | maxIterations | firstOrderSatisfied | positiveDerivative
  | failureNonFiniteCost | failureInvalidAlpha
  deriving DecidableEq, Repr

/-- `enum class NLSTerminationState` (`structs.hpp:233-248`). -/
inductive NLSTermination where
  | maxIterations | satisfiedAbsoluteTol | satisfiedRelativeTol | satisfiedFirstOrderTol
  | maxLambda | qpIndefinite | userCallback
  deriving DecidableEq, Repr

/-- `TerminationStateIndicatesSatisfiedTol` (`structs.hpp:250-261`). -/
def NLSTermination.indicatesSatisfiedTol : NLSTermination → Bool
  | .satisfiedAbsoluteTol | .satisfiedRelativeTol | .satisfiedFirstOrderTol => true
  | _ => false

/-- `struct QPEigenvalues` (`structs.hpp:267-274`). -/
structure QPEigenvalues (α : Type) where
  min : α
  max : α
  absMin : α
  deriving DecidableEq

/-- The `std::variant<QPNullSpaceTerminationState, QPInteriorPointSolverOutputs>` used for QP outputs
(`structs.hpp:307`). -/
inductive QPResult (α : Type) where
  | nullSpace (t : NullSpaceTermination)
  | interiorPoint (o : QPOutputs α)
  deriving DecidableEq

/-- `struct NLSIteration` (`structs.hpp:277-326`). -/
structure NLSIteration (α : Type) where
  iteration : Int
  optimizerState : OptimizerState
  lambda : α
  errorsInitial : Errors α
  qpOutputs : QPResult α
  qpEigenvalues : Option (QPEigenvalues α)
  directionalDerivatives : DirectionalDerivatives α
  penalty : α
  stepResult : StepResult
  lineSearchSteps : List (LineSearchStep α)
  deriving DecidableEq

/-- `struct NLSSolverOutputs` (`structs.hpp:329-347`). -/
structure NLSOutputs (α : Type) where
  termination : NLSTermination
  iterations : List (NLSIteration α)
  deriving DecidableEq

/-- `NLSSolverOutputs::NumQPIterations` (`structs.cc:208-219`). -/
def NLSOutputs.numQPIterations (o : NLSOutputs α) : Nat :=
  o.iterations.foldl (fun total it =>
    match it.qpOutputs with
    | .interiorPoint ip => total + ip.iterations.length
    | .nullSpace _ => total + 1) 0

/-- `NLSSolverOutputs::NumLineSearchSteps` (`structs.cc:221-226`). -/
def NLSOutputs.numLineSearchSteps (o : NLSOutputs α) : Nat :=
  o.iterations.foldl (fun total it => total + it.lineSearchSteps.length) 0

/-- `NLSSolverOutputs::NumFailedLineSearches` (`structs.cc:228-236`). -/
def NLSOutputs.numFailedLineSearches (o : NLSOutputs α) : Nat :=
  o.iterations.foldl (fun total it =>
    total + (if it.stepResult ≠ .success ∧ it.stepResult ≠ .firstOrderSatisfied then 1 else 0)) 0

end MiniOpt
