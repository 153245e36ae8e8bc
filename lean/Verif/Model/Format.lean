import Verif.Model.CppStructs
import Verif.Model.Tracing

/-!
# Printing  (`/repo/source/structs.cc`)

Text is a list of characters.  How `fmt` renders a double is a parameter (`FmtDouble`); it is not part of the
repository.
-/

set_option autoImplicit false

namespace MiniOpt.Fmt

open MiniOpt.Cpp

variable {α : Type} [Scalar α]

/-- `operator<<(InitialGuessMethod)` (`structs.cc:8-21`). -/
def nameGuess : InitialGuessMethod → String
  | .naive => "NAIVE"
  | .solveEqualityConstrained => "SOLVE_EQUALITY_CONSTRAINED"
  | .userProvided => "USER_PROVIDED"

/-- `operator<<(QPInteriorPointTerminationState)` (`structs.cc:23-33`). -/
def nameQP : QPTermination → String
  | .satisfiedKktTol => "SATISFIED_KKT_TOL"
  | .maxIterations => "MAX_ITERATIONS"

/-- `operator<<(QPNullSpaceTerminationState)` (`structs.cc:35-45`). -/
def nameNullSpace : NullSpaceTermination → String
  | .success => "SUCCESS"
  | .notPositiveDefinite => "NOT_POSITIVE_DEFINITE"

/-- `operator<<(LineSearchStrategy)` (`structs.cc:47-57`). -/
def nameStrategy : LineSearchStrategy → String
  | .armijoBacktrack => "ARMIJO_BACKTRACK"
  | .polynomialApproximation => "POLYNOMIAL_APPROXIMATION"

/-- `operator<<(OptimizerState)` (`structs.cc:59-69`). -/
def nameState : OptimizerState → String
  | .nominal => "NOMINAL"
  | .attemptingRestoreLM => "ATTEMPTING_RESTORE_LM"

/-- `operator<<(StepSizeSelectionResult)` (`structs.cc:71-93`). -/
def nameStep : StepResult → String
  | .success => "SUCCESS"
  | .maxIterations => "MAX_ITERATIONS"
  | .positiveDerivative => "POSITIVE_DERIVATIVE"
  | .firstOrderSatisfied => "FIRST_ORDER_SATISFIED"
  | .failureNonFiniteCost => "FAILURE_NON_FINITE_COST"
  | .failureInvalidAlpha => "FAILURE_INVALID_ALPHA"

/-- `operator<<(NLSTerminationState)` (`structs.cc:95-120`). -/
def nameNLS : NLSTermination → String
  | .maxIterations => "MAX_ITERATIONS"
  | .satisfiedAbsoluteTol => "SATISFIED_ABSOLUTE_TOL"
  | .satisfiedRelativeTol => "SATISFIED_RELATIVE_TOL"
  | .satisfiedFirstOrderTol => "SATISFIED_FIRST_ORDER_TOL"
  | .maxLambda => "MAX_LAMBDA"
  | .qpIndefinite => "QP_INDEFINITE"
  | .userCallback => "USER_CALLBACK"

/-- The format specifications used for doubles: `{}`, `{:.16e}`, `{:.16f}`, `{:.10f}`. -/
inductive Spec where
  | plain | e16 | f16 | f10

/-- `fmt`'s rendering of doubles. -/
abbrev FmtDouble (α : Type) := Spec → α → List Char

/-- `enum class ColorCode` (`structs.cc:150`). -/
inductive Color where
  | green | red | orange | none

/-- The integer behind a colour code (`structs.cc:150`). -/
def Color.code : Color → Int
  | .green => 112
  | .red => 160
  | .orange => 202
  | .none => -1

/-- The escape character. -/
def esc : Char := Char.ofNat 27

/-- The formatter of `ColorFmt` (`structs.cc:276-292`). -/
def color (c : Color) (enabled : Bool) : List Char :=
  if enabled then
    match c with
    | .none => esc :: "[0m".toList
    | c => esc :: "[38;5;".toList ++ Trace.fmtInt c.code ++ "m".toList
  else []

/-- `QPInteriorPointIteration::ToString` (`structs.cc:122-148`). `std::isnan(x)` is `!(x == x)`. -/
def qpIterString (fd : FmtDouble α) (i : QPIter α) : List Char :=
  "Iteration summary: ||kkt|| max: ".toList ++ fd .plain i.kktInitial.max ++ " --> ".toList
    ++ fd .plain i.kktFinal.max ++ ", mu = ".toList ++ fd .plain i.ip.mu ++ ", a_p = ".toList
    ++ fd .plain i.ip.alpha.primal ++ ", a_d = ".toList ++ fd .plain i.ip.alpha.dual ++ "\n".toList
    ++ (if Scalar.feq i.ip.muAffine i.ip.muAffine then
          " Probe alphas: a_p = ".toList ++ fd .plain i.ip.alphaProbe.primal ++ ", a_d = ".toList
            ++ fd .plain i.ip.alphaProbe.dual ++ ", mu_affine = ".toList ++ fd .plain i.ip.muAffine ++ "\n".toList
        else [])
    ++ " KKT errors, L2:\n r_dual = ".toList ++ fd .plain i.kktInitial.rDual ++ " --> ".toList
    ++ fd .plain i.kktFinal.rDual ++ "\n r_comp = ".toList ++ fd .plain i.kktInitial.rComp ++ " --> ".toList
    ++ fd .plain i.kktFinal.rComp ++ "\n r_p_eq = ".toList ++ fd .plain i.kktInitial.rPrimalEq ++ " --> ".toList
    ++ fd .plain i.kktFinal.rPrimalEq ++ "\n r_p_ineq = ".toList ++ fd .plain i.kktInitial.rPrimalIneq
    ++ " --> ".toList ++ fd .plain i.kktFinal.rPrimalIneq ++ "\n".toList

/-- The line search part of `NLSIteration::ToString` (`structs.cc:191-197`), from step number `i`. -/
def stepsString (fd : FmtDouble α) (penalty : α) : Nat → List (LineSearchStep α) → List Char
  | _, [] => []
  | i, s :: ss =>
    "  f(".toList ++ Trace.digits i ++ "): ".toList ++ fd .e16 s.errors.f ++ ", c(".toList ++ Trace.digits i
      ++ "): ".toList ++ fd .e16 s.errors.equality ++ ", total: ".toList ++ fd .e16 (s.errors.total penalty)
      ++ ", alpha = ".toList ++ fd .f10 s.alpha ++ "\n".toList ++ stepsString fd penalty (i + 1) ss

/-- The QP part of `NLSIteration::ToString` (`structs.cc:173-182`). -/
def qpResString : QPRes α → List Char
  | .interiorPoint ip =>
    "  QP-IP: ".toList ++ (nameQP ip.termination).toList ++ ", ".toList ++ Trace.digits ip.iterations.length
      ++ "\n".toList
  | .nullSpace t => "  QP: ".toList ++ (nameNullSpace t).toList ++ "\n".toList

/-- `NLSIteration::ToString` (`structs.cc:159-206`). -/
def iterString (fd : FmtDouble α) (useColor includeQP : Bool) (i : Iter α) : List Char :=
  "Iteration # ".toList ++ Trace.fmtInt i.iteration ++ ", state = ".toList ++ (nameState i.optimizerState).toList
    ++ ", lambda = ".toList ++ fd .plain i.lambda ++ "\n".toList
    ++ "  f(0): ".toList ++ fd .e16 i.errorsInitial.f ++ ", c(0): ".toList ++ fd .e16 i.errorsInitial.equality
    ++ ", total: ".toList ++ fd .e16 (i.errorsInitial.total i.penalty) ++ "\n".toList
    ++ (match i.qpEigenvalues with
        | some q => "  min, max, |min| eig = ".toList ++ fd .e16 q.min ++ ", ".toList ++ fd .e16 q.max ++ ", ".toList
            ++ fd .e16 q.absMin ++ "\n".toList
        | none => [])
    ++ "  penalty = ".toList ++ fd .f16 i.penalty ++ "\n".toList
    ++ qpResString i.qpOutputs
    ++ "  df/dalpha = ".toList ++ fd .plain i.directionalDerivatives.dF ++ ", dc/dalpha = ".toList
    ++ fd .plain i.directionalDerivatives.dEquality ++ "\n".toList
    ++ "  Search result: ".toList ++ color (if i.stepResult = .success then .green else .red) useColor
    ++ (nameStep i.stepResult).toList ++ color .none useColor ++ "\n".toList
    ++ stepsString fd i.penalty 0 i.lineSearchSteps
    ++ (match i.qpOutputs with
        | .interiorPoint ip => if includeQP then ip.iterations.flatMap (qpIterString fd) else []
        | .nullSpace _ => [])

/-- `ColorFromTerminationState` (`structs.cc:238-257`). -/
def terminationColor : NLSTermination → Color
  | .satisfiedAbsoluteTol | .satisfiedRelativeTol | .satisfiedFirstOrderTol => .green
  | .maxLambda | .maxIterations | .userCallback => .orange
  | .qpIndefinite => .red

/-- `NLSSolverOutputs::ToString` (`structs.cc:259-268`). -/
def outputsString (fd : FmtDouble α) (useColor includeQP : Bool) (o : Outputs α) : List Char :=
  o.iterations.flatMap (iterString fd useColor includeQP) ++ "  termination = ".toList
    ++ color (terminationColor o.termination) useColor ++ (nameNLS o.termination).toList ++ color .none useColor
    ++ "\n".toList

end MiniOpt.Fmt
