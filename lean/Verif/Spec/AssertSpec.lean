import Verif.Model.Nonlinear
import Verif.Model.NullSpace

/-!
# Which condition is reported

A list of conditions in the order in which they are tested, each with the message of its assertion.
-/

set_option autoImplicit false

namespace MiniOpt.Spec

open MiniOpt

/-- Nothing if every condition holds, otherwise the message of the first that does not. -/
noncomputable def firstFailing : List (Prop × String) → Option String
  | [] => none
  | (c, t) :: l => open Classical in if c then firstFailing l else some t

/-- The outcome of a sequence of assertions. -/
noncomputable def assertAll (l : List (Prop × String)) : Res Unit :=
  match firstFailing l with
  | none => .ok ()
  | some t => .error (.assertion t)

variable {α : Type} [Scalar α]

/-- What `QPInteriorPointSolver::Params` has to satisfy (`qp.cc:76-82`). -/
def qpParamConditions (p : QPParams α) : List (Prop × String) :=
  [((0 : α) < p.initialMu, "initial_mu > 0"),
   ((0 : α) < p.sigma, "sigma > 0"),
   (p.sigma ≤ (1 : α), "sigma <= 1"),
   ((0 : α) < p.terminationKktTol, "termination_kkt_tol > 0"),
   (0 < p.maxIterations, "max_iterations > 0")]

/-- What `ConstrainedNonlinearLeastSquares::Params` has to satisfy (`nonlinear.cc:49-73`). -/
def nlsParamConditions (p : NLSParams α) : List (Prop × String) :=
  [(0 ≤ p.maxIterations, "max_iterations >= 0"),
   (1 ≤ p.maxQPIterations, "max_qp_iterations >= 1"),
   ((0 : α) < p.terminationKktTol, "termination_kkt_tolerance > 0"),
   ((0 : α) < p.absoluteExitTol, "absolute_exit_tol > 0"),
   (0 ≤ p.maxLineSearchIterations, "max_line_search_iterations >= 0"),
   ((0 : α) ≤ p.relativeExitTol, "relative_exit_tol >= 0"),
   (p.relativeExitTol ≤ (1 : α), "relative_exit_tol <= 1"),
   ((0 : α) ≤ p.absoluteFirstDerivativeTol, "absolute_first_derivative_tol >= 0"),
   ((0 : α) < p.armijoSearchTau, "armijo_search_tau > 0"),
   (p.armijoSearchTau < (1 : α), "armijo_search_tau < 1"),
   ((0 : α) ≤ p.equalityPenaltyInitial, "equality_penalty_initial >= 0"),
   ((1 : α) ≤ p.equalityPenaltyScaleFactor, "equality_penalty_scale_factor >= 1.0"),
   ((0 : α) ≤ p.equalityPenaltyRho, "equality_penalty_rho >= 0"),
   (p.equalityPenaltyRho < (1 : α), "equality_penalty_rho < 1"),
   ((0 : α) ≤ p.maxLambda, "max_lambda >= 0"),
   (p.minLambda ≤ p.maxLambda, "min_lambda <= max_lambda"),
   (p.minLambda ≤ p.lambdaInitial, "lambda_initial >= min_lambda"),
   (p.lambdaInitial ≤ p.maxLambda, "lambda_initial <= max_lambda"),
   ((0 : α) ≤ p.lambdaFailureInit, "lambda_failure_init >= 0"),
   ((0 : α) ≤ p.lambdaDecreaseOnSuccess, "lambda_decrease_on_success >= 0"),
   (p.lambdaDecreaseOnSuccess < (1 : α), "lambda_decrease_on_success < 1.0"),
   ((0 : α) ≤ p.lambdaDecreaseOnRestore, "lambda_decrease_on_restore >= 0"),
   (p.lambdaDecreaseOnRestore < (1 : α), "lambda_decrease_on_restore < 1.0")]

/-- What gathering the parameters `index` out of `n` requires, in loop order (`residual.hpp:157-160`). -/
def gatherConditions (n : Nat) (index : List Int) : List (Prop × String) :=
  index.flatMap fun i => [(0 ≤ i, "i >= 0"), (i < (n : Int), "Index exceeds the number of params")]

/-- What `UpdateHessian` requires of its outputs (`residual.hpp:187-192`). -/
def hessianConditions (H : Option (RawMat α)) (b : Option (RawVec α)) : List (Prop × String) :=
  [(H ≠ none, "H != nullptr"),
   (b ≠ none, "b != nullptr"),
   (∀ h ∈ H, h.rows = h.cols, "H->rows() == H->cols()"),
   (∀ h ∈ H, ∀ v ∈ b, v.rows = h.rows, "b->rows() == H->rows()")]

end MiniOpt.Spec
