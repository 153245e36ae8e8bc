import Verif.Model.Structs
import Verif.Model.Nonlinear

/-!
# Which logs `Solve` of the nonlinear solver can return

A grammar of logs, in terms of the parameters and the fields of the logged iterations (`structs.hpp:277-347`) only: it
can be checked against a log without knowing the problem.
-/

set_option autoImplicit false

namespace MiniOpt.Spec

open MiniOpt

variable {α : Type} [Scalar α]

/-- What is known of a problem: whether it has equality constraints, inequality constraints, and whether the solver has
a callback. -/
structure Setting where
  equalities : Prop
  inequalities : Prop
  callback : Prop

/-- What the solver carries from one iteration to the next; it can be computed from the log. -/
structure Control (α : Type) where
  lambda : α
  penalty : α
  state : OptimizerState

/-- The merit at `st` is at most the merit at the start plus `1e-4 * alpha` times the slope. -/
def Accepts (it : NLSIteration α) (st : LineSearchStep α) : Prop :=
  st.errors.total it.penalty ≤ it.errorsInitial.total it.penalty
    + it.directionalDerivatives.total it.penalty * st.alpha * Scalar.lit (1 / 10 ^ 4)

/-- Both derivatives are below the tolerance. -/
def SmallSlope (prm : NLSParams α) (it : NLSIteration α) : Prop :=
  it.directionalDerivatives.lInfinity < prm.absoluteFirstDerivativeTol

/-- The slope of the merit is positive. -/
def Uphill (it : NLSIteration α) : Prop := 0 < it.directionalDerivatives.total it.penalty

/-- A trial step after which the line search goes on. -/
structure Refused (prm : NLSParams α) (it : NLSIteration α) (st : LineSearchStep α) : Prop where
  finite : ¬ st.errors.containsInvalid
  notSmall : ¬ SmallSlope prm it
  notUphill : ¬ Uphill it
  notAccepted : ¬ Accepts it st

/-- The line search of a logged iteration. -/
structure SearchOk (prm : NLSParams α) (it : NLSIteration α) : Prop where
  count : 1 ≤ it.lineSearchSteps.length ∧ (it.lineSearchSteps.length : Int) ≤ prm.maxLineSearchIterations + 1
  first : ∀ st, it.lineSearchSteps[0]? = some st → st.alpha = 1
  next : ∀ (j : Nat) st st', it.lineSearchSteps[j]? = some st → it.lineSearchSteps[j + 1]? = some st' →
    match prm.lineSearchStrategy with
    | .armijoBacktrack => st'.alpha = st.alpha * prm.armijoSearchTau
    | .polynomialApproximation => Scalar.isFinite st'.alpha ∧ ¬ st'.alpha ≤ 0 ∧ ¬ st.alpha ≤ st'.alpha
  refused : ∀ (j : Nat) st, j + 1 < it.lineSearchSteps.length → it.lineSearchSteps[j]? = some st → Refused prm it st
  outcome : ∀ last, it.lineSearchSteps.getLast? = some last →
    match it.stepResult with
    | .success => ¬ last.errors.containsInvalid ∧ ¬ SmallSlope prm it ∧ ¬ Uphill it ∧ Accepts it last
    | .firstOrderSatisfied => ¬ last.errors.containsInvalid ∧ SmallSlope prm it
    | .positiveDerivative => ¬ last.errors.containsInvalid ∧ ¬ SmallSlope prm it ∧ Uphill it
    | .failureNonFiniteCost => last.errors.containsInvalid
    | .maxIterations => Refused prm it last ∧ (it.lineSearchSteps.length : Int) = prm.maxLineSearchIterations + 1
    | .failureInvalidAlpha => Refused prm it last ∧ prm.lineSearchStrategy = .polynomialApproximation ∧
        (it.lineSearchSteps.length : Int) ≤ prm.maxLineSearchIterations

/-- The state after an iteration. -/
def stateAfter (before : OptimizerState) : StepResult → OptimizerState
  | .success => .nominal
  | .maxIterations | .positiveDerivative => .attemptingRestoreLM
  | .firstOrderSatisfied | .failureNonFiniteCost | .failureInvalidAlpha => before

/-- `lambda` after an iteration. -/
def lambdaAfter (prm : NLSParams α) (before : Control α) : StepResult → α
  | .success => cmax (before.lambda * (match before.state with
      | .nominal => prm.lambdaDecreaseOnSuccess
      | .attemptingRestoreLM => prm.lambdaDecreaseOnRestore)) prm.minLambda
  | .maxIterations | .positiveDerivative => match before.state with
      | .nominal => cmax prm.lambdaFailureInit (before.lambda * Scalar.lit 10)
      | .attemptingRestoreLM => before.lambda * Scalar.lit 10
  | .firstOrderSatisfied | .failureNonFiniteCost | .failureInvalidAlpha => before.lambda

/-- `t` is the reason why the solver itself stops after the iteration; `lambda` is the value for the next one. -/
def Stops (prm : NLSParams α) (it : NLSIteration α) (lambda : α) : NLSTermination → Prop
  | .satisfiedAbsoluteTol => it.stepResult = .success ∧
      ∃ last, it.lineSearchSteps.getLast? = some last ∧ last.errors.lInfinity < prm.absoluteExitTol
  | .satisfiedRelativeTol => it.stepResult = .success ∧
      ∃ last, it.lineSearchSteps.getLast? = some last ∧ ¬ last.errors.lInfinity < prm.absoluteExitTol ∧
        it.errorsInitial.total it.penalty * (1 - prm.relativeExitTol) < last.errors.total it.penalty
  | .satisfiedFirstOrderTol => it.stepResult = .firstOrderSatisfied
  | .maxLambda => (it.stepResult = .maxIterations ∨ it.stepResult = .positiveDerivative) ∧ prm.maxLambda < lambda
  | .maxIterations | .qpIndefinite | .userCallback => False

/-- A logged iteration, number `k`, that starts from `before` and leaves `after`. -/
structure IterationOk (prm : NLSParams α) (set : Setting) (k : Nat) (before : Control α) (it : NLSIteration α)
    (after : Control α) : Prop where
  number : it.iteration = (k : Int)
  lambda : it.lambda = before.lambda
  penalty : it.penalty = after.penalty
  positive : 0 < it.penalty
  raised : ∃ wanted, (∀ q L, it.qpOutputs = .interiorPoint q → q.lagrange = some L → wanted = L.lInfinity) ∧
    ((set.equalities ∧ before.penalty < wanted ∧ it.penalty = wanted * prm.equalityPenaltyScaleFactor) ∨
      (¬ (set.equalities ∧ before.penalty < wanted) ∧ it.penalty = before.penalty))
  nullSpace : set.equalities ∧ ¬ set.inequalities → it.qpOutputs = .nullSpace .success
  interiorPoint : ¬ (set.equalities ∧ ¬ set.inequalities) → ∃ q, it.qpOutputs = .interiorPoint q
  eigenvalues : it.qpEigenvalues.isSome = prm.logQPEigenvalues
  finite : ¬ it.errorsInitial.containsInvalid
  search : SearchOk prm it
  state : it.optimizerState = after.state ∧ after.state = stateAfter before.state it.stepResult
  damping : after.lambda = lambdaAfter prm before it.stepResult

/-- The logs, from iteration `k` on, with the termination state. -/
inductive LegalLog (prm : NLSParams α) (set : Setting) :
    Nat → Control α → List (NLSIteration α) → NLSTermination → Prop where
  | limit (k : Nat) (c : Control α) : (k : Int) = prm.maxIterations → LegalLog prm set k c [] .maxIterations
  | indefinite (k : Nat) (c : Control α) : (k : Int) < prm.maxIterations → set.equalities → ¬ set.inequalities →
      LegalLog prm set k c [] .qpIndefinite
  | stop (k : Nat) (c c' : Control α) (it : NLSIteration α) (t : NLSTermination) : (k : Int) < prm.maxIterations →
      IterationOk prm set k c it c' → Stops prm it c'.lambda t → LegalLog prm set k c [it] t
  | user (k : Nat) (c c' : Control α) (it : NLSIteration α) : (k : Int) < prm.maxIterations →
      IterationOk prm set k c it c' → (∀ t, ¬ Stops prm it c'.lambda t) → set.callback →
      LegalLog prm set k c [it] .userCallback
  | next (k : Nat) (c c' : Control α) (it : NLSIteration α) (rest : List (NLSIteration α)) (t : NLSTermination) :
      (k : Int) < prm.maxIterations → IterationOk prm set k c it c' → (∀ t, ¬ Stops prm it c'.lambda t) →
      LegalLog prm set (k + 1) c' rest t → LegalLog prm set k c (it :: rest) t

/-- The variables along a log: an iteration that is no success leaves them, a success moves them by the last trial step. -/
inductive Path {X : Type} (moves : X → α → X → Prop) : X → List (NLSIteration α) → X → Prop where
  | done (x : X) : Path moves x [] x
  | stay (x y : X) (it : NLSIteration α) (rest : List (NLSIteration α)) : it.stepResult ≠ .success →
      Path moves x rest y → Path moves x (it :: rest) y
  | move (x x' y : X) (it : NLSIteration α) (rest : List (NLSIteration α)) (last : LineSearchStep α) :
      it.stepResult = .success → it.lineSearchSteps.getLast? = some last → moves x last.alpha x' →
      Path moves x' rest y → Path moves x (it :: rest) y

/-- What the callback answered (`proceed` or not) to the iterations of a log, given the termination state. -/
inductive Verdicts (answers : NLSIteration α → Bool → Prop) : List (NLSIteration α) → NLSTermination → Prop where
  | none (t : NLSTermination) : Verdicts answers [] t
  | last (it : NLSIteration α) (t : NLSTermination) (b : Bool) : answers it b → (t = .userCallback → b = false) →
      (t = .maxIterations ∨ t = .qpIndefinite → b = true) → Verdicts answers [it] t
  | more (it it' : NLSIteration α) (rest : List (NLSIteration α)) (t : NLSTermination) : answers it true →
      Verdicts answers (it' :: rest) t → Verdicts answers (it :: it' :: rest) t

end MiniOpt.Spec
