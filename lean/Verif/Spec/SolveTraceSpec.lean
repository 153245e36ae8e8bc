import Verif.Model.Structs

/-!
# The trace of a solve, read off its outputs
-/

set_option autoImplicit false

namespace MiniOpt.Spec

variable {α : Type}

/-- The scopes recorded for one logged iteration. -/
def iterationScopes (it : NLSIteration α) : List (List Char) :=
  ["LinearizeAndFillQP".toList, "ComputeStepDirection".toList, "ComputeQPCostDerivative".toList] ++
    List.replicate it.lineSearchSteps.length "EvaluateNonlinearErrors".toList ++ ["SelectStepSize".toList]

/-- The scopes recorded by a solve that returns: those of the logged iterations in order; if the solve ended because a QP was
indefinite, the linearisation and the failed QP, which are not logged; then the solve itself. -/
def solveScopes (out : NLSOutputs α) : List (List Char) :=
  out.iterations.flatMap iterationScopes ++
    (if out.termination = .qpIndefinite then ["LinearizeAndFillQP".toList, "ComputeStepDirection".toList] else []) ++
    ["Solve".toList]

/-- What an iteration that ends with an exception can leave in the trace: it gets through the linearisation, the QP and its
derivative, a number of evaluations, and the step size selection (when the exception comes from the user's callback), or only
through a beginning of these; what throws is not recorded. -/
def InterruptedScopes (names : List (List Char)) : Prop :=
  names = [] ∨ names = ["LinearizeAndFillQP".toList] ∨
  ∃ k, names = ["LinearizeAndFillQP".toList, "ComputeStepDirection".toList, "ComputeQPCostDerivative".toList] ++
      List.replicate k "EvaluateNonlinearErrors".toList ∨
    names = ["LinearizeAndFillQP".toList, "ComputeStepDirection".toList, "ComputeQPCostDerivative".toList] ++
      List.replicate k "EvaluateNonlinearErrors".toList ++ ["SelectStepSize".toList]

end MiniOpt.Spec
