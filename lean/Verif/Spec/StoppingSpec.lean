import Verif.Spec.DerivativeSpec

/-!
# Parameters that decide when the nonlinear solver stops
-/

set_option autoImplicit false

namespace MiniOpt.Spec

open MiniOpt MiniOpt.NLS

/-- The two parameter sets agree except for the iteration limit, the three exit tolerances and the largest damping. -/
def AgreeExceptStopping {α : Type} (prm prm' : NLSParams α) : Prop :=
  prm' = { prm with
    maxIterations := prm'.maxIterations
    absoluteExitTol := prm'.absoluteExitTol
    relativeExitTol := prm'.relativeExitTol
    absoluteFirstDerivativeTol := prm'.absoluteFirstDerivativeTol
    maxLambda := prm'.maxLambda }

/-- `prm'` asks for at least as much as `prm` in each of the five. -/
structure Stricter (prm prm' : NLSParams ℝ) : Prop where
  agree : AgreeExceptStopping prm prm'
  maxIterations : prm.maxIterations ≤ prm'.maxIterations
  absoluteExitTol : prm'.absoluteExitTol ≤ prm.absoluteExitTol
  relativeExitTol : prm'.relativeExitTol ≤ prm.relativeExitTol
  absoluteFirstDerivativeTol : prm'.absoluteFirstDerivativeTol ≤ prm.absoluteFirstDerivativeTol
  maxLambda : prm.maxLambda ≤ prm'.maxLambda

/-- The same for the interior point solver: the parameter sets agree except for the iteration limit and the two termination
tolerances, and `prm'` asks for at least as much in each. -/
structure StricterQP (prm prm' : QPParams ℝ) : Prop where
  agree : prm' = { prm with
    maxIterations := prm'.maxIterations
    terminationKktTol := prm'.terminationKktTol
    terminationComplementarityTol := prm'.terminationComplementarityTol }
  maxIterations : prm.maxIterations ≤ prm'.maxIterations
  terminationKktTol : prm'.terminationKktTol ≤ prm.terminationKktTol
  terminationComplementarityTol : prm'.terminationComplementarityTol ≤ prm.terminationComplementarityTol

end MiniOpt.Spec
