import Verif.Spec.SmoothSpec

/-!
# Damping on a linear problem (exact arithmetic)
-/

set_option autoImplicit false

namespace MiniOpt.Spec

open MiniOpt MiniOpt.NLS

/-- The damping used in iteration `k` if all iterations before succeeded: it decays by the success factor until it reaches
`min_lambda`. (A negative `lambda` counts as none.) -/
noncomputable def decayed (prm : NLSParams ℝ) (k : Nat) : ℝ :=
  max (max (prm.lambdaInitial * prm.lambdaDecreaseOnSuccess ^ k) prm.minLambda) 0

/-- By how much an iteration with damping `lam` shrinks the error, if the smallest eigenvalue of `JᵀJ` is at least `m`. -/
noncomputable def dampedRate (m lam : ℝ) : ℝ := lam / (m + lam)

end MiniOpt.Spec
