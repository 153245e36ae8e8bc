import Verif.Spec.SmoothSpec
import Verif.Spec.PenaltySpec

/-!
# What C125 asks of the equality constraints (exact arithmetic)
-/

set_option autoImplicit false

namespace MiniOpt.Spec

open MiniOpt MiniOpt.NLS

variable {D : Nat}

/-- At the points of `S` the linear model of the constraints is off by at most `Lc / 2` times the squared length of the step, all
components added up. -/
structure SmoothEqs (p : Problem D ℝ) (S : (Fin D → ℝ) → Prop) (Lc : ℝ) : Prop where
  nonneg : 0 ≤ Lc
  upper : ∀ x, S x → ∀ (d : Fin D → ℝ) (t : ℝ), 0 ≤ t → t ≤ 1 →
    (p.eqs.map fun r => ∑ k, |valueAt r (fun i => x i + t * d i) k - (valueAt r x k + t * slopeAt r x d k)|).sum
      ≤ Lc / 2 * t ^ 2 * ∑ i, d i ^ 2

/-- The points where the constraints are violated by at most `C`. -/
def Violates (p : Problem D ℝ) (C : ℝ) (x : Fin D → ℝ) : Prop := violationAt p x ≤ C

/-- The slope of the merit function along the direction of an iteration, divided by the penalty and made positive; zero if the
iteration moved nothing. -/
noncomputable def scaledSlope (it : NLSIteration ℝ) : ℝ :=
  if it.stepResult = .success then - it.directionalDerivatives.total it.penalty / it.penalty else 0

end MiniOpt.Spec
