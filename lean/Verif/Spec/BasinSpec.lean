import Verif.Spec.DerivativeSpec
import Verif.Spec.LinearizeSpec
import Mathlib.Data.Real.Sqrt

/-!
# A neighbourhood of a solution with zero residual
-/

set_option autoImplicit false

namespace MiniOpt.Spec

open MiniOpt MiniOpt.NLS

variable {D : Nat}

/-- Euclidean distance. -/
noncomputable def dist2 (x y : Fin D → ℝ) : ℝ := Real.sqrt (∑ i, (x i - y i) ^ 2)

/-- All costs vanish at `xs`; within distance `ρ` of it the stacked Jacobian stretches every vector by `σ` at least, and
the residuals differ from their linear models by at most `L / 2` times the squared distance (which is so if the Jacobian is
Lipschitz with constant `L`); and the ball is small: `L ρ ≤ σ / 2`. -/
structure Basin (p : Problem D ℝ) (xs : Fin D → ℝ) (ρ σ L : ℝ) : Prop where
  zero : ∀ r ∈ p.costs, ∀ k, valueAt r xs k = 0
  stretch : ∀ x, dist2 x xs ≤ ρ → ∀ d : Fin D → ℝ,
    σ ^ 2 * ∑ i, d i ^ 2 ≤ (p.costs.map fun r => ∑ k, slopeAt r x d k ^ 2).sum
  model : ∀ x y, dist2 x xs ≤ ρ → dist2 y xs ≤ ρ →
    (p.costs.map fun r => ∑ k, (valueAt r y k - valueAt r x k - slopeAt r x (fun i => y i - x i) k) ^ 2).sum
      ≤ (L / 2 * dist2 x y ^ 2) ^ 2
  radius : 0 ≤ ρ
  pos : 0 < σ
  nonneg : 0 ≤ L
  small : L * ρ ≤ σ / 2

end MiniOpt.Spec
