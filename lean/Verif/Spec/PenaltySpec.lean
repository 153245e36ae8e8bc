import Verif.Spec.DerivativeSpec
import Verif.Spec.NLSSpec

/-!
# What C124 asks of a problem with equality constraints

Two bounds at a point `x`: how fast the costs can change, and how far one has to go to satisfy the linearized constraints.
-/

set_option autoImplicit false

namespace MiniOpt.Spec

open MiniOpt.NLS

variable {n D : Nat}

/-- The stacked Jacobian of the costs at `x` stretches no vector by more than `L`. -/
def CostRateAt (p : Problem D ℝ) (L : ℝ) (x : Fin n → ℝ) : Prop :=
  ∀ v : Fin D → ℝ, (p.costs.map fun r => ∑ k, slopeAt r x v k ^ 2).sum ≤ L ^ 2 * ∑ j, v j ^ 2

/-- Some displacement, at most `κ` times as long as the constraints are violated at `x`, satisfies the constraints linearized
at `x`. (True with `κ = 1/σ` if the smallest singular value of the constraint Jacobian is at least `σ`: `C124_independent`.) -/
def CorrectionAt (p : Problem D ℝ) (κ : ℝ) (x : Fin n → ℝ) : Prop :=
  ∃ v : Fin D → ℝ, (∀ r ∈ p.eqs, ∀ k, linAt r x v k = 0) ∧ ∑ j, v j ^ 2 ≤ (κ * violationAt p x) ^ 2

/-- The rows of the stacked constraint Jacobian at `x`: one for each component of each equality constraint. -/
abbrev EqRow (p : Problem D ℝ) : Type := (i : Fin p.eqs.length) × Fin (p.eqs.get i).dim

/-- The constraint Jacobian at `x` is uniformly independent: no combination `w` of its rows is shorter than `σ` times `w`. -/
def RowsIndependentAt (p : Problem D ℝ) (σ : ℝ) (x : Fin n → ℝ) : Prop :=
  ∀ w : EqRow p → ℝ, σ ^ 2 * ∑ s, w s ^ 2 ≤ ∑ j : Fin D, (∑ s : EqRow p, jacAt (p.eqs.get s.1) x D s.2 j * w s) ^ 2

/-- Both bounds hold wherever the constraints are violated by at most `C`. -/
structure Qualified (p : Problem D ℝ) (n : Nat) (L κ C : ℝ) : Prop where
  rate : ∀ x : Fin n → ℝ, violationAt p x ≤ C → CostRateAt p L x
  correction : ∀ x : Fin n → ℝ, violationAt p x ≤ C → CorrectionAt p κ x

/-- The merit function at the start, divided by the initial penalty. -/
noncomputable def startMerit (p : Problem D ℝ) (prm : NLSParams ℝ) (x0 : Fin n → ℝ) : ℝ :=
  costAt p x0 / prm.equalityPenaltyInitial + violationAt p x0

/-- The penalty that is never exceeded (unless the initial one is larger). -/
noncomputable def penaltyBound (prm : NLSParams ℝ) (L κ C : ℝ) : ℝ :=
  prm.equalityPenaltyScaleFactor / (1 - prm.equalityPenaltyRho) * κ ^ 2 * C
    * (2 * prm.equalityPenaltyScaleFactor / (1 - prm.equalityPenaltyRho) * L ^ 2 + L ^ 2 + max prm.maxLambda 0)

/-- Length of the accepted step times the violation it started from; only violations that the penalty formula can see (at least
the machine epsilon) are counted, and iterations without an accepted step count zero. -/
noncomputable def violationRemoved (it : NLSIteration ℝ) : ℝ :=
  if it.stepResult = .success ∧ 1 / 2 ^ 52 ≤ it.errorsInitial.equality then
    (it.lineSearchSteps.getLast?.map (·.alpha)).getD 0 * it.errorsInitial.equality
  else 0

end MiniOpt.Spec
