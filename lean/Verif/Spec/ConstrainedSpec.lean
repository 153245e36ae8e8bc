import Verif.Spec.LinearizeSpec

/-!
# Linear least squares with linear equality constraints (exact arithmetic)
-/

set_option autoImplicit false

namespace MiniOpt.Spec

open MiniOpt MiniOpt.NLS

variable {D : Nat}

/-- Every equality constraint is an affine function of the variables, equal to its linear model everywhere. -/
def AffineEqs (p : Problem D ℝ) : Prop :=
  ∀ r ∈ p.eqs, ∀ (x dx : Fin D → ℝ) k, valueAt r (fun i => x i + dx i) k = linAt r x dx k

/-- Every equality constraint holds at `x`. -/
def SatisfiesEqs (p : Problem D ℝ) (x : Fin D → ℝ) : Prop := ∀ r ∈ p.eqs, ∀ k, valueAt r x k = 0

/-- `x` is the one point of least cost among those that satisfy the equality constraints. -/
def BestFeasible (p : Problem D ℝ) (x : Fin D → ℝ) : Prop :=
  SatisfiesEqs p x ∧ ∀ y, SatisfiesEqs p y → y ≠ x → costAt p x < costAt p y

/-- The point at the fraction `c` of the way from `best` to `x0`. -/
def between (best x0 : Fin D → ℝ) (c : ℝ) : Fin D → ℝ := fun i => best i + c * (x0 i - best i)

/-- No refused full step is followed by a shorter accepted one than this (linear problems). -/
noncomputable def secondStep (prm : NLSParams ℝ) : ℝ :=
  match prm.lineSearchStrategy with
  | .armijoBacktrack => prm.armijoSearchTau
  | .polynomialApproximation => 1 / 2

end MiniOpt.Spec
