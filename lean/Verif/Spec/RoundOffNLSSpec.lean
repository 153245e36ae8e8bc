import Verif.Spec.RoundOffSpec
import Verif.Spec.NLSSpec

/-!
# The exact cost of a problem in doubles

The residuals are the user's code: the vectors of doubles they return are taken as given, and what is computed from them in
exact arithmetic is compared with what the program logs.
-/

set_option autoImplicit false

namespace MiniOpt.Spec

open MiniOpt MiniOpt.NLS

variable {L : Libm} {n D : Nat}

/-- `½ Σ ‖r(x)‖²` of the doubles the residuals return, in exact arithmetic. -/
noncomputable def exactCost (p : Problem D (Dbl L)) (x : Fin n → Dbl L) : ℝ :=
  (p.costs.map fun r => 1 / 2 * ∑ i, realVal (valueAt r x i) ^ 2).sum

/-- `Σ ‖e(x)‖₁` of the doubles the equality constraints return, in exact arithmetic. -/
noncomputable def exactViolation (p : Problem D (Dbl L)) (x : Fin n → Dbl L) : ℝ :=
  (p.eqs.map fun r => ∑ i, |realVal (valueAt r x i)|).sum

/-- The merit function, in exact arithmetic. -/
noncomputable def exactMerit (p : Problem D (Dbl L)) (penalty : ℝ) (x : Fin n → Dbl L) : ℝ :=
  exactCost p x + penalty * exactViolation p x

/-- A number of roundings that suffices to compute the cost. -/
def costOps (p : Problem D (Dbl L)) : Nat := (p.costs.map fun r => r.dim + 2).sum

/-- A number of roundings that suffices to compute the constraint violation. -/
def violationOps (p : Problem D (Dbl L)) : Nat := (p.eqs.map fun r => r.dim + 1).sum

/-- A number of roundings that suffices to compute the merit function. -/
def meritOps (p : Problem D (Dbl L)) : Nat := costOps p + violationOps p + 2

end MiniOpt.Spec
