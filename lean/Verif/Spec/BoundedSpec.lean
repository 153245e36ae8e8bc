import Verif.Spec.SmoothSpec
import Verif.Spec.QPSpec

/-!
# What the solution of a QP subproblem leaves undone
-/

set_option autoImplicit false

namespace MiniOpt.Spec

open MiniOpt MiniOpt.IP

variable {N M K : Nat}

/-- The duality gap `s·z`, the norms of the residuals times those of the step and the multipliers, and `1e-9` times the
multipliers (bounds may be violated by that much, C49). Zero for an exact solution without inequality constraints. -/
noncomputable def missed (p : QP N M K ℝ) (v : Blocks N M K ℝ) : ℝ :=
  (∑ m, v.s m * v.z m) + l2 (gradLagrangian p v) * l2 v.x + l2 (fun m => ineqVal p v.x m - v.s m) * l2 v.z
    + 1e-9 * ∑ m, v.z m

end MiniOpt.Spec
