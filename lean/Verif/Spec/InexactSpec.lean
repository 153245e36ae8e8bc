import Verif.Spec.QPSpec

/-!
# Linear solves that are not exact

Specification for C105. The interior point solver asks Eigen for an inverse `X` of the reduced matrix `H` and multiplies the
right-hand side by it. Nothing is assumed about `X` here; `solveError` is what the product gets wrong.
-/

set_option autoImplicit false

namespace MiniOpt.Spec

open MiniOpt

variable {N M K : Nat}

/-- Right-hand side (up to sign) of the reduced system at `v`: `r_dual` with the slack and complementarity rows eliminated,
and the equality residual, from the problem data. -/
noncomputable def reducedRhs (p : QP N M K ℝ) (v : Blocks N M K ℝ) (mu : ℝ) (corr : Fin M → ℝ) : Red N K → ℝ
  | .inl i => gradLagrangian p v i + ∑ m, (if (p.con m).var = i then
      (p.con m).a * ((v.z m * (ineqVal p v.x m - v.s m) + (v.s m * v.z m + corr m - mu)) / v.s m) else 0)
  | .inr k => eqVal p v.x k

/-- `w - H X w`: by how much `X w` fails to solve `H u = w`. -/
noncomputable def solveError (p : QP N M K ℝ) (v : Blocks N M K ℝ) (X : Matrix (Red N K) (Red N K) ℝ) (w : Red N K → ℝ) :
    Red N K → ℝ := fun r => w r - ∑ c, reducedMatrix p v r c * ∑ d, X c d * w d

/-- Euclidean norm of a vector with an `x` and a `y` part. -/
noncomputable def redNorm (w : Red N K → ℝ) : ℝ := Real.sqrt (∑ r, w r ^ 2)

/-- The full Newton system solved up to errors in the dual and equality rows. -/
structure InexactNewton (p : QP N M K ℝ) (v : Blocks N M K ℝ) (mu : ℝ) (corr : Fin M → ℝ) (d : Blocks N M K ℝ)
    (err : Red N K → ℝ) : Prop where
  dual : ∀ i, (∑ j, Gsym p i j * d.x j) - (∑ k, p.A k i * d.y k)
      - (∑ m, if (p.con m).var = i then (p.con m).a * d.z m else 0) = - gradLagrangian p v i + err (.inl i)
  comp : ∀ m, v.z m * d.s m + v.s m * d.z m = - (v.s m * v.z m + corr m - mu)
  eq : ∀ k, (∑ j, p.A k j * d.x j) = - eqVal p v.x k + err (.inr k)
  ineq : ∀ m, (p.con m).a * d.x (p.con m).var - d.s m = - (ineqVal p v.x m - v.s m)

/-- The linear solver, if it succeeds on the matrix `H`, gives an `X` with `‖w - H X w‖ ≤ ε ‖w‖` (Euclidean norms) for every
right-hand side `w`. The exact inverse has `ε = 0`. -/
def SolvesWithin (E : Eigen N K ℝ) (H : Matrix (Red N K) (Red N K) ℝ) (ε : ℝ) : Prop :=
  ∀ X : Matrix (Red N K) (Red N K) ℝ, E.ldltInverse H = some X → ∀ w : Red N K → ℝ,
    redNorm (fun r => w r - ∑ c, H r c * ∑ d, X c d * w d) ≤ ε * redNorm w

/-- The residual of the optimality conditions of a problem without inequality constraints: the gradient of the Lagrangian
and the equality residual. -/
noncomputable def eqResidual (p : QP N M K ℝ) (v : Blocks N M K ℝ) : Red N K → ℝ :=
  Sum.elim (gradLagrangian p v) (eqVal p v.x)

end MiniOpt.Spec
