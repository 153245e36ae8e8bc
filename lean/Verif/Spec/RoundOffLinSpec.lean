import Verif.Spec.RoundOffNLSSpec

/-!
# The exact Gauss-Newton problem of residuals in doubles

The residuals are the user's code: the values and Jacobians they return (vectors and matrices of doubles) are taken as given.
What is computed from them in exact arithmetic is compared with what the program computes.
-/

set_option autoImplicit false

namespace MiniOpt.Spec

open MiniOpt MiniOpt.NLS

variable {L : Libm} {n D : Nat}

/-- The Jacobian a residual returns at `x`, as real numbers, with respect to all `D` variables. -/
noncomputable def exactJac (r : Residual (Dbl L)) (x : Fin n → Dbl L) (D : Nat) : Fin r.dim → Fin D → ℝ :=
  fullJac r.index (fun k l => realVal (r.jac (params r x) k l)) D

/-- Entry of `Σ JᵀJ`, in exact arithmetic. -/
noncomputable def exactNormal (p : Problem D (Dbl L)) (x : Fin n → Dbl L) (i j : Fin D) : ℝ :=
  (p.costs.map fun r => ∑ k, exactJac r x D k i * exactJac r x D k j).sum

/-- The magnitudes of the terms of an entry of `Σ JᵀJ`, added up. -/
noncomputable def normalMagnitude (p : Problem D (Dbl L)) (x : Fin n → Dbl L) (i j : Fin D) : ℝ :=
  (p.costs.map fun r => ∑ k, |exactJac r x D k i * exactJac r x D k j|).sum

/-- Component of the gradient `Σ Jᵀr` of the cost, in exact arithmetic. -/
noncomputable def exactGradient (p : Problem D (Dbl L)) (x : Fin n → Dbl L) (i : Fin D) : ℝ :=
  (p.costs.map fun r => ∑ k, exactJac r x D k i * realVal (valueAt r x k)).sum

/-- The magnitudes of the terms of a component of the gradient, added up. -/
noncomputable def gradientMagnitude (p : Problem D (Dbl L)) (x : Fin n → Dbl L) (i : Fin D) : ℝ :=
  (p.costs.map fun r => ∑ k, |exactJac r x D k i * realVal (valueAt r x k)|).sum

/-- A number of roundings that suffices to compute an entry of `Σ JᵀJ` or `Σ Jᵀr`. -/
def normalOps (p : Problem D (Dbl L)) : Nat := (p.costs.map fun r => r.dim + 1).sum

/-- Gradient of the damped Gauss-Newton model `½ Σ ‖r + J dx‖² + λ⁺/2 ‖dx‖²` at `dx`, in exact arithmetic. -/
noncomputable def gaussNewtonGradient (p : Problem D (Dbl L)) (x : Fin n → Dbl L) (lam : ℝ) (dx : Fin D → ℝ) (i : Fin D) : ℝ :=
  (p.costs.map fun r => ∑ k, exactJac r x D k i * (realVal (valueAt r x k) + ∑ j, exactJac r x D k j * dx j)).sum
    + max lam 0 * dx i

/-- Rounding errors made in setting up the Gauss-Newton model, multiplied by the step `dx`. -/
noncomputable def setupError (p : Problem D (Dbl L)) (x : Fin n → Dbl L) (lam : ℝ) (dx : Fin D → ℝ) (i : Fin D) : ℝ :=
  (∑ j, slop (normalOps p + 1) (normalOps p) (normalMagnitude p x i j + if i = j then max lam 0 else 0) * |dx j|)
    + slop (normalOps p) (normalOps p) (gradientMagnitude p x i)

/-- Slope of the cost along `d`, in exact arithmetic. -/
noncomputable def exactSlope (p : Problem D (Dbl L)) (x : Fin n → Dbl L) (d : Fin D → ℝ) : ℝ := ∑ i, exactGradient p x i * d i

/-- The damped Gauss-Newton curvature `Σ ‖J d‖² + λ⁺ ‖d‖²` along `d`, in exact arithmetic. -/
noncomputable def exactCurvature (p : Problem D (Dbl L)) (x : Fin n → Dbl L) (lam : ℝ) (d : Fin D → ℝ) : ℝ :=
  (p.costs.map fun r => ∑ k, (∑ j, exactJac r x D k j * d j) ^ 2).sum + max lam 0 * ∑ i, d i ^ 2

/-- Rounding errors made in computing the slope of the cost along `dx`: those of the gradient, and those of the scalar product. -/
noncomputable def slopeError (p : Problem D (Dbl L)) (x : Fin n → Dbl L) (dx : Fin D → ℝ) : ℝ :=
  (∑ i, slop (normalOps p) (normalOps p) (gradientMagnitude p x i) * |dx i|)
    + slop D D (∑ i, (gradientMagnitude p x i + slop (normalOps p) (normalOps p) (gradientMagnitude p x i)) * |dx i|)

/-- The magnitudes of the terms of a component of `gaussNewtonGradient`, added up. -/
noncomputable def modelMagnitude (p : Problem D (Dbl L)) (x : Fin n → Dbl L) (lam : ℝ) (dx : Fin D → ℝ) (i : Fin D) : ℝ :=
  (∑ j, (normalMagnitude p x i j + if i = j then max lam 0 else 0) * |dx j|) + gradientMagnitude p x i

/-- How far a step reported as solving the unconstrained Gauss-Newton problem may be from stationary: the tolerance, the
rounding errors of testing for it, and those of setting up the model. -/
noncomputable def stationaryError (p : Problem D (Dbl L)) (x : Fin n → Dbl L) (lam tol : ℝ) (dx : Fin D → ℝ) : ℝ :=
  inflated D tol + l2 (fun i => slop (D + 2) D (modelMagnitude p x lam dx i + setupError p x lam dx i))
    + l2 (setupError p x lam dx)

/-- The value of a bound `a x + b` at `x` in exact arithmetic, when its index is valid. -/
noncomputable def exactBound (c : Ineq (Dbl L)) (x : Fin n → Dbl L) : ℝ :=
  if h : 0 ≤ c.var ∧ c.var < (n : Int) then realVal c.a * realVal (x ⟨c.var.toNat, by omega⟩) + realVal c.b else 0

/-- The magnitudes of the terms of a bound, added up. -/
noncomputable def boundMagnitude (c : Ineq (Dbl L)) (x : Fin n → Dbl L) : ℝ :=
  if h : 0 ≤ c.var ∧ c.var < (n : Int) then |realVal c.a * realVal (x ⟨c.var.toNat, by omega⟩)| + |realVal c.b| else 0

/-- Component `i` of a vector; 0 when the index is not valid. -/
noncomputable def coord {m : Nat} (v : Fin m → ℝ) (i : Int) : ℝ :=
  if h : 0 ≤ i ∧ i < (m : Int) then v ⟨i.toNat, by omega⟩ else 0

/-- How far below zero the exact value of a bound may be after the full step `dx` that the QP solver accepted: the tolerance, the
rounding errors of testing for it, and those of moving the bound to the origin. (`m` is the number of bounds.) -/
noncomputable def boundStepError (m : Nat) (tol : ℝ) (c : Ineq (Dbl L)) (x : Fin n → Dbl L) (dx : Fin D → ℝ) : ℝ :=
  inflated m tol / (1 - unitRoundoff)
    + slop 2 1 (|realVal c.a * coord dx c.var| + (boundMagnitude c x + slop 2 1 (boundMagnitude c x)))
    + slop 2 1 (boundMagnitude c x)

/-- The rounding errors of moving the variables, as seen by a bound. -/
noncomputable def boundMoveError (c : Ineq (Dbl L)) (x : Fin n → Dbl L) (dx : Fin D → ℝ) (alpha : ℝ) : ℝ :=
  |realVal c.a| * slop 2 1 (|coord (fun i => realVal (x i)) c.var| + |coord dx c.var * alpha|)

/-- What the log shows of a QP that was solved and whose signs can be relied on: SATISFIED_KKT_TOL, no NaN in the final residual
norms, and no step length that underflowed. -/
def SolvedCleanly (q : QPOutputs (Dbl L)) : Prop :=
  q.termination = .satisfiedKktTol ∧ StepsNormal q ∧
  ∀ it, q.iterations.getLast? = some it → it.kktFinal.rPrimalEq ≠ F64.nan ∧ it.kktFinal.rPrimalIneq ≠ F64.nan

end MiniOpt.Spec
