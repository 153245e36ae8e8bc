import Verif.Spec.CoordinateSpec
import Verif.Spec.LinearizeSpec

/-!
# Renumbering the variables, reversing some of them, and moving the origin, with bounds
-/

set_option autoImplicit false

namespace MiniOpt.Spec

open MiniOpt MiniOpt.NLS

variable {D : Nat}

/-- `-1` for a variable that is reversed, otherwise `1`. -/
def sgn (s : Bool) : ℝ := if s then -1 else 1

theorem sgn_sq (s : Bool) : sgn s * sgn s = 1 := by cases s <;> simp [sgn]

/-- Steps: the old variable `i` is the new variable `σ i`, reversed if `s i`. -/
def flip (σ : Fin D ≃ Fin D) (s : Fin D → Bool) : (Fin D → ℝ) ≃ₗ[ℝ] (Fin D → ℝ) where
  toFun e i := sgn (s i) * e (σ i)
  invFun d j := sgn (s (σ.symm j)) * d (σ.symm j)
  map_add' a b := by funext i; simp [mul_add]
  map_smul' c a := by funext i; simp [mul_left_comm]
  left_inv e := by funext j; simp [← mul_assoc, sgn_sq]
  right_inv d := by funext i; simp [← mul_assoc, sgn_sq]

/-- Points: the origin moves as well. -/
def flipMap (σ : Fin D ≃ Fin D) (s : Fin D → Bool) (t : Fin D → ℝ) (y : Fin D → ℝ) : Fin D → ℝ :=
  fun i => sgn (s i) * y (σ i) + t i

/-- A bound `a x + b ≥ 0` on an old variable, as a bound on the new one. -/
noncomputable def flippedBound (σ : Fin D ≃ Fin D) (s : Fin D → Bool) (t : Fin D → ℝ) (c : Ineq ℝ) : Ineq ℝ :=
  if h : 0 ≤ c.var ∧ c.var < (D : Int) then
    ⟨((σ ⟨c.var.toNat, by omega⟩).val : Int), c.a * sgn (s ⟨c.var.toNat, by omega⟩), c.b + c.a * t ⟨c.var.toNat, by omega⟩⟩
  else c

/-- The equality constraints, linearized at `x`, can be given any values by a step: the rows of their Jacobian are independent.
(Nothing is asked if there are none.) -/
def EqualitiesIndependentAt {n : Nat} (p : Problem D ℝ) (x : Fin n → ℝ) : Prop :=
  ∀ v : List ℝ, v.length = p.K → ∃ d : Fin D → ℝ, stackedModel x d p.eqs = v

/-- Some point satisfies all the bounds. -/
def BoundsConsistent (p : Problem D ℝ) (n : Nat) : Prop :=
  ∃ w : Fin n → ℝ, ∀ c ∈ p.ineq, 0 ≤ boundAt c w

/-- What an iteration logs, except the eigenvalues of the Hessian (logged only on request). -/
def withoutEigenvalues (it : NLSIteration ℝ) : NLSIteration ℝ := { it with qpEigenvalues := none }

end MiniOpt.Spec
