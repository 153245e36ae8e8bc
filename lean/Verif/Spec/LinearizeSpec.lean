import Verif.Spec.NLSSpec
import Verif.Spec.QPSpec

/-!
# What the linearised problem should be (exact arithmetic)

Stated from the residuals' values and Jacobians only.
-/

set_option autoImplicit false

namespace MiniOpt.Spec

open MiniOpt MiniOpt.NLS

variable {n D : Nat}

/-- Jacobian of a residual at `x` with respect to all `D` variables. -/
noncomputable def jacAt (r : Residual ℝ) (x : Fin n → ℝ) (D : Nat) : Fin r.dim → Fin D → ℝ :=
  fullJac r.index (r.jac (params r x)) D

/-- The linear model `h + J dx` of a residual. -/
noncomputable def linAt (r : Residual ℝ) (x : Fin n → ℝ) (dx : Fin D → ℝ) (k : Fin r.dim) : ℝ :=
  valueAt r x k + ∑ j, jacAt r x D k j * dx j

/-- A problem without user errors: all indices exist both in the variables vector and in the problem dimension, no
residual reads a parameter twice, and the residuals' values do not depend on whether a Jacobian is requested. -/
structure WellPosed (p : Problem D ℝ) (n : Nat) : Prop where
  idx : IndicesOk p n
  idxD : IndicesOk p D
  distinct : ∀ r ∈ p.costs ++ p.eqs, Distinct r
  consistent : ConsistentP p
  ineq : ∀ c ∈ p.ineq, 0 ≤ c.var ∧ c.var < (n : Int) ∧ c.var < (D : Int)

/-- The stacked values of a list of residuals. -/
noncomputable def stackedValues (x : Fin n → ℝ) : List (Residual ℝ) → List ℝ
  | [] => []
  | r :: rs => List.ofFn (valueAt r x) ++ stackedValues x rs

/-- The stacked linear models of a list of residuals. -/
noncomputable def stackedModel (x : Fin n → ℝ) (dx : Fin D → ℝ) : List (Residual ℝ) → List ℝ
  | [] => []
  | r :: rs => List.ofFn (linAt r x dx) ++ stackedModel x dx rs

/-- Value of a bound `a x + b` at `x`, when its index is valid. -/
noncomputable def boundAt (c : Ineq ℝ) (x : Fin n → ℝ) : ℝ :=
  if h : 0 ≤ c.var ∧ c.var < (n : Int) then c.a * x ⟨c.var.toNat, by omega⟩ + c.b else 0

end MiniOpt.Spec
