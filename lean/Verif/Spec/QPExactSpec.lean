import Verif.Spec.QPSpec

/-!
# Exact solutions of a QP (vocabulary of C122)
-/

set_option autoImplicit false

namespace MiniOpt.Spec

variable {N M K : Nat}

/-- `w` is an exact solution of the KKT conditions: the gradient of the Lagrangian vanishes, the constraints hold, `w.s` are the
values of the inequality constraints, the multipliers are not negative, and wherever a constraint is not tight its multiplier is
zero. -/
structure ExactSolution (p : QP N M K ℝ) (w : Blocks N M K ℝ) : Prop where
  dual : ∀ i, gradLagrangian p w i = 0
  eq : ∀ k, eqVal p w.x k = 0
  slack : ∀ m, w.s m = ineqVal p w.x m
  ineq : ∀ m, 0 ≤ w.s m
  mult : ∀ m, 0 ≤ w.z m
  comp : ∀ m, w.s m = 0 ∨ w.z m = 0

/-- `dᵀ G d`. -/
noncomputable def energy (p : QP N M K ℝ) (d : Fin N → ℝ) : ℝ := ∑ i, ∑ j, d i * Gsym p i j * d j

/-- The QP without its inequality constraints. -/
def withoutIneq (p : QP N M K ℝ) : QP N 0 K ℝ := ⟨p.G, p.c, p.A, p.b, Fin.elim0⟩

end MiniOpt.Spec
