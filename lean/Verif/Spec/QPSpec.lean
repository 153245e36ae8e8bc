import Verif.Model.QP
import Mathlib.LinearAlgebra.Matrix.NonsingularInverse

/-!
# What a QP means (exact arithmetic)

Independent of the solver: only the problem data `G c A b con` of `QP` are used.  Only the lower
triangle of `G` is meaningful to mini_opt (`selfadjointView<Lower>`), so the quadratic form is that of
`Gsym`.
-/

set_option autoImplicit false

namespace MiniOpt.Spec

open MiniOpt

variable {N M K : Nat}

/-- The symmetric Hessian given by the lower triangle of `G`. -/
def Gsym (p : QP N M K ℝ) (i j : Fin N) : ℝ := p.G (max i j) (min i j)

/-- `½ xᵀ G x + cᵀ x`. -/
noncomputable def objective (p : QP N M K ℝ) (x : Fin N → ℝ) : ℝ :=
  (1 / 2) * (∑ i, ∑ j, x i * Gsym p i j * x j) + ∑ i, p.c i * x i

/-- Left-hand side of the inequality constraint `m`: `a x + b`. -/
def ineqVal (p : QP N M K ℝ) (x : Fin N → ℝ) (m : Fin M) : ℝ := (p.con m).a * x (p.con m).var + (p.con m).b

/-- Left-hand side of the equality constraint `k`: `(A x + b)_k`. -/
def eqVal (p : QP N M K ℝ) (x : Fin N → ℝ) (k : Fin K) : ℝ := (∑ j, p.A k j * x j) + p.b k

/-- Every constraint holds. -/
def Feasible (p : QP N M K ℝ) (x : Fin N → ℝ) : Prop := (∀ m, 0 ≤ ineqVal p x m) ∧ ∀ k, eqVal p x k = 0

/-- Gradient of the Lagrangian `G x + c - Aᵀ y - A_iᵀ z`. -/
def gradLagrangian (p : QP N M K ℝ) (v : Blocks N M K ℝ) (i : Fin N) : ℝ :=
  (∑ j, Gsym p i j * v.x j) + p.c i - (∑ k, p.A k i * v.y k)
    - ∑ m, if (p.con m).var = i then (p.con m).a * v.z m else 0

/-- The full (unreduced) Newton system of the perturbed KKT conditions at `v`, with barrier parameter
`mu` and second-order correction `corr` in the complementarity row: the direction `d` solves it. -/
structure NewtonSystem (p : QP N M K ℝ) (v : Blocks N M K ℝ) (mu : ℝ) (corr : Fin M → ℝ)
    (d : Blocks N M K ℝ) : Prop where
  dual : ∀ i, (∑ j, Gsym p i j * d.x j) - (∑ k, p.A k i * d.y k)
      - (∑ m, if (p.con m).var = i then (p.con m).a * d.z m else 0) = - gradLagrangian p v i
  comp : ∀ m, v.z m * d.s m + v.s m * d.z m = - (v.s m * v.z m + corr m - mu)
  eq : ∀ k, (∑ j, p.A k j * d.x j) = - eqVal p v.x k
  ineq : ∀ m, (p.con m).a * d.x (p.con m).var - d.s m = - (ineqVal p v.x m - v.s m)

/-- `v + (α_p dx, α_p ds, α_d dy, α_d dz)`. -/
def step (v d : Blocks N M K ℝ) (ap ad : ℝ) : Blocks N M K ℝ where
  x i := v.x i + ap * d.x i
  s i := v.s i + ap * d.s i
  y i := v.y i + ad * d.y i
  z i := v.z i + ad * d.z i

/-- Euclidean norm. -/
noncomputable def l2 {n : Nat} (v : Fin n → ℝ) : ℝ := Real.sqrt (∑ i, v i ^ 2)

/-- Average complementarity `sᵀ z / M`. -/
noncomputable def avgComp (v : Blocks N M K ℝ) : ℝ := (∑ m, v.s m * v.z m) / M

/-- The four KKT residual norms at `v` with barrier parameter `mu`, from the problem data. -/
noncomputable def kktError (p : QP N M K ℝ) (v : Blocks N M K ℝ) (mu : ℝ) : KKTError ℝ where
  rDual := l2 (gradLagrangian p v)
  rComp := l2 fun m => v.s m * v.z m - mu
  rPrimalEq := l2 (eqVal p v.x)
  rPrimalIneq := l2 fun m => ineqVal p v.x m - v.s m

/-- `G` (its lower triangle) is positive definite. -/
def PosDefG (p : QP N M K ℝ) : Prop := ∀ x : Fin N → ℝ, x ≠ 0 → 0 < ∑ i, ∑ j, x i * Gsym p i j * x j

/-- `G` (its lower triangle) is positive semidefinite. -/
def PSDG (p : QP N M K ℝ) : Prop := ∀ x : Fin N → ℝ, 0 ≤ ∑ i, ∑ j, x i * Gsym p i j * x j

/-- The rows of `A_eq` are linearly independent. -/
def IndependentRows (p : QP N M K ℝ) : Prop :=
  ∀ y : Fin K → ℝ, (∀ j, ∑ k, p.A k j * y k = 0) → y = 0

/-- `d` is a feasible direction of the equality constraints. -/
def NullDir (p : QP N M K ℝ) (d : Fin N → ℝ) : Prop := ∀ k, ∑ j, p.A k j * d j = 0

/-- The Hessian (its lower triangle) is positive definite on the null space of `A_eq`. -/
def PosDefOnNull (p : QP N M K ℝ) : Prop :=
  ∀ d : Fin N → ℝ, d ≠ 0 → NullDir p d → 0 < ∑ i, ∑ j, d i * Gsym p i j * d j

/-- A *regular* QP: independent equality rows, the Hessian positive semidefinite along the directions the
equality rows leave free, and strictly positive along those of them that no inequality constraint sees.
(`G` itself may be singular, as a Gauss-Newton Hessian often is, or indefinite.) -/
structure Regular (p : QP N M K ℝ) : Prop where
  rows : IndependentRows p
  psd : ∀ d : Fin N → ℝ, NullDir p d → 0 ≤ ∑ i, ∑ j, d i * Gsym p i j * d j
  pd : ∀ d : Fin N → ℝ, d ≠ 0 → NullDir p d → (∀ m, (p.con m).a * d (p.con m).var = 0) →
    0 < ∑ i, ∑ j, d i * Gsym p i j * d j

theorem PosDefG.onNull {p : QP N M K ℝ} (h : PosDefG p) : PosDefOnNull p := fun d hd _ => h d hd

theorem PosDefOnNull.regular {p : QP N M K ℝ} (h : PosDefOnNull p) (hA : IndependentRows p) : Regular p where
  rows := hA
  psd d hn := by
    by_cases hd : d = 0
    · subst hd; simp
    · exact (h d hd hn).le
  pd d hd hn _ := h d hd hn

theorem PosDefG.regular {p : QP N M K ℝ} (h : PosDefG p) (hA : IndependentRows p) : Regular p :=
  h.onNull.regular hA

/-- The reduced matrix the solver is documented to factorise
(`[G + A_iᵀ Σ A_i, A_eqᵀ; A_eq, 0]`, `/repo/source/qp.cc:262-264`). -/
noncomputable def reducedMatrix (p : QP N M K ℝ) (v : Blocks N M K ℝ) :
    Matrix (Red N K) (Red N K) ℝ
  | .inl i, .inl j => Gsym p i j + if i = j then
      ∑ m, (if (p.con m).var = i then (p.con m).a * (v.z m / v.s m) * (p.con m).a else 0) else 0
  | .inl i, .inr k => p.A k i
  | .inr k, .inl j => p.A k j
  | .inr _, .inr _ => 0

/-- The equality-constrained KKT matrix `[G, A_eqᵀ; A_eq, 0]`. -/
def kktMatrix (p : QP N M K ℝ) : Matrix (Red N K) (Red N K) ℝ
  | .inl i, .inl j => Gsym p i j
  | .inl i, .inr k => p.A k i
  | .inr k, .inl j => p.A k j
  | .inr _, .inr _ => 0

/-- **Contract of Eigen's LDLT** (exact arithmetic): whenever it reports success on a nonsingular
symmetric matrix, the `solveInPlace(Identity)` result is the inverse. -/
def LDLTContract (E : Eigen N K ℝ) : Prop :=
  ∀ H Hinv : Matrix (Red N K) (Red N K) ℝ, (∀ i j, H i j = H j i) → IsUnit H.det →
    E.ldltInverse H = some Hinv → H * Hinv = 1

/-- Matrix inverse (Mathlib's `Matrix.inv`). -/
noncomputable def matInv (H : Matrix (Red N K) (Red N K) ℝ) : Matrix (Red N K) (Red N K) ℝ := H⁻¹

/-- The contract is met, e.g. by the exact inverse. -/
noncomputable def exactEigen : Eigen N K ℝ := ⟨fun H => some (matInv H)⟩

theorem exactEigen_contract : LDLTContract (exactEigen : Eigen N K ℝ) := by
  intro H Hinv _ hu h
  have h' : matInv H = Hinv := Option.some.inj h
  subst h'
  exact Matrix.mul_nonsing_inv H hu

end MiniOpt.Spec
