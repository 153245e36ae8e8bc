import Verif.Model.QP
import Mathlib.LinearAlgebra.Matrix.NonsingularInverse

/-!
# The generator of random QPs used by the tests  (`/repo/test/test_utils.cc:19-34`, `/repo/test/qp_test.cc:57-82,484-524`)

In exact arithmetic. The random numbers are arguments.
-/

set_option autoImplicit false

namespace MiniOpt.TestUtils

open Matrix

variable {n : Nat}

/-- `A.selfadjointView<Eigen::Upper>().rankUpdate(u)` (`test_utils.cc:30`): adds `u uᵀ` to the upper triangle, diagonal
included; the strictly lower triangle is not written. -/
def rankUpdateUpper (A : Matrix (Fin n) (Fin n) ℝ) (u : Fin n → ℝ) : Matrix (Fin n) (Fin n) ℝ :=
  fun j k => if j ≤ k then A j k + u j * u k else A j k

/-- `A.triangularView<StrictlyUpper>() = A.triangularView<StrictlyLower>().transpose()` (`test_utils.cc:32`). -/
def lowerToUpper (A : Matrix (Fin n) (Fin n) ℝ) : Matrix (Fin n) (Fin n) ℝ := fun j k => if j < k then A k j else A j k

/-- `GenerateRandomPDMatrix` (`test_utils.cc:19-34`); `u i j` is the `j`-th number drawn in round `i`. -/
def randomPD (u : Fin n → Fin n → ℝ) : Matrix (Fin n) (Fin n) ℝ :=
  lowerToUpper ((List.finRange n).foldl (fun A i => rankUpdateUpper A (u i)) 0)

/-- `BuildQuadratic` (`qp_test.cc:57-73`): `G` and `c` for the roots `(a x - b)²`. -/
def quadratic (a b : Fin n → ℝ) : Matrix (Fin n) (Fin n) ℝ × (Fin n → ℝ) :=
  (fun i j => if i = j then a i * a i else 0, fun i => -2 * a i * b i)

/-- The constraints of `GenerateRandomQP` (`qp_test.cc:510-522`); `scale r` is the number drawn for variable `r`, or `none` if
it gets no constraint. -/
noncomputable def constraintList (x : Fin n → ℝ) (scale : Fin n → Option ℝ) : List (Con n ℝ) :=
  (List.finRange n).filterMap fun r => (scale r).map fun t =>
    let c : Ineq ℝ := if x r < 0 then varGe r.val (x r * t) else varLe r.val (x r * t)
    ⟨r, c.a, c.b⟩

/-- `roots_shifted` (`qp_test.cc:502`). -/
noncomputable def shifted (P : Matrix (Fin n) (Fin n) ℝ) (roots : Fin n → ℝ) : Fin n → ℝ := fun i => P⁻¹.mulVec roots i * 2

/-- The QP built by `GenerateRandomQP` (`qp_test.cc:484-524`) from a matrix `PD`. -/
noncomputable def jumbledQP (P : Matrix (Fin n) (Fin n) ℝ) (roots : Fin n → ℝ) (scale : Fin n → Option ℝ) :
    QP n (constraintList (shifted P roots) scale).length 0 ℝ where
  G := P.transpose * (quadratic (fun _ => 1) roots).1 * P
  c := P.mulVec (quadratic (fun _ => 1) roots).2
  A := Fin.elim0
  b := Fin.elim0
  con := (constraintList (shifted P roots) scale).get

/-- The `solution` returned beside it (`qp_test.cc:506,520`). -/
noncomputable def claimedSolution (P : Matrix (Fin n) (Fin n) ℝ) (roots : Fin n → ℝ) (scale : Fin n → Option ℝ) : Fin n → ℝ :=
  fun r => match scale r with
    | none => shifted P roots r
    | some t => shifted P roots r * t

/-- `expect_eigen_near` (`test_utils.hpp:46-73`): whether two matrices of the same size are accepted. `isnan(d)` is
`d != d`. -/
def eigenNear {α : Type} [Scalar α] {r c : Nat} (a b : Fin r → Fin c → α) (tol : α) : Prop :=
  ∀ i j, ¬ (tol < Scalar.abs (a i j - b i j) ∨ ¬ Scalar.feq (a i j - b i j) (a i j - b i j))

end MiniOpt.TestUtils
