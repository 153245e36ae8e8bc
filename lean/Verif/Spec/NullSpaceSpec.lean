import Verif.Model.NullSpace
import Verif.Spec.QPSpec

/-!
# Meaning of the null-space solver's outcome, and the contracts of the Eigen functions it calls
(exact arithmetic).
-/

set_option autoImplicit false

namespace MiniOpt.Spec

open MiniOpt

/-- The rows of a matrix are linearly independent. -/
def RowsIndependent {K N : Nat} (A : Fin K → Fin N → ℝ) : Prop :=
  ∀ y : Fin K → ℝ, (∀ j, ∑ k, A k j * y k = 0) → y = 0

/-- **Contract of `A.transpose().colPivHouseholderQr()`** for `K ≤ n`: `Q` is orthogonal,
`Aᵀ P = Q R` with only the upper triangle of `R` used, `P` is a permutation, and the reported rank is full
exactly when the rows of `A` are independent. -/
structure QRContract (E : NSEigen ℝ) : Prop where
  orth : ∀ {n K : Nat} (A : Fin K → Fin n → ℝ), K ≤ n → ∀ i j,
    ∑ a, (E.qr A).Q a i * (E.qr A).Q a j = if i = j then 1 else 0
  factor : ∀ {n K : Nat} (A : Fin K → Fin n → ℝ), K ≤ n → ∀ k i,
    A ((E.qr A).perm k) i = ∑ j : Fin n, if j.val ≤ k.val then (E.qr A).Q i j * (E.qr A).R j k else 0
  perm : ∀ {n K : Nat} (A : Fin K → Fin n → ℝ), K ≤ n → Function.Bijective (E.qr A).perm
  rank : ∀ {n K : Nat} (A : Fin K → Fin n → ℝ), K ≤ n → ((E.qr A).rank = K ↔ RowsIndependent A)

/-- **Contract of the triangular solve** `U.transpose().solve(rhs)` for an upper triangular `U` with
nonzero diagonal. -/
def TriContract (E : NSEigen ℝ) : Prop :=
  ∀ {K : Nat} (U : Fin K → Fin K → ℝ) (rhs : Fin K → ℝ), (∀ i k, k < i → U i k = 0) → (∀ k, U k k ≠ 0) →
    ∀ k, ∑ i, U i k * E.triSolveTranspose U rhs i = rhs k

/-- **Contract of Cholesky**: it succeeds on a symmetric matrix exactly when it is positive definite, and
then solves with it. -/
def LLTContract (E : NSEigen ℝ) : Prop :=
  ∀ {m : Nat} (S : Fin m → Fin m → ℝ), (∀ i j, S i j = S j i) →
    (E.llt S = none ↔ ¬ ∀ y : Fin m → ℝ, y ≠ 0 → 0 < ∑ i, ∑ j, y i * S i j * y j) ∧
    ∀ f, E.llt S = some f → ∀ rhs i, ∑ j, S i j * f rhs j = rhs i

/-- All three. -/
structure NSContract (E : NSEigen ℝ) : Prop where
  qr : QRContract E
  tri : TriContract E
  llt : LLTContract E

end MiniOpt.Spec
