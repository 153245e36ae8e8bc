import Verif.Model.QP
import Mathlib.Logic.Equiv.Defs

/-!
# The null-space QP solver  (`/repo/source/qp.cc:657-729`, `/repo/include/mini_opt/qp.hpp:298-322`)

Eigen's `colPivHouseholderQr`, triangular solve and `llt` enter as parameters (`NSEigen`).
-/

set_option autoImplicit false

namespace MiniOpt

variable {α : Type} [Scalar α]

/-- What the code reads from `A_eq.transpose().colPivHouseholderQr()` (`qp.cc:687-696`). Column `k` of
the permutation matrix `P` is the unit vector `perm k`. -/
structure QRResult (n K : Nat) (α : Type) where
  Q : Fin n → Fin n → α
  R : Fin n → Fin K → α
  perm : Fin K → Fin K
  rank : Nat

/-- Eigen functions used by the null-space solver. `llt` is the Cholesky factorisation followed by
`solveInPlace`; `none` is `info() != Success`. -/
structure NSEigen (α : Type) where
  qr : {n K : Nat} → (Fin K → Fin n → α) → QRResult n K α
  triSolveTranspose : {K : Nat} → (Fin K → Fin K → α) → (Fin K → α) → (Fin K → α)
  llt : {m : Nat} → (Fin m → Fin m → α) → Option ((Fin m → α) → (Fin m → α))

/-- Member variables of `QPNullSpaceSolver` that are observable (`qp.hpp:321`): `x_`. The others are
overwritten before use in every `Solve`. -/
structure NSState (n : Nat) (α : Type) where
  x : Fin n → α

namespace NS

variable {n M K : Nat}

/-- `Q_.leftCols(rank)` when `rank = K` (`qp.cc:697`). -/
def Q1 (h : K ≤ n) (q : QRResult n K α) : Fin n → Fin K → α := fun i k => q.Q i (k.castLE h)

/-- `Q_.rightCols(Q_.cols() - rank)` when `rank = K` (`qp.cc:698`). -/
def Q2 (h : K ≤ n) (q : QRResult n K α) : Fin n → Fin (n - K) → α :=
  fun i j => q.Q i ⟨K + j.val, by omega⟩

/-- `R.topRows(num_equality_constraints).triangularView<Upper>()` (`qp.cc:701`). -/
def RUpper (h : K ≤ n) (q : QRResult n K α) : Fin K → Fin K → α :=
  fun i k => if i ≤ k then q.R (i.castLE h) k else 0

/-- The particular solution `u_` (`qp.cc:705-706`). -/
def particular (E : NSEigen α) (p : QP n M K α) (h : K ≤ n) (q : QRResult n K α) : Fin n → α :=
  let rhs : Fin K → α := fun k => - p.b (q.perm k)
  matVec (Q1 h q) (E.triSolveTranspose (RUpper h q) rhs)

/-- `G_reduced_ = Q2^T * G * Q2` (`qp.cc:710`). Eigen evaluates the product left to right. -/
def reducedG (p : QP n M K α) (h : K ≤ n) (q : QRResult n K α) : Fin (n - K) → Fin (n - K) → α :=
  fun i j => dot (fun b => dot (fun a => Q2 h q a i) (fun a => symLower p.G a b)) (fun b => Q2 h q b j)

/-- The right-hand side `y_` before the solve (`qp.cc:720`). -/
def reducedRhs (p : QP n M K α) (h : K ≤ n) (q : QRResult n K α) (u : Fin n → α) :
    Fin (n - K) → α :=
  fun j => - matTVec (Q2 h q) (fun i => p.c i + matVec (symLower p.G) u i) j

/-- `QPNullSpaceSolver::Solve` (`qp.cc:679-729`).
* the inequality constraints of the problem are ignored;
* `R.topRows(K)` with `K > n` is out of range, and `Q1 * (K-vector)` with `rank < K` is a product of
  incompatible sizes: both undefined behaviour with `EIGEN_NO_DEBUG`. -/
def solve (E : NSEigen α) (p : QP n M K α) (st : NSState n α) :
    SRes (NSState n α) (NSState n α × NullSpaceTermination) :=
  if ¬ 0 < K then .error (.assertion "Problem must have at least one equality constraint", st)
  else
    let q := E.qr p.A
    if h : K ≤ n then
      if q.rank ≠ K then .error (.ub "Q1 * solve(...): rank < number of constraints", st)
      else
        let u := particular E p h q
        match E.llt (symLower (reducedG p h q)) with
        | none => .ok (st, .notPositiveDefinite)
        | some f =>
          let y := f (reducedRhs p h q u)
          .ok (⟨fun i => u i + matVec (Q2 h q) y i⟩, .success)
    else .error (.ub "R.topRows(K) with K > number of variables", st)

end NS
end MiniOpt
