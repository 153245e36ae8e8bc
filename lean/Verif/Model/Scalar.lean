import Mathlib.Analysis.Real.Sqrt
import Mathlib.Algebra.BigOperators.Fin
import Mathlib.Tactic.Ring
import Mathlib.Tactic.Linarith
import Mathlib.Tactic.FieldSimp
import Mathlib.Tactic.NormNum

/-!
# The arithmetic parameter of the model

All numerical code in mini_opt works on `double`.  The model is written over an arbitrary type `α`
with the *operations* the code uses and **no laws**.  Theorems stated for `[Scalar α]` therefore hold
for IEEE doubles with whatever rounding, NaN and infinity behaviour; theorems stated for `ℝ` are about
exact arithmetic; `Verif/Model/F64.lean` gives a binary64 instance.
-/

set_option autoImplicit false

namespace MiniOpt

/-- The `double` operations used by mini_opt (`/repo/source/*.cc`, `/repo/include/mini_opt/*.hpp`).
No law is assumed.

* `<`, `≤` are the C++ comparisons (so both are false on NaN for an IEEE instance), `feq` is C++ `==`;
* `isFinite` is `std::isfinite`, `abs` is `std::abs`, `sqrt` is `std::sqrt`, `cube x` is
  `std::pow(x, 3)`, `lit q` is a decimal literal or an `int`→`double` conversion;
* `sum` is an Eigen reduction (`.sum()`, `.dot()`, `.squaredNorm()`, `lpNorm<1>()`, matrix-vector rows).
  Eigen does not fix the association order, so it is one opaque operation on the list of terms. -/
class Scalar (α : Type) extends Zero α, One α, Add α, Sub α, Mul α, Div α, Neg α, LT α, LE α where
  decLT : DecidableRel ((· < ·) : α → α → Prop)
  decLE : DecidableRel ((· ≤ ·) : α → α → Prop)
  feq : α → α → Prop
  decFeq : DecidableRel feq
  isFinite : α → Prop
  decFinite : DecidablePred isFinite
  abs : α → α
  sqrt : α → α
  cube : α → α
  lit : ℚ → α
  sum : List α → α

-- On a concrete type such as `ℝ`, prefer the ordinary instances.
attribute [instance 10] Scalar.toZero Scalar.toOne Scalar.toAdd Scalar.toSub Scalar.toMul Scalar.toDiv
  Scalar.toNeg Scalar.toLT Scalar.toLE

variable {α : Type} [Scalar α]

@[reducible] instance (a b : α) : Decidable (a < b) := Scalar.decLT a b
@[reducible] instance (a b : α) : Decidable (a ≤ b) := Scalar.decLE a b
@[reducible] instance (a b : α) : Decidable (Scalar.feq a b) := Scalar.decFeq a b
@[reducible] instance (a : α) : Decidable (Scalar.isFinite a) := Scalar.decFinite a

/-- `std::max(a, b)`: returns `(a < b) ? b : a`. -/
def cmax (a b : α) : α := if a < b then b else a

/-- `std::min(a, b)`: returns `(b < a) ? b : a`. -/
def cmin (a b : α) : α := if b < a then b else a

/-- Eigen `a.dot(b)` on vectors of equal size. -/
def dot {n : Nat} (a b : Fin n → α) : α := Scalar.sum (List.ofFn fun i => a i * b i)

/-- Eigen `a.squaredNorm()`. -/
def squaredNorm {n : Nat} (a : Fin n → α) : α := dot a a

/-- Eigen `a.norm()`. -/
def norm2 {n : Nat} (a : Fin n → α) : α := Scalar.sqrt (squaredNorm a)

/-- Eigen `a.sum()`. -/
def vsum {n : Nat} (a : Fin n → α) : α := Scalar.sum (List.ofFn a)

/-- Eigen `a.lpNorm<1>()`. -/
def lpNorm1 {n : Nat} (a : Fin n → α) : α := Scalar.sum (List.ofFn fun i => Scalar.abs (a i))

/-- Eigen matrix-vector product `A * x`. -/
def matVec {m n : Nat} (A : Fin m → Fin n → α) (x : Fin n → α) : Fin m → α := fun i => dot (A i) x

/-- Eigen `A.transpose() * y`. -/
def matTVec {m n : Nat} (A : Fin m → Fin n → α) (y : Fin m → α) : Fin n → α :=
  fun j => dot (fun i => A i j) y

/-- `G.selfadjointView<Eigen::Lower>()`: the symmetric matrix whose lower triangle is that of `G`. -/
def symLower {n : Nat} (G : Fin n → Fin n → α) : Fin n → Fin n → α :=
  fun i j => if j ≤ i then G i j else G j i

/-! ## Exact arithmetic -/

open Classical in
/-- Exact real arithmetic (no rounding, no NaN, no infinities). -/
noncomputable instance : Scalar ℝ where
  decLT _ _ := inferInstance
  decLE _ _ := inferInstance
  feq a b := a = b
  decFeq _ _ := inferInstance
  isFinite _ := True
  decFinite _ := inferInstance
  abs x := |x|
  sqrt := Real.sqrt
  cube x := x ^ 3
  lit q := (q : ℝ)
  sum := List.sum

@[simp] theorem real_feq (a b : ℝ) : Scalar.feq a b ↔ a = b := Iff.rfl
@[simp] theorem real_isFinite (a : ℝ) : Scalar.isFinite a := trivial
@[simp] theorem real_abs (a : ℝ) : Scalar.abs a = |a| := rfl
@[simp] theorem real_sqrt (a : ℝ) : Scalar.sqrt a = Real.sqrt a := rfl
@[simp] theorem real_cube (a : ℝ) : Scalar.cube a = a ^ 3 := rfl
@[simp] theorem real_lit (q : ℚ) : (Scalar.lit q : ℝ) = (q : ℝ) := rfl
@[simp] theorem real_sum (l : List ℝ) : Scalar.sum l = l.sum := rfl

@[simp] theorem real_cmax (a b : ℝ) : cmax a b = max a b := by
  unfold cmax
  split_ifs with h
  · rw [max_eq_right h.le]
  · rw [max_eq_left (not_lt.mp h)]

@[simp] theorem real_cmin (a b : ℝ) : cmin a b = min a b := by
  unfold cmin
  split_ifs with h
  · rw [min_eq_right h.le]
  · rw [min_eq_left (not_lt.mp h)]

theorem real_dot {n : Nat} (a b : Fin n → ℝ) : dot a b = ∑ i, a i * b i := by
  simp [dot, List.sum_ofFn]

theorem real_squaredNorm {n : Nat} (a : Fin n → ℝ) : squaredNorm a = ∑ i, a i ^ 2 := by
  simp [squaredNorm, real_dot, sq]

theorem real_norm2 {n : Nat} (a : Fin n → ℝ) : norm2 a = Real.sqrt (∑ i, a i ^ 2) := by
  simp [norm2, real_squaredNorm]

theorem real_vsum {n : Nat} (a : Fin n → ℝ) : vsum a = ∑ i, a i := by
  simp [vsum, List.sum_ofFn]

theorem real_lpNorm1 {n : Nat} (a : Fin n → ℝ) : lpNorm1 a = ∑ i, |a i| := by
  simp [lpNorm1, List.sum_ofFn]

theorem real_matVec {m n : Nat} (A : Fin m → Fin n → ℝ) (x : Fin n → ℝ) (i : Fin m) :
    matVec A x i = ∑ j, A i j * x j := real_dot _ _

theorem real_matTVec {m n : Nat} (A : Fin m → Fin n → ℝ) (y : Fin m → ℝ) (j : Fin n) :
    matTVec A y j = ∑ i, A i j * y i := real_dot _ _

/-! ## Outcomes -/

/-- How a call can fail. `assertion` is `assert::default_error` thrown by an `F_ASSERT*` macro
(`assertions.hpp:68-73`), `failedFactorization` is `FailedFactorization` (`qp.hpp:331`), and `ub` marks
undefined behaviour of the C++ program (out-of-range access, size mismatch with `EIGEN_NO_DEBUG`,
`CMakeLists.txt:49-51`). `user` is an exception thrown by a callable of the user (residual, retraction, callback). The tag
names the site. -/
inductive Fault where
  | assertion (tag : String)
  | failedFactorization
  | ub (tag : String)
  | user
  deriving DecidableEq, Repr

/-- Result of a modelled call. -/
abbrev Res (β : Type) := Except Fault β

/-- `F_ASSERT(cond)` (`assertions.hpp:68-82`): throw unless the condition holds. -/
def fassert (cond : Prop) [Decidable cond] (tag : String) : Res Unit :=
  if cond then .ok () else .error (.assertion tag)

end MiniOpt
