import Verif.Model.Scalar

/-!
# `LinearInequalityConstraint` and `Var`  (`/repo/include/mini_opt/qp.hpp:28-92`)
-/

set_option autoImplicit false

namespace MiniOpt

variable {α : Type} [Scalar α]

/-- `struct LinearInequalityConstraint` (`qp.hpp:28-70`): `a * x[variable] + b >= 0`.
`var` is the C++ field `variable`, an `int`; it may be negative. -/
structure Ineq (α : Type) where
  var : Int
  a : α
  b : α

/-- `LinearInequalityConstraint::IsFeasible` (`qp.hpp:37-40`). -/
def Ineq.isFeasible (c : Ineq α) (x : α) : Prop := 0 ≤ c.a * x + c.b

/-- `LinearInequalityConstraint::ClampX` (`qp.hpp:43-53`).  `F_ASSERT_NE(a, 0)` throws when `a == 0`. -/
def Ineq.clampX (c : Ineq α) (x : α) : Res α :=
  if Scalar.feq c.a 0 then .error (.assertion "`a` cannot be zero")
  else if c.a < 0 then .ok (cmin x (c.b / -c.a))
  else .ok (cmax x (-c.b / c.a))

/-- `LinearInequalityConstraint::ShiftTo(double)` (`qp.hpp:57-59`). -/
def Ineq.shiftTo (c : Ineq α) (x : α) : Ineq α := ⟨c.var, c.a, c.a * x + c.b⟩

/-- `LinearInequalityConstraint::ShiftTo(const VectorXd&)` (`qp.hpp:62-65`): only the upper bound of the
index is asserted; a negative index reads outside the vector. -/
def Ineq.shiftToVec (c : Ineq α) (x : List α) : Res (Ineq α) :=
  if c.var < (x.length : Int) then
    if h : 0 ≤ c.var ∧ c.var.toNat < x.length then .ok (c.shiftTo (x[c.var.toNat]'h.2))
    else .error (.ub "x[variable] with negative variable")
  else .error (.assertion "variable < x.rows()")

/-- `Var(i) <= value` (`qp.hpp:81-83`). -/
def varLe (i : Int) (value : α) : Ineq α := ⟨i, -1, value⟩

/-- `Var(i) >= value` (`qp.hpp:86-88`). -/
def varGe (i : Int) (value : α) : Ineq α := ⟨i, 1, -value⟩

end MiniOpt
