import Verif.Model.QP

/-!
# The flat state vector and its block accessors  (`/repo/source/qp.cc:36-40`, `205-221`, `548-582`)

The C++ object stores `(x, s, y, z)` in one `VectorXd`.  Here that vector is a `List`; `head`,
`segment`, `tail` are Eigen's expressions of the same name, with the out-of-range case (an
`EIGEN_NO_DEBUG` out-of-bounds view, hence undefined behaviour) as an explicit outcome.
-/

set_option autoImplicit false

namespace MiniOpt

variable {α : Type}

/-- `ProblemDims` (`qp.hpp:199-203`). -/
structure Dims where
  N : Nat
  M : Nat
  K : Nat

/-- Size of `variables_` (`qp.cc:41`). -/
def Dims.total (d : Dims) : Nat := d.N + d.M * 2 + d.K

/-- A view of `len` elements starting at `start` of a vector. -/
structure Seg where
  start : Nat
  len : Nat

/-- `XBlock`: `vec.head(N)` (`qp.cc:548-551`, `568-570`). -/
def xSeg (d : Dims) (_size : Nat) : Option Seg := some ⟨0, d.N⟩
/-- `SBlock`: `vec.segment(N, M)` (`qp.cc:553-556`, `572-574`). -/
def sSeg (d : Dims) (_size : Nat) : Option Seg := some ⟨d.N, d.M⟩
/-- `YBlock`: `vec.segment(N + M, K)` (`qp.cc:558-561`, `576-578`). -/
def ySeg (d : Dims) (_size : Nat) : Option Seg := some ⟨d.N + d.M, d.K⟩
/-- `ZBlock`: `vec.tail(M)` (`qp.cc:563-566`, `580-582`): starts at `size - M`; `none` if negative. -/
def zSeg (d : Dims) (size : Nat) : Option Seg := if d.M ≤ size then some ⟨size - d.M, d.M⟩ else none

/-- Reading a view. -/
def readSeg (g : Option Seg) (vec : List α) : Res (List α) :=
  match g with
  | none => .error (.ub "negative start of a vector block")
  | some g =>
    if g.start + g.len ≤ vec.length then .ok ((vec.drop g.start).take g.len)
    else .error (.ub "vector block out of range")

/-- Assigning `vals` (of the view's length) to a view. -/
def writeSeg (g : Option Seg) (vec vals : List α) : Res (List α) :=
  match g with
  | none => .error (.ub "negative start of a vector block")
  | some g =>
    if g.start + g.len ≤ vec.length ∧ vals.length = g.len then
      .ok (vec.take g.start ++ vals ++ vec.drop (g.start + g.len))
    else .error (.ub "vector block out of range")

/-- The four accessors. -/
inductive Block where
  | x | s | y | z
  deriving DecidableEq

/-- The view an accessor forms on a vector of the given size. -/
def Block.seg (d : Dims) (size : Nat) : Block → Option Seg
  | .x => xSeg d size
  | .s => sSeg d size
  | .y => ySeg d size
  | .z => zSeg d size

/-- `x_block()`, `s_block()`, `y_block()`, `z_block()` for reading (`qp.cc:205-211`). -/
def getBlock (d : Dims) (b : Block) (vec : List α) : Res (List α) := readSeg (b.seg d vec.length) vec

/-- The mutable accessors (`qp.cc:213-219`) used on the left of an assignment. -/
def setBlock (d : Dims) (b : Block) (vec vals : List α) : Res (List α) :=
  writeSeg (b.seg d vec.length) vec vals

/-- `SetVariables` (`qp.cc:221`): plain vector assignment, no size check. -/
def setVariables (_d : Dims) (_old v : List α) : List α := v

/-- The blocks of `Verif/Model/QP.lean` laid out flat. -/
def Blocks.flatten {N M K : Nat} (b : Blocks N M K α) : List α :=
  List.ofFn b.x ++ List.ofFn b.s ++ List.ofFn b.y ++ List.ofFn b.z

end MiniOpt
