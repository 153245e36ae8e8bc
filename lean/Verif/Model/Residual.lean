import Verif.Model.RawQP

/-!
# Residuals  (`/repo/include/mini_opt/residual.hpp`, `/repo/source/residual.cc`)

A residual is the user's callable together with the list of parameter indices it reads.

Simplifications: the callable is a pure function (no internal state; side effects are in
`Verif/Model/Stateful.lean`) of the gathered parameters; it may return different
values depending on whether a Jacobian is requested, and it may throw (`Fault.user`).  `ResidualDim` is a
template constant; the case `ResidualDim = Eigen::Dynamic = -1` (for which `Dimension()` would be `-1`) is
excluded by `dim : Nat`.
-/

set_option autoImplicit false

namespace MiniOpt

variable {α : Type} [Scalar α]

/-- `Residual::Model<ResidualDim, ParamDim, F>` (`residual.hpp:77-106`).
* `P` is `index_.size()`, `index` is `index_` (C++ `int`s, possibly negative or too large);
* `value p` is `func_(p, nullptr)`;
* `valueJ p` and `jac p` are the return value of `func_(p, &J)` and the `J` it fills;
* `throws p` and `throwsJ p` say whether `func_(p, nullptr)` and `func_(p, &J)` throw an exception. -/
structure Residual (α : Type) where
  dim : Nat
  P : Nat
  index : Fin P → Int
  value : (Fin P → α) → Fin dim → α
  valueJ : (Fin P → α) → Fin dim → α
  jac : (Fin P → α) → Fin dim → Fin P → α
  throws : (Fin P → α) → Bool := fun _ => false
  throwsJ : (Fin P → α) → Bool := fun _ => false

/-- An `int` as an index into something of size `n`, if it is one. -/
def toFin (n : Nat) (i : Int) : Option (Fin n) :=
  if h : 0 ≤ i ∧ i < n then some ⟨i.toNat, by omega⟩ else none

namespace Residual

/-- The assertions of the loop of `GatherValues` (`residual.hpp:157-160`), in loop order, for parameters of
size `n`. -/
def checkGather (n : Nat) : List Int → Res Unit
  | [] => .ok ()
  | i :: is =>
    if ¬ 0 ≤ i then .error (.assertion "i >= 0")
    else if ¬ i < (n : Int) then .error (.assertion "Index exceeds the number of params")
    else checkGather n is

/-- `GatherParams` / `GatherValues` (`residual.hpp:150-172`). The `ub` branch is what an index that got past
the assertions without being in range would mean; `Verif/Props/Residual.lean` shows there is none. -/
def gather (r : Residual α) {n : Nat} (x : Fin n → α) : Res (Fin r.P → α) :=
  match checkGather n (List.ofFn r.index) with
  | .error e => .error e
  | .ok _ =>
    if h : ∀ l, 0 ≤ r.index l ∧ r.index l < (n : Int) then
      .ok fun l => x ⟨(r.index l).toNat, by have := h l; omega⟩
    else .error (.ub "input[i] out of range")

/-- `ErrorVector` (`residual.hpp:174-180`) with an output block of `rows` rows: the new content of the
block. -/
def errorVector (r : Residual α) {n : Nat} (x : Fin n → α) (rows : Nat) : Res (Fin r.dim → α) :=
  if rows ≠ r.dim then .error (.assertion "Output vector is wrong dimension")
  else match r.gather x with
    | .error e => .error e
    | .ok p => if r.throws p then .error .user else .ok (r.value p)

/-- The literal `0.5`. -/
def half : α := Scalar.lit (1 / 2)

/-- `QuadraticError` (`residual.cc:6-11`). -/
def quadraticError (r : Residual α) {n : Nat} (x : Fin n → α) : Res α :=
  match r.errorVector x r.dim with
  | .error e => .error e
  | .ok b => .ok (half * squaredNorm b)

/-- `H(max, min) += v` (`residual.hpp:215-220`). -/
def addLower {D : Nat} (H : Fin D → Fin D → α) (row col : Fin D) (v : α) : Fin D → Fin D → α :=
  if col ≤ row then Function.update H row (Function.update (H row) col (H row col + v))
  else Function.update H col (Function.update (H col) row (H col row + v))

/-- Column `l` of a Jacobian. -/
def col {d P : Nat} (J : Fin d → Fin P → α) (l : Fin P) : Fin d → α := fun k => J k l

/-- The inner loop of `UpdateHessian` (`residual.hpp:210-221`) over a list of local columns. A column index
that is not a valid index of `H` would be an out-of-range access. -/
def hessCols {D d P : Nat} (index : Fin P → Int) (J : Fin d → Fin P → α) (row : Fin P) (rowG : Fin D) :
    List (Fin P) → (Fin D → Fin D → α) → Except (Fault × (Fin D → Fin D → α)) (Fin D → Fin D → α)
  | [], H => .ok H
  | c :: cs, H =>
    match toFin D (index c) with
    | none => .error (.ub "H(row_global, col_global) out of range", H)
    | some colG => hessCols index J row rowG cs (addLower H rowG colG (dot (col J row) (col J c)))

/-- The outer loop of `UpdateHessian` (`residual.hpp:206-224`) over a list of local rows. Only the upper bound
of `row_global` is asserted here. -/
def hessRows {D d P : Nat} (index : Fin P → Int) (J : Fin d → Fin P → α) (r : Fin d → α) :
    List (Fin P) → (Fin D → Fin D → α) → (Fin D → α) →
      Except (Fault × (Fin D → Fin D → α) × (Fin D → α)) ((Fin D → Fin D → α) × (Fin D → α))
  | [], H, b => .ok (H, b)
  | row :: rows, H, b =>
    if ¬ index row < (D : Int) then .error (.assertion "Index exceeds bounds of hessian", H, b)
    else match toFin D (index row) with
      | none => .error (.ub "H(row_global, col_global) out of range", H, b)
      | some rowG =>
        match hessCols index J row rowG ((List.finRange P).filter fun c => c ≤ row) H with
        | .error (e, H') => .error (e, H', b)
        | .ok H' =>
          hessRows index J r rows H' (Function.update b rowG (b rowG + dot (col J row) r))

/-- `UpdateHessian` (`residual.hpp:185-226`) on a square `H` and a `b` of the same size: the new `H`, `b` and
the returned error; a fault comes with `H` and `b` as they are left. -/
def updateHessian (r : Residual α) {n D : Nat} (x : Fin n → α) (H : Fin D → Fin D → α) (b : Fin D → α) :
    Except (Fault × (Fin D → Fin D → α) × (Fin D → α)) ((Fin D → Fin D → α) × (Fin D → α) × α) :=
  match r.gather x with
  | .error e => .error (e, H, b)
  | .ok p =>
    if r.throwsJ p then .error (.user, H, b)
    else match hessRows r.index (r.jac p) (r.valueJ p) (List.finRange r.P) H b with
      | .error e => .error e
      | .ok (H', b') => .ok (H', b', half * squaredNorm (r.valueJ p))

/-- `UpdateHessian` as called (`residual.hpp:185-192`): pointers that may be null and matrices of any size.
`none` is `nullptr`. -/
def updateHessianRaw (r : Residual α) {n : Nat} (x : Fin n → α) (H : Option (RawMat α))
    (b : Option (RawVec α)) : Except (Fault × Option (RawMat α) × Option (RawVec α))
      (RawMat α × RawVec α × α) :=
  match H, b with
  | none, _ => .error (.assertion "H != nullptr", H, b)
  | some _, none => .error (.assertion "b != nullptr", H, b)
  | some Hm, some bv =>
    if Hm.rows ≠ Hm.cols then .error (.assertion "H->rows() == H->cols()", H, b)
    else if bv.rows ≠ Hm.rows then .error (.assertion "b->rows() == H->rows()", H, b)
    else
      let back (h : Fin Hm.rows → Fin Hm.rows → α) : RawMat α :=
        ⟨Hm.rows, Hm.cols, fun i j => if hh : i < Hm.rows ∧ j < Hm.rows then h ⟨i, hh.1⟩ ⟨j, hh.2⟩ else Hm.get i j⟩
      let backv (v : Fin Hm.rows → α) : RawVec α :=
        ⟨bv.rows, fun i => if hh : i < Hm.rows then v ⟨i, hh⟩ else bv.get i⟩
      match r.updateHessian x (fun i j : Fin Hm.rows => Hm.get i j) (fun i : Fin Hm.rows => bv.get i) with
      | .error (e, H', b') => .error (e, some (back H'), some (backv b'))
      | .ok (H', b', f) => .ok (back H', backv b', f)

/-- The scatter loop of `UpdateJacobian` (`residual.hpp:245-249`) over a list of local columns: overwrite one
column of the output block per local column. -/
def scatterCols {D d P : Nat} (index : Fin P → Int) (J : Fin d → Fin P → α) :
    List (Fin P) → (Fin d → Fin D → α) → Except (Fault × (Fin d → Fin D → α)) (Fin d → Fin D → α)
  | [], A => .ok A
  | c :: cs, A =>
    if ¬ index c < (D : Int) then .error (.assertion "Index exceeds the size of the Jacobian", A)
    else match toFin D (index c) with
      | none => .error (.ub "J_out.col(col_global) out of range", A)
      | some colG => scatterCols index J cs fun k => Function.update (A k) colG (J k c)

/-- `UpdateJacobian` (`residual.hpp:229-250`) with an output block of `rows` rows and a vector block of `brows`
rows: the new content of both blocks; a fault comes with the blocks as they are left. -/
def updateJacobian (r : Residual α) {n D : Nat} (x : Fin n → α) (rows brows : Nat)
    (A : Fin r.dim → Fin D → α) (b : Fin r.dim → α) :
    Except (Fault × (Fin r.dim → Fin D → α) × (Fin r.dim → α)) ((Fin r.dim → Fin D → α) × (Fin r.dim → α)) :=
  if r.dim ≠ brows then .error (.assertion "ResidualDim == b_out.rows()", A, b)
  else if r.dim ≠ rows then .error (.assertion "ResidualDim == J_out.rows()", A, b)
  else match r.gather x with
    | .error e => .error (e, A, b)
    | .ok p =>
      if r.throwsJ p then .error (.user, A, b)
      else match scatterCols r.index (r.jac p) (List.finRange r.P) A with
        | .error (e, A') => .error (e, A', r.valueJ p)
        | .ok A' => .ok (A', r.valueJ p)

/-- `MakeResidual` from an initializer list (`residual.hpp:128-143`): for a fixed parameter count the list
must have that length. -/
def makeFromList (dim P : Nat) (index : List Int) (value valueJ : (Fin P → α) → Fin dim → α)
    (jac : (Fin P → α) → Fin dim → Fin P → α) (throws throwsJ : (Fin P → α) → Bool) : Res (Residual α) :=
  if h : index.length = P then
    .ok ⟨dim, P, fun l => index.get (l.cast h.symm), value, valueJ, jac, throws, throwsJ⟩
  else .error (.assertion "index.size() == P")

end Residual
end MiniOpt
