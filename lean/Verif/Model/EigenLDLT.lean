import Verif.Model.QP

/-!
# The factorisation used by the interior point solver

`Eigen::LDLT<MatrixXd, Eigen::Lower>` as called at `/repo/source/qp.cc:302-311`: construction from `H_`, `info()`, and
`solveInPlace` of the identity. Eigen is not part of the repository (`dependencies/eigen` is a submodule, absent here); this
file is a transcription of the algorithm of Eigen 3.3/3.4, `Eigen/src/Cholesky/LDLT.h` (`ldlt_inplace<Lower>::unblocked`,
`LDLT::_solve_impl_transposed`). All other theorems leave the factorisation a parameter (`Eigen N K α`).

Rows and columns are named by their index in `H_`, so that swapping two of them is only a change of the order in which the
pivots are taken. Reductions are `Scalar.sum`, as everywhere.
-/

set_option autoImplicit false

namespace MiniOpt.LDLT

open MiniOpt

variable {ι : Type} [DecidableEq ι] {α : Type} [Scalar α]

/-- `diagonal().tail(size - k).cwiseAbs().maxCoeff(&index)`: the first entry with the largest key. -/
def firstMax (key : ι → α) (k : ι) (rest : List ι) : ι :=
  rest.foldl (fun m i => if key m < key i then i else m) k

/-- The order in which pivots are taken: in step `k` the `k`-th row and the row found by `firstMax` change places. The
diagonal of the rows still to come is not updated by the steps before (the algorithm works column by column), so the key is
the absolute value of the diagonal of the input. The first argument is the number of steps left. -/
def pivotOrder (key : ι → α) : Nat → List ι → List ι
  | 0, _ => []
  | _ + 1, [] => []
  | n + 1, k :: rest =>
    let m := firstMax key k rest
    if m = k then k :: pivotOrder key n rest
    else m :: pivotOrder key n (rest.map fun i => if i = m then k else i)

/-- The matrix in place: multipliers `L` below the diagonal (column `j` belongs to pivot `j`), pivots `D`, the flag
`found_zero_pivot` and the return value so far. `done` lists the pivots taken, in order. -/
structure Fact (ι α : Type) where
  done : List ι
  L : ι → ι → α
  D : ι → α
  zeroPivot : Bool
  ok : Bool

/-- `mat.coeffRef(i, k) - A_i0 * temp.head(k)` with `temp = D * A10ᵀ`; for the first pivot nothing is subtracted. -/
def Fact.entry (f : Fact ι α) (H : ι → ι → α) (i k : ι) : α :=
  match f.done with
  | [] => H i k
  | _ :: _ => H i k - Scalar.sum (f.done.map fun j => f.L i j * (f.D j * f.L k j))

/-- One step with pivot `k`; `rs` are the rows below it. -/
def Fact.step (f : Fact ι α) (H : ι → ι → α) (k : ι) (rs : List ι) : Fact ι α :=
  let d := f.entry H k k
  let valid : Bool := decide (0 < Scalar.abs d)
  { done := f.done ++ [k]
    L := fun i j => if j = k ∧ i ∈ rs then (if valid then f.entry H i k / d else f.entry H i k) else f.L i j
    D := Function.update f.D k d
    zeroPivot := f.zeroPivot || !valid
    ok := f.ok && (valid || rs.all fun i => decide (Scalar.feq (f.entry H i k) 0)) && !(f.zeroPivot && valid) }

/-- The remaining steps. -/
def Fact.steps (H : ι → ι → α) : List ι → Fact ι α → Fact ι α
  | [], f => f
  | k :: rs, f => Fact.steps H rs (f.step H k rs)

/-- All entries below the diagonal are zero. -/
def strictlyLowerZero (H : ι → ι → α) : List ι → Bool
  | [] => true
  | k :: rs => (rs.all fun i => decide (Scalar.feq (H i k) 0)) && strictlyLowerZero H rs

/-- `ldlt_inplace<Lower>::unblocked` on the matrix `H` with rows `rows`. If the first pivot (the largest diagonal entry) is
not valid, it stops at once: the factorisation succeeds if everything below the diagonal is zero. -/
def factorize (H : ι → ι → α) (rows : List ι) : Fact ι α :=
  let order := pivotOrder (fun i => Scalar.abs (H i i)) rows.length rows
  match order with
  | [] => ⟨[], fun _ _ => 0, fun _ => 0, false, true⟩
  | k :: rs =>
    if 0 < Scalar.abs (H k k) then Fact.steps H (k :: rs) ⟨[], fun _ _ => 0, fun _ => 0, false, true⟩
    else ⟨k :: rs, fun _ _ => 0, fun i => H i i, true, strictlyLowerZero H (k :: rs)⟩

/-- Substitution with a unit triangular matrix: entry `k` is found after the entries of the list before it. -/
def substitute (L : ι → ι → α) (b : ι → α) : List ι → List ι → (ι → α) → (ι → α)
  | _, [], y => y
  | pre, k :: rest, y =>
    substitute L b (pre ++ [k]) rest (Function.update y k (b k - Scalar.sum (pre.map fun j => L k j * y j)))

/-- `_solve_impl`: forward substitution, division by the pivots larger than `cutoff` (`1 / highest()` in Eigen) with zero for
the others, backward substitution. -/
def Fact.solve (f : Fact ι α) (cutoff : α) (b : ι → α) : ι → α :=
  let y := substitute f.L b [] f.done (fun _ => 0)
  let z : ι → α := fun i => if cutoff < Scalar.abs (f.D i) then y i / f.D i else 0
  substitute (fun i j => f.L j i) z [] f.done.reverse (fun _ => 0)

/-- The factorisation as the interior point solver uses it (`qp.cc:302-311`): `none` if `info()` is not `Success`, otherwise
the matrix whose columns solve for the columns of the identity. -/
def eigen (N K : Nat) (cutoff : α) : Eigen N K α where
  ldltInverse H :=
    let f := factorize H ((List.finRange N).map .inl ++ (List.finRange K).map .inr)
    if f.ok then some fun i j => f.solve cutoff (fun l => if l = j then 1 else 0) i else none

end MiniOpt.LDLT
