import Verif.Model.NullSpace
import Verif.Model.EigenLDLT

/-!
# The factorisations used by the null-space solver

`A_eq.transpose().colPivHouseholderQr()`, `R_upper.transpose().solve(...)` and `llt()` as called at
`/repo/source/qp.cc:687-724`. Eigen is not part of the repository (`dependencies/eigen` is a submodule, absent here); this file
is a transcription of the algorithms of Eigen 3.3/3.4: `Eigen/src/QR/ColPivHouseholderQR.h` (`computeInPlace`, `rank`),
`Eigen/src/Householder/Householder.h` (`makeHouseholder`, `applyHouseholderOnTheLeft`), `HouseholderSequence.h` (`evalTo`),
`Eigen/src/Core/products/TriangularSolverVector.h` and `Eigen/src/Cholesky/LLT.h` (`llt_inplace<Lower>::unblocked`). The
blocked variants for large matrices, which do the same operations in another order, are not modelled. All other theorems leave
these functions a parameter (`NSEigen`).

Columns of the matrix (the equality constraints) are named by their index in `A_eq`, so that swapping two of them is only a
change of the order in which they are taken.
-/

set_option autoImplicit false

namespace MiniOpt.QR

open MiniOpt

variable {n : Nat} {ι : Type} [DecidableEq ι] {α : Type} [Scalar α]

/-- A reduction over the rows below row `k` (`tail(rows - k - 1)`); zero if there are none. -/
def below (k : Fin n) (f : Fin n → α) : α :=
  if k.val + 1 = n then 0 else Scalar.sum (((List.finRange n).filter fun i => k < i).map f)

/-- A Householder reflection of the rows from `k` on: the essential part (read below row `k`) and `tau`. -/
structure Refl (n : Nat) (α : Type) where
  k : Fin n
  ess : Fin n → α
  tau : α

/-- `makeHouseholder` on the rows from `k` on of the column `x` (`Householder.h`): the reflection and `beta`. `tiny` is
`numeric_limits<double>::min()`. -/
def reflect (tiny : α) (k : Fin n) (x : Fin n → α) : Refl n α × α :=
  let t := below k fun i => x i * x i
  if t ≤ tiny then (⟨k, fun _ => 0, 0⟩, x k)
  else
    let r := Scalar.sqrt (x k * x k + t)
    let beta := if 0 ≤ x k then -r else r
    (⟨k, fun i => x i / (x k - beta), (beta - x k) / beta⟩, beta)

/-- `applyHouseholderOnTheLeft` on one column (`Householder.h`). -/
def Refl.apply (r : Refl n α) (x : Fin n → α) : Fin n → α :=
  if r.k.val + 1 = n then fun i => if i = r.k then x i * (1 - r.tau) else x i
  else if Scalar.feq r.tau 0 then x
  else
    let t := below r.k (fun i => r.ess i * x i) + x r.k
    fun i => if i < r.k then x i else if i = r.k then x i - r.tau * t else x i - r.tau * r.ess i * t

/-- The update of `m_colNormsUpdated`, `m_colNormsDirect` of the column `x` after the step for row `k`
(`ColPivHouseholderQR.h`; LAPACK working note 176). `dd` is `sqrt(epsilon)`. -/
def downdate (dd : α) (k : Fin n) (x : Fin n → α) (upd dir : α) : α × α :=
  if Scalar.feq upd 0 then (upd, dir)
  else
    let q := Scalar.abs (x k) / upd
    let t := (1 + q) * (1 - q)
    let t := if t < 0 then 0 else t
    let t2 := t * ((upd / dir) * (upd / dir))
    if t2 ≤ dd then
      let d := Scalar.sqrt (below k fun i => x i * x i)
      (d, d)
    else (upd * Scalar.sqrt t, dir)

/-- The columns not yet taken, with their norms. -/
structure Cols (n : Nat) (ι α : Type) where
  col : ι → Fin n → α
  upd : ι → α
  dir : ι → α

/-- A finished column: which one, its norm when it was chosen, its reflection, and what `m_qr` holds for it: entries of `R` up
to the diagonal, the essential part below. -/
structure Pivot (n : Nat) (ι α : Type) where
  id : ι
  norm : α
  refl : Refl n α
  R : Fin n → α

/-- The main loop of `computeInPlace`. The first argument is the number of steps left, the second the number of steps done. -/
def steps (tiny dd : α) : Nat → Nat → List ι → Cols n ι α → List (Pivot n ι α)
  | 0, _, _, _ => []
  | _ + 1, _, [], _ => []
  | m + 1, k, c :: rest, s =>
    if h : k < n then
      let p := LDLT.firstMax s.upd c rest
      let rest' := if p = c then rest else rest.map fun i => if i = p then c else i
      let rb := reflect tiny ⟨k, h⟩ (s.col p)
      let col' := fun j => rb.1.apply (s.col j)
      let s' : Cols n ι α :=
        ⟨col', fun j => (downdate dd ⟨k, h⟩ (col' j) (s.upd j) (s.dir j)).1,
          fun j => (downdate dd ⟨k, h⟩ (col' j) (s.upd j) (s.dir j)).2⟩
      ⟨p, s.upd p, rb.1, fun i => if i.val = k then rb.2 else if i.val < k then s.col p i else rb.1.ess i⟩ ::
        steps tiny dd m (k + 1) rest' s'
    else []

/-- `m_nonzero_pivots`: the first step whose column is below the threshold. `helper` is `threshold_helper`. -/
def nonzeroPivots (helper : α) : Nat → List (Pivot n ι α) → Nat
  | _, [] => 0
  | k, p :: ps => if p.norm * p.norm < helper * Scalar.lit ((n - k : Nat) : ℚ) then 0 else nonzeroPivots helper (k + 1) ps + 1

/-- `m_maxpivot`. -/
def maxPivot (ps : List (Pivot n ι α)) : α :=
  ps.foldl (fun m p => if m < Scalar.abs (p.R p.refl.k) then Scalar.abs (p.R p.refl.k) else m) 0

/-- `rank()`, with `threshold()` equal to `eps` times the number of diagonal entries. -/
def rank (thr : α) (nz : Nat) (ps : List (Pivot n ι α)) : Nat :=
  (ps.take nz).countP fun p => decide (Scalar.abs (maxPivot ps) * thr < Scalar.abs (p.R p.refl.k))

/-- `m_colNormsUpdated.maxCoeff()` at the start. -/
def biggest {K : Nat} (norms : Fin K → α) : α :=
  match List.finRange K with
  | [] => 0
  | c :: rest => norms (LDLT.firstMax norms c rest)

/-- `A.transpose().colPivHouseholderQr()`. `eps` is `numeric_limits<double>::epsilon()` in the thresholds for the rank. `Q` is
the sequence of reflections applied to the identity; Eigen skips entries that are zero, which changes nothing. -/
def colPivQR (eps tiny dd : α) {K : Nat} (A : Fin K → Fin n → α) : QRResult n K α :=
  let norms : Fin K → α := fun k => norm2 (A k)
  let ps := steps tiny dd K 0 (List.finRange K) ⟨A, norms, norms⟩
  let helper := (biggest norms * eps) * (biggest norms * eps) / Scalar.lit (n : ℚ)
  { Q := fun a i => (ps.map (·.refl)).foldr Refl.apply (fun b => if b = i then 1 else 0) a
    R := fun a k => match ps[k.val]? with
      | some p => p.R a
      | none => 0
    perm := fun k => match ps[k.val]? with
      | some p => p.id
      | none => k
    rank := rank (eps * Scalar.lit ((min n K : Nat) : ℚ)) (nonzeroPivots helper 0 ps) ps }

/-- Substitution with a triangular matrix: entry `k` is found after the entries of the list before it. -/
def forward (L : ι → ι → α) (b : ι → α) : List ι → List ι → (ι → α) → (ι → α)
  | _, [], y => y
  | pre, k :: rest, y =>
    let v := match pre with
      | [] => b k
      | _ :: _ => b k - Scalar.sum (pre.map fun j => L k j * y j)
    forward L b (pre ++ [k]) rest (Function.update y k (v / L k k))

/-- The entry `A21 - A20 * A10.adjoint()` of row `i` in step `k`. -/
def schur (S L : ι → ι → α) (pre : List ι) (i k : ι) : α :=
  match pre with
  | [] => S i k
  | _ :: _ => S i k - Scalar.sum (pre.map fun j => L i j * L k j)

/-- `llt_inplace<Lower>::unblocked`: `none` if a pivot is not positive. -/
def cholesky (S : ι → ι → α) : List ι → List ι → (ι → ι → α) → Option (ι → ι → α)
  | _, [], L => some L
  | pre, k :: rs, L =>
    let x := schur S L pre k k
    if x ≤ 0 then none
    else
      let d := Scalar.sqrt x
      cholesky S (pre ++ [k]) rs fun i j =>
        if j = k then (if i = k then d else if i ∈ rs then schur S L pre i k / d else L i j) else L i j

/-- `S.selfadjointView<Lower>().llt()` followed by `solveInPlace`. -/
def llt {m : Nat} (S : Fin m → Fin m → α) : Option ((Fin m → α) → Fin m → α) :=
  match cholesky S [] (List.finRange m) (fun _ _ => 0) with
  | none => none
  | some L => some fun b =>
    forward (fun i j => L j i) (forward L b [] (List.finRange m) (fun _ => 0)) [] (List.finRange m).reverse (fun _ => 0)

/-- The three functions as the null-space solver uses them (`qp.cc:687`, `706`, `713-724`). -/
def eigenNS (eps tiny dd : α) : NSEigen α where
  qr A := colPivQR eps tiny dd A
  triSolveTranspose U rhs := forward (fun i j => U j i) rhs [] (List.finRange _) (fun _ => 0)
  llt S := llt S

end MiniOpt.QR
