import Verif.Model.Nonlinear

/-!
# A `Problem` that changes after the solver object has been constructed

`ConstrainedNonlinearLeastSquares` keeps a pointer to the caller's `Problem` and fixes the sizes of its buffers in
the constructor (`/repo/source/nonlinear.cc:13-47`).  `Verif/Model/Nonlinear.lean` describes an object whose problem
is not modified; here the sizes are separate from the problem that `Solve` finds behind the pointer.
-/

set_option autoImplicit false

namespace MiniOpt
namespace NLS

variable {α : Type} [Scalar α] {n D : Nat}

/-- The buffer sizes of the object: `qp_.G`, `qp_.c` and `qp_.A_eq.cols()` (`dim`), `qp_.A_eq.rows()` and
`qp_.b_eq.rows()` (`rows`), `error_buffer_.rows()` (`buffer`). -/
structure Sizes where
  dim : Nat
  rows : Nat
  buffer : Nat

/-- The sizes computed by the constructor (`nonlinear.cc:19-46`): one loop over the equality constraints, one over
the costs. -/
def construct (p : Problem D α) : Sizes :=
  let eq := p.eqs.foldl (fun (s : Nat × Nat) r => (s.1 + r.dim, max s.2 r.dim)) (0, 0)
  ⟨D, eq.1, p.costs.foldl (fun m r => max m r.dim) eq.2⟩

/-- `LinearizeAndFillQP` (`nonlinear.cc:170-214`) on an object with the given sizes, for the problem `p`. The
assertions of lines 175-177 all compare the same number with `problem.dimension`. Simplification: what is left in
`qp_` after an exception is not described. -/
def linearizeSized (s : Sizes) (p : Problem D α) (x : Fin n → α) (lambda : α) :
    Res (QPData D p.M s.rows α × Errors α) :=
  if s.dim ≠ D then .error (.assertion "qp->G.rows() == problem.dimension")
  else match linCosts x p.costs (fun _ _ => 0) (fun _ => 0) 0 with
    | .error (e, _) => .error e
    | .ok (G, c, f) =>
      let G' : Fin D → Fin D → α :=
        if 0 < lambda then fun i j => if i = j then G i j + lambda else G i j else G
      match linEqs x p.eqs 0 (fun (_ : Fin s.rows) _ => 0) (fun _ => 0) 0 with
      | .error (e, _) => .error e
      | .ok (A, b, err) =>
        match shiftLoop x p.ineq with
        | .error e => .error e
        | .ok con => .ok (⟨G', c, A, b, con⟩, ⟨f, err⟩)

/-- `error_buffer_.head(r.Dimension())` followed by `ErrorVector` (`nonlinear.cc:283-284`, `nonlinear.cc:288-289`):
a head longer than the buffer is out of range. -/
def bufferedError (buffer : Nat) (r : Residual α) (x : Fin n → α) : Res (Fin r.dim → α) :=
  if buffer < r.dim then .error (.ub "error_buffer_.head(dim) longer than the buffer") else r.errorVector x r.dim

/-- The cost loop of `EvaluateNonlinearErrors` (`nonlinear.cc:282-286`). -/
def evalCostsSized (buffer : Nat) (x : Fin n → α) : List (Residual α) → α → Res α
  | [], f => .ok f
  | r :: rs, f =>
    match bufferedError buffer r x with
    | .error e => .error e
    | .ok v => evalCostsSized buffer x rs (f + Residual.half * squaredNorm v)

/-- The equality loop of `EvaluateNonlinearErrors` (`nonlinear.cc:287-291`). -/
def evalEqsSized (buffer : Nat) (x : Fin n → α) : List (Residual α) → α → Res α
  | [], f => .ok f
  | r :: rs, f =>
    match bufferedError buffer r x with
    | .error e => .error e
    | .ok v => evalEqsSized buffer x rs (f + lpNorm1 v)

/-- `EvaluateNonlinearErrors` (`nonlinear.cc:279-293`) on an object with the given sizes. -/
def evalErrorsSized (s : Sizes) (p : Problem D α) (x : Fin n → α) : Res (Errors α) :=
  match evalCostsSized s.buffer x p.costs 0 with
  | .error e => .error e
  | .ok f =>
    match evalEqsSized s.buffer x p.eqs 0 with
    | .error e => .error e
    | .ok q => .ok ⟨f, q⟩

/-- The beginning of `Solve` (`nonlinear.cc:75-101`) up to the first `LinearizeAndFillQP`; `none` means that no
iteration is made. -/
def solveStart (s : Sizes) (p : Problem D α) (prm : NLSParams α) (x : Fin n → α) :
    Res (Option (QPData D p.M s.rows α × Errors α)) :=
  match checkParams prm with
  | .error e => .error e
  | .ok _ =>
    if 0 < prm.maxIterations then
      match linearizeSized s p x prm.lambdaInitial with
      | .error e => .error e
      | .ok r => .ok (some r)
    else .ok none

end NLS
end MiniOpt
