import Verif.Model.Serialization

/-!
# Logs with a member removed

The places in the JSON of a log where an object stands, and what it means to remove a member there.
-/

set_option autoImplicit false

namespace MiniOpt.Spec

open MiniOpt MiniOpt.Cpp MiniOpt.Ser

variable {α : Type}

/-- A JSON object without the member `k`. -/
def without (k : String) : Json α → Json α
  | .obj l => .obj (l.filter fun q => q.1 ≠ k)
  | j => j

/-- Change the member `k` of an object. -/
def changeMember (k : String) (f : Json α → Json α) : Json α → Json α
  | .obj l => .obj (l.map fun q => if q.1 = k then (q.1, f q.2) else q)
  | j => j

/-- Change entry `n` of an array. -/
def changeEntry (n : Nat) (f : Json α → Json α) : Json α → Json α
  | .arr l => .arr (l.modify n f)
  | j => j

/-- Change what stands at the end of a path of member names and array positions. -/
def changeAt : List (String ⊕ Nat) → (Json α → Json α) → Json α → Json α
  | [], f => f
  | .inl k :: p, f => changeMember k (changeAt p f)
  | .inr n :: p, f => changeEntry n (changeAt p f)

/-- The objects in the JSON of a log: the log itself, its iterations (`i`), and in an iteration the errors, eigenvalues,
derivatives, line-search steps (`j`) with their errors, and the outputs of the interior point solver with their
iterations (`j`), KKT errors, step lengths and multipliers. -/
inductive Site where
  | log
  | iteration (i : Nat)
  | errors (i : Nat)
  | eigenvalues (i : Nat)
  | derivatives (i : Nat)
  | step (i j : Nat)
  | stepErrors (i j : Nat)
  | qp (i : Nat)
  | multipliers (i : Nat)
  | qpIteration (i j : Nat)
  | kktInitial (i j : Nat)
  | kktFinal (i j : Nat)
  | ip (i j : Nat)
  | alpha (i j : Nat)
  | alphaProbe (i j : Nat)

/-- Where it stands. -/
def Site.path : Site → List (String ⊕ Nat)
  | .log => []
  | .iteration i => [.inl "iterations", .inr i]
  | .errors i => [.inl "iterations", .inr i, .inl "errors_initial"]
  | .eigenvalues i => [.inl "iterations", .inr i, .inl "qp_eigenvalues"]
  | .derivatives i => [.inl "iterations", .inr i, .inl "directional_derivatives"]
  | .step i j => [.inl "iterations", .inr i, .inl "line_search_steps", .inr j]
  | .stepErrors i j => [.inl "iterations", .inr i, .inl "line_search_steps", .inr j, .inl "errors"]
  | .qp i => [.inl "iterations", .inr i, .inl "qp_outputs"]
  | .multipliers i => [.inl "iterations", .inr i, .inl "qp_outputs", .inl "lagrange_multipliers"]
  | .qpIteration i j => [.inl "iterations", .inr i, .inl "qp_outputs", .inl "iterations", .inr j]
  | .kktInitial i j =>
    [.inl "iterations", .inr i, .inl "qp_outputs", .inl "iterations", .inr j, .inl "kkt_initial"]
  | .kktFinal i j => [.inl "iterations", .inr i, .inl "qp_outputs", .inl "iterations", .inr j, .inl "kkt_final"]
  | .ip i j => [.inl "iterations", .inr i, .inl "qp_outputs", .inl "iterations", .inr j, .inl "ip_outputs"]
  | .alpha i j =>
    [.inl "iterations", .inr i, .inl "qp_outputs", .inl "iterations", .inr j, .inl "ip_outputs", .inl "alpha"]
  | .alphaProbe i j =>
    [.inl "iterations", .inr i, .inl "qp_outputs", .inl "iterations", .inr j, .inl "ip_outputs", .inl "alpha_probe"]

/-- Its members. -/
def Site.members : Site → List String
  | .log => ["termination_state", "iterations"]
  | .iteration _ => ["iteration", "optimizer_state", "lambda", "errors_initial", "qp_outputs", "qp_eigenvalues",
      "directional_derivatives", "penalty", "step_result", "line_search_steps"]
  | .errors _ => ["f", "equality"]
  | .eigenvalues _ => ["min", "max", "abs_min"]
  | .derivatives _ => ["d_f", "d_equality"]
  | .step _ _ => ["alpha", "errors"]
  | .stepErrors _ _ => ["f", "equality"]
  | .qp _ => ["termination_state", "iterations", "lagrange_multipliers"]
  | .multipliers _ => ["min", "l_infinity"]
  | .qpIteration _ _ => ["kkt_initial", "kkt_final", "ip_outputs"]
  | .kktInitial _ _ => ["r_dual", "r_comp", "r_primal_eq", "r_primal_ineq"]
  | .kktFinal _ _ => ["r_dual", "r_comp", "r_primal_eq", "r_primal_ineq"]
  | .ip _ _ => ["mu", "alpha", "alpha_probe", "mu_affine"]
  | .alpha _ _ => ["primal", "dual"]
  | .alphaProbe _ _ => ["primal", "dual"]

/-- The log has such an object. -/
def Site.In (o : Outputs α) : Site → Prop
  | .log => True
  | .iteration i | .errors i | .derivatives i => i < o.iterations.length
  | .eigenvalues i => ∃ it e, o.iterations[i]? = some it ∧ it.qpEigenvalues = some e
  | .step i j | .stepErrors i j => ∃ it, o.iterations[i]? = some it ∧ j < it.lineSearchSteps.length
  | .qp i => ∃ it q, o.iterations[i]? = some it ∧ it.qpOutputs = .interiorPoint q
  | .multipliers i => ∃ it q l, o.iterations[i]? = some it ∧ it.qpOutputs = .interiorPoint q ∧ q.lagrange = some l
  | .qpIteration i j | .kktInitial i j | .kktFinal i j | .ip i j | .alpha i j | .alphaProbe i j =>
    ∃ it q, o.iterations[i]? = some it ∧ it.qpOutputs = .interiorPoint q ∧ j < q.iterations.length

/-- What reading does when a member is missing: undefined behaviour in the log itself and in its iterations, an
exception in the structures below, except that the outputs of the interior point solver without their state or
iterations are taken for a success of the null-space solver. -/
def missingOutcome (o : Outputs α) (s : Site) (k : String) : Except JErr (Outputs α) :=
  match s with
  | .log => .error .ub
  | .iteration _ => .error .ub
  | .qp i =>
    if k = "lagrange_multipliers" then .error .outOfRange
    else .ok { o with iterations := o.iterations.modify i fun it => { it with qpOutputs := .nullSpace .success } }
  | _ => .error .outOfRange

end MiniOpt.Spec
