import Verif.Model.Nonlinear

/-!
# A small computable arithmetic for examples

Rational numbers with an artificial largest finite value, so that concrete runs of the nonlinear solver can be
evaluated by the kernel.  Used only in `example`s, to show that hypotheses of theorems about *any* arithmetic are
met by actual runs.
-/

set_option autoImplicit false

namespace MiniOpt.DemoNLS

open MiniOpt MiniOpt.NLS

/-- Rationals as a `Scalar`. -/
structure Rt where
  v : ℚ
  deriving DecidableEq

/-- Operations of the example arithmetic: numbers of absolute value above 1000 are "not finite"; `sqrt` is a
placeholder (identity). -/
instance : Scalar Rt where
  zero := ⟨0⟩
  one := ⟨1⟩
  add a b := ⟨a.v + b.v⟩
  sub a b := ⟨a.v - b.v⟩
  mul a b := ⟨a.v * b.v⟩
  div a b := ⟨a.v / b.v⟩
  neg a := ⟨-a.v⟩
  lt a b := a.v < b.v
  le a b := a.v ≤ b.v
  decLT a b := inferInstanceAs (Decidable (a.v < b.v))
  decLE a b := inferInstanceAs (Decidable (a.v ≤ b.v))
  feq a b := a.v = b.v
  decFeq a b := inferInstanceAs (Decidable (a.v = b.v))
  isFinite a := -1000 ≤ a.v ∧ a.v ≤ 1000
  decFinite a := inferInstanceAs (Decidable (-1000 ≤ a.v ∧ a.v ≤ 1000))
  abs a := ⟨if a.v < 0 then -a.v else a.v⟩
  sqrt a := a
  cube a := ⟨a.v * a.v * a.v⟩
  lit q := ⟨q⟩
  sum l := ⟨(l.map (·.v)).sum⟩

/-- A scalar residual of variable 0 with given value and derivative. -/
def res1 (f df : ℚ → ℚ) : Residual Rt where
  dim := 1
  P := 1
  index _ := 0
  value p _ := ⟨f (p 0).v⟩
  valueJ p _ := ⟨f (p 0).v⟩
  jac p _ _ := ⟨df (p 0).v⟩

def zero1 : IPState 1 0 0 Rt :=
  ⟨.zero, .zero, fun _ => 0, fun _ _ => 0, fun _ _ => 0, .zero, .zero⟩

/-- One variable, one cost, no constraints. -/
def env1 (r : Residual Rt) (cb : Option (List (NLSIteration Rt) → Bool)) : Env 1 1 Rt where
  p := ⟨[r], [], []⟩
  retraction := none
  callback := cb
  E := ⟨fun H => if (H (.inl 0) (.inl 0)).v = 0 then none else some fun _ _ => ⟨1 / (H (.inl 0) (.inl 0)).v⟩⟩
  NE := ⟨fun _ => ⟨fun _ _ => 0, fun _ _ => 0, id, 0⟩, fun _ v => v, fun _ => none⟩
  eigenvalues := fun G i => G i i
  freshIP := zero1
  freshNS := ⟨fun _ => 0⟩

def obj1 (r : Residual Rt) (cb : Option (List (NLSIteration Rt) → Bool)) : (env1 r cb).Obj :=
  ⟨⟨fun _ _ => 0, fun _ => 0, fun _ _ => 0, fun _ => 0, Fin.elim0⟩, .ip zero1, fun _ => 0, fun _ => 0, fun _ => 0, [],
    .nominal⟩

/-- What a run returns: termination, step results, and the final variable. -/
def summary (r : Residual Rt) (cb : Option (List (NLSIteration Rt) → Bool)) (prm : NLSParams Rt) (x0 : ℚ) :
    Option (NLSTermination × List StepResult × List (List ℚ) × ℚ) :=
  match solve (env1 r cb) prm (fun _ => ⟨x0⟩) (obj1 r cb) with
  | .ok (o, out, _) => some (out.termination, out.iterations.map (·.stepResult),
      out.iterations.map fun it => it.lineSearchSteps.map (·.alpha.v), (o.vars 0).v)
  | .error _ => none

/-- A run and its summary. -/
theorem summary_run {r : Residual Rt} {cb : Option (List (NLSIteration Rt) → Bool)} {prm : NLSParams Rt} {x0 : ℚ}
    {t : NLSTermination} {rs : List StepResult} {al : List (List ℚ)} {x : ℚ}
    (h : summary r cb prm x0 = some (t, rs, al, x)) :
    ∃ o' out calls, solve (env1 r cb) prm (fun _ => ⟨x0⟩) (obj1 r cb) = .ok (o', out, calls) ∧
      out.termination = t ∧ out.iterations.map (·.stepResult) = rs ∧
      (out.iterations.map fun it => it.lineSearchSteps.map (·.alpha.v)) = al ∧ (o'.vars 0).v = x := by
  unfold summary at h
  split at h
  · rename_i o out calls hs
    simp only [Option.some.injEq, Prod.mk.injEq] at h
    exact ⟨o, out, calls, hs, h⟩
  · cases h

/-- The same from a partial view of the summary. -/
theorem summary_run' {r : Residual Rt} {cb : Option (List (NLSIteration Rt) → Bool)} {prm : NLSParams Rt} {x0 : ℚ}
    {t : NLSTermination} {rs : List StepResult}
    (h : (summary r cb prm x0).map (fun s => (s.1, s.2.1)) = some (t, rs)) :
    ∃ o' out calls, solve (env1 r cb) prm (fun _ => ⟨x0⟩) (obj1 r cb) = .ok (o', out, calls) ∧
      out.termination = t ∧ out.iterations.map (·.stepResult) = rs := by
  obtain ⟨⟨t', rs', al, x⟩, hs, he⟩ := Option.map_eq_some_iff.mp h
  obtain ⟨o', out, calls, h1, h2, h3, _⟩ := summary_run hs
  simp only [Prod.mk.injEq] at he
  exact ⟨o', out, calls, h1, by rw [h2, he.1], by rw [h3, he.2]⟩

/-- Default parameters with a given iteration limit. -/
def prm (k : Int) : NLSParams Rt := { (NLSParams.default : NLSParams Rt) with maxIterations := k }

/-- `x² - 2` from 5: four accepted steps, then a small derivative. -/
def sqrt2 : Residual Rt := res1 (fun x => x * x - 2) fun x => 2 * x

/-- `x³ - 2x + 2` with derivative; from 1/10 it leaves the finite range. -/
def cubic : Residual Rt := res1 (fun x => x * x * x - 2 * x + 2) fun x => 3 * x * x - 2

/-- `x - 3` with a Jacobian of the wrong sign: every step goes uphill. -/
def wrongSign : Residual Rt := res1 (fun x => x - 3) fun _ => -1

theorem run_sqrt2 : (summary sqrt2 none (prm 10) 5).map (fun s => (s.1, s.2.1)) =
    some (.satisfiedFirstOrderTol, [.success, .success, .success, .success, .firstOrderSatisfied]) := by
  decide +kernel

theorem run_cubic : (summary cubic none (prm 4) (1 / 10)).map (fun s => (s.1, s.2.1)) =
    some (.maxIterations, [.success, .success, .failureNonFiniteCost, .failureNonFiniteCost]) := by decide +kernel

theorem run_callback : (summary sqrt2 (some fun l => l.length < 2) (prm 10) 5).map (fun s => (s.1, s.2.1)) =
    some (.userCallback, [.success, .success]) := by decide +kernel

/-- With polynomial interpolation the cubic through the data of an exactly quadratic merit function has leading
coefficient 0: the search stops with an invalid `alpha` and the solver stalls. -/
theorem run_stall : summary wrongSign none (prm 3) 5 =
    some (.maxIterations, [.failureInvalidAlpha, .failureInvalidAlpha, .failureInvalidAlpha],
      [[1, 1 / 5], [1, 1 / 5], [1, 1 / 5]], 5) := by decide +kernel

/-- With backtracking the damping grows until it exceeds its limit. -/
theorem run_maxLambda : summary wrongSign none { prm 10 with lineSearchStrategy := .armijoBacktrack } 5 =
    some (.maxLambda, [.maxIterations, .maxIterations, .maxIterations, .maxIterations],
      [[1, 4 / 5, 16 / 25], [1, 4 / 5, 16 / 25], [1, 4 / 5, 16 / 25], [1, 4 / 5, 16 / 25]], 5) := by decide +kernel

end MiniOpt.DemoNLS
