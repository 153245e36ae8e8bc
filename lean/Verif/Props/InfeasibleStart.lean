import Verif.Props.QPInfeasible
import Verif.Props.QuadraticConvergence

/-!
# C91: bounds are not enforced from a start that violates them

The bounds enter the nonlinear solver only through the QP that gives the direction.  Neither the line search nor the exit
tests look at them.
-/

set_option autoImplicit false

namespace MiniOpt.Props

open MiniOpt.Spec MiniOpt.NLS

variable {n D : Nat}

/-- The gradient of the sum of the costs is zero at `x`. -/
def ZeroGradient (p : Problem D ℝ) (x : Fin n → ℝ) : Prop :=
  ∀ dx : Fin D → ℝ, (p.costs.map fun r => ∑ k, valueAt r x k * slopeAt r x dx k).sum = 0

/-- All costs zero is the simplest case of a zero gradient. -/
theorem zeroGradient_of_zero {p : Problem D ℝ} {x : Fin n → ℝ} (h : ∀ r ∈ p.costs, ∀ k, valueAt r x k = 0) :
    ZeroGradient p x := by
  intro dx
  rw [List.map_congr_left (g := fun _ => (0 : ℝ)) fun r hr => Finset.sum_eq_zero fun k _ => by rw [h r hr k, zero_mul]]
  simp

theorem legal_search {α : Type} [Scalar α] {prm : NLSParams α} {set : Setting} {k : Nat} {c : Control α}
    {log : List (NLSIteration α)} {t : NLSTermination} (h : LegalLog prm set k c log t) :
    ∀ it ∈ log, SearchOk prm it := by
  induction h with
  | limit | indefinite => intro it hm; cases hm
  | stop k c c' it t hk hit hst => intro it' hm; rcases List.mem_singleton.mp hm with rfl; exact hit.search
  | user k c c' it hk hit hn _ => intro it' hm; rcases List.mem_singleton.mp hm with rfl; exact hit.search
  | next k c c' it rest t hk hit hn _ ih =>
    intro it' hm
    rcases List.mem_cons.mp hm with rfl | hm
    · exact hit.search
    · exact ih it' hm

/-- The first iteration whose slope is small is the last one. -/
theorem small_slope_stops {prm : NLSParams ℝ} {set : Setting} {c : Control ℝ} {log : List (NLSIteration ℝ)}
    {t : NLSTermination} (h : LegalLog prm set 0 c log t) (k : Nat) (it : NLSIteration ℝ) (hit : log[k]? = some it)
    (hs : SmallSlope prm it) : it.stepResult = .firstOrderSatisfied ∧ k + 1 = log.length ∧ t = .satisfiedFirstOrderTol := by
  have hok := legal_search h it (List.mem_of_getElem? hit)
  have hne : it.lineSearchSteps ≠ [] := List.length_pos_iff.mp hok.count.1
  have ho := hok.outcome _ (List.getLast?_eq_some_getLast hne)
  have hres : it.stepResult = .firstOrderSatisfied := by
    cases hr : it.stepResult with
    | firstOrderSatisfied => rfl
    | success => rw [hr] at ho; exact absurd hs ho.2.1
    | positiveDerivative => rw [hr] at ho; exact absurd hs ho.2.1
    | failureNonFiniteCost =>
      rw [hr] at ho
      exact absurd ho (by simp [Errors.containsInvalid])
    | maxIterations => rw [hr] at ho; exact absurd hs ho.1.notSmall
    | failureInvalidAlpha => rw [hr] at ho; exact absurd hs ho.1.notSmall
  exact ⟨hres, legal_stops h k it .satisfiedFirstOrderTol hit fun _ => hres⟩

/-- **C91**. Without equality constraints, if the gradient of the cost is zero at the start, `Solve` (if it returns) stops in
its first iteration with `SATISFIED_FIRST_ORDER_TOL` and returns the start unchanged, *whatever the bounds are*. -/
theorem C91_stationary_start (env : Env n D ℝ) (hp : WellPosed env.p n) (he : env.p.eqs = []) (prm : NLSParams ℝ)
    (x0 : Fin n → ℝ) (o o' : env.Obj) (out : NLSOutputs ℝ) (calls : List (NLSIteration ℝ))
    (h : solve env prm x0 o = .ok (o', out, calls)) (hk : 1 ≤ prm.maxIterations) (htol : 0 < prm.absoluteFirstDerivativeTol)
    (hz : ZeroGradient env.p x0) :
    out.termination = .satisfiedFirstOrderTol ∧ out.iterations.length = 1 ∧ o'.vars = x0 := by
  have hleg := C87_solve env prm x0 o o' out calls h
  obtain ⟨hex, hfirst, hlast⟩ := C38_after env prm x0 o o' out calls h
  have hne : out.iterations ≠ [] := by
    refine DemoReal.run_nonempty hk h fun hq => ?_
    have := C46_termination env prm x0 o o' out calls h
    rw [hq] at this
    exact this.2.2.1 he
  obtain ⟨it, hit⟩ : ∃ it, out.iterations[0]? = some it := by
    cases hl : out.iterations with
    | nil => exact absurd hl hne
    | cons it rest => exact ⟨it, rfl⟩
  have hpos := List.length_pos_iff.mpr hne
  obtain ⟨a, ha, -⟩ := hex 0 (by omega)
  obtain ⟨b, hb, -⟩ := hex 1 (by omega)
  obtain ⟨h1, h2, -⟩ := C38_direction env prm x0 o o' out calls h 0 it hit a b ha hb
  rw [hfirst a ha] at h1
  obtain ⟨-, f2, -, f4, -⟩ := linearize_facts hp h1
  have hK : env.p.K = 0 := by unfold Problem.K; rw [he]; rfl
  have hslope : SmallSlope prm it := by
    unfold SmallSlope
    obtain ⟨d1, d2⟩ := costDerivative_real b.qp b.dx
    rw [f2, hz] at d1
    have : (costDerivative b.qp b.dx).dEquality = 0 := by
      rw [d2]
      exact Finset.sum_eq_zero fun k _ => absurd k.2 (by omega)
    rw [h2]
    unfold DirectionalDerivatives.lInfinity
    rw [d1, this]
    simpa [cmax] using htol
  obtain ⟨hr, hl, ht⟩ := small_slope_stops hleg 0 it hit hslope
  refine ⟨ht, by omega, ?_⟩
  have hb' : b.vars = a.vars := (C38_variables_move env prm x0 o o' out calls h 0 it hit a b ha hb).2 (by rw [hr]; simp)
  rw [← hfirst a ha, ← hb']
  exact (hlast b (by rw [← hl]; exact hb)).symm

/-- **C91**. Without equality constraints, if every point that satisfies the bounds costs more than the start, the point
`Solve` leaves violates a bound, whatever it reports and even if it throws nothing. -/
theorem C91_never_feasible (env : Env n D ℝ) (hc : ConsistentP env.p) (he : env.p.eqs = []) (prm : NLSParams ℝ)
    (x0 : Fin n → ℝ) (o o' : env.Obj) (out : NLSOutputs ℝ) (calls : List (NLSIteration ℝ))
    (h : solve env prm x0 o = .ok (o', out, calls))
    (hcost : ∀ x : Fin n → ℝ, (∀ c ∈ env.p.ineq, 0 ≤ boundAt c x) → costAt env.p x0 < costAt env.p x) :
    ∃ c ∈ env.p.ineq, boundAt c o'.vars < 0 := by
  by_contra hcon
  push Not at hcon
  have := (C37_cost_never_increases env hc he prm x0 o o' out calls h).1
  exact absurd (hcost _ hcon) (not_lt.mpr this)

/-! ## A run -/

open MiniOpt.DemoReal

/-- Minimise `½(x₀ - 3)²` subject to `x₀ ≥ 5`. -/
noncomputable def pushEnv : Env 2 2 ℝ := mkEnv ⟨[cost1], [⟨0, 1, -5⟩], []⟩

theorem push_ok : WellPosed pushEnv.p 2 := by
  refine mk_wellPosed _ ?_ ?_
  · intro r hr
    have hr' : r ∈ [cost1] := by simpa [pushEnv, mkEnv] using hr
    rcases List.mem_singleton.mp hr' with rfl
    exact ⟨_, _, _, rfl⟩
  · intro c hc
    have hc' : c ∈ [(⟨0, 1, -5⟩ : Ineq ℝ)] := hc
    rcases List.mem_singleton.mp hc' with rfl
    norm_num

theorem push_run (x0 : Fin 2 → ℝ) :
    ∃ o' out calls, solve pushEnv dp x0 (mkObj _) = .ok (o', out, calls) ∧ out.iterations ≠ [] := by
  refine ip_run _ push_ok (by simp [pushEnv, mkEnv]) ?_ dp nls_default_valid dp_penalty dp_iterations x0
  intro c hc
  have hc' : c ∈ [(⟨0, 1, -5⟩ : Ineq ℝ)] := hc
  rcases List.mem_singleton.mp hc' with rfl
  norm_num

theorem push_value (x : Fin 2 → ℝ) (k) : valueAt cost1 x k = x 0 - 3 := by
  unfold cost1
  exact res2_value _ _ _ _ _

/-- Started from `x₀ = 3`, `Solve` returns and reports `SATISFIED_FIRST_ORDER_TOL` at `x₀ = 3`, although the bound asks for
`x₀ ≥ 5`. -/
example : ∃ o' out calls, solve pushEnv dp ![3, 0] (mkObj _) = .ok (o', out, calls) ∧
    out.termination = .satisfiedFirstOrderTol ∧ o'.vars 0 = 3 ∧
    ∃ c ∈ pushEnv.p.ineq, boundAt c o'.vars < 0 := by
  obtain ⟨o', out, calls, h, -⟩ := push_run ![3, 0]
  have hz : ZeroGradient pushEnv.p (![3, 0] : Fin 2 → ℝ) := by
    refine zeroGradient_of_zero fun r hr k => ?_
    have hr' : r ∈ [cost1] := by simpa [pushEnv, mkEnv] using hr
    rcases List.mem_singleton.mp hr' with rfl
    rw [push_value]
    simp
  obtain ⟨h1, -, h3⟩ := C91_stationary_start pushEnv push_ok rfl dp ![3, 0] (mkObj _) o' out calls h dp_iterations
    (by simp only [dp, NLSParams.default, real_lit]; norm_num) hz
  refine ⟨o', out, calls, h, h1, by rw [h3]; rfl, ?_⟩
  refine C91_never_feasible pushEnv push_ok.consistent rfl dp ![3, 0] (mkObj _) o' out calls h fun x hx => ?_
  have e : ∀ y : Fin 2 → ℝ, costAt pushEnv.p y = (1 / 2) * (y 0 - 3) ^ 2 := by
    intro y
    rw [costAt_real]
    show ([cost1].map fun r => (1 / 2) * ∑ k, valueAt r y k ^ 2).sum = _
    have hs : ∑ k : Fin 1, valueAt cost1 y k ^ 2 = (y 0 - 3) ^ 2 := by
      rw [Fin.sum_univ_one]
      exact congrArg (fun v : ℝ => v ^ 2) (push_value y (0 : Fin 1))
    simp only [List.map_cons, List.map_nil, List.sum_cons, List.sum_nil, add_zero]
    exact congrArg (fun v : ℝ => 1 / 2 * v) hs
  have hb := hx ⟨0, 1, -5⟩ (by simp [pushEnv, mkEnv])
  have hb' : boundAt (⟨0, 1, -5⟩ : Ineq ℝ) x = 1 * x 0 + -5 := by
    unfold boundAt
    rw [dif_pos (by norm_num)]
    rfl
  rw [hb'] at hb
  rw [e, e]
  have : (![3, 0] : Fin 2 → ℝ) 0 = 3 := rfl
  rw [this]
  nlinarith

end MiniOpt.Props
