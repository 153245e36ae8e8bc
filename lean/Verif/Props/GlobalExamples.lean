import Verif.Props.GlobalConvergence
import Verif.Props.Derivative
import Mathlib.Analysis.Calculus.Deriv.MeanValue
import Mathlib.Analysis.SpecialFunctions.Sqrt

/-!
# C96: when the hypotheses hold
-/

set_option autoImplicit false

namespace MiniOpt.Props

open MiniOpt.Spec MiniOpt.NLS Set

variable {D : Nat}

/-- The cost along a line is differentiable with derivative `costSlope` if the Jacobians are true. -/
theorem cost_line_deriv (env : Env D D ℝ) (hr : env.retraction = none) (hp : WellPosed env.p D)
    (hJ : ∀ r ∈ env.p.costs ++ env.p.eqs, ∀ q, TrueJacobian r q) (x d : Fin D → ℝ) (t : ℝ) :
    HasDerivAt (fun s => costAt env.p (fun i => x i + s * d i)) (costSlope env.p (fun i => x i + t * d i) d) t := by
  obtain ⟨hf, -⟩ := C35_default_retraction env hr hp (fun i => x i + t * d i) d fun r hr => hJ r hr _
  have h0 : HasDerivAt (fun s => costAt env.p (fun i => (x i + t * d i) + d i * s))
      (costSlope env.p (fun i => x i + t * d i) d) 0 := by
    simp only [costAt_real]
    rw [← hasDerivWithinAt_univ]
    refine hasDerivAt_list_sum env.p.costs
      (fun r s => 1 / 2 * ∑ k, valueAt r (fun i => (x i + t * d i) + d i * s) k ^ 2) _ 0 univ fun r hr => ?_
    rw [hasDerivWithinAt_univ]
    have h1 := HasDerivAt.fun_sum (u := Finset.univ)
      fun k (_ : k ∈ Finset.univ) => (hf.deriv r (by simp [hr]) k).fun_pow 2
    refine (h1.const_mul (1 / 2)).congr_deriv ?_
    rw [Finset.mul_sum]
    refine Finset.sum_congr rfl fun k _ => ?_
    simp only [mul_zero, add_zero]
    push_cast
    ring
  have h1 : HasDerivAt (fun s : ℝ => s - t) 1 t := (hasDerivAt_id t).sub_const t
  have h2 := HasDerivAt.comp t (h := fun s : ℝ => s - t)
    (h₂ := fun s => costAt env.p (fun i => (x i + t * d i) + d i * s)) (by simpa using h0) h1
  refine (h2.congr_deriv (by rw [mul_one])).congr_of_eventuallyEq (Filter.Eventually.of_forall fun s => ?_)
  show costAt env.p _ = costAt env.p _
  congr 1
  funext i
  ring

/-- **C96** (Lipschitz gradients). If the Jacobians are true and the derivative of the cost along a line from a point of `S` grows at
most at rate `L ‖d‖²` over the first unit of it - as it does if the gradient is Lipschitz with constant `L` - then the cost is smooth
on `S` with constant `L`. -/
theorem C96_lipschitz (env : Env D D ℝ) (hr : env.retraction = none) (hp : WellPosed env.p D)
    (hJ : ∀ r ∈ env.p.costs ++ env.p.eqs, ∀ q, TrueJacobian r q) (S : (Fin D → ℝ) → Prop) (L : ℝ) (hL : 0 < L)
    (hlip : ∀ x, S x → ∀ (d : Fin D → ℝ) (t : ℝ), 0 ≤ t → t ≤ 1 →
      costSlope env.p (fun i => x i + t * d i) d - costSlope env.p x d ≤ L * t * ∑ i, d i ^ 2) :
    Smooth env.p S L := by
  refine ⟨hL, fun x hx d t h0 h1 => ?_⟩
  have hg : ∀ s : ℝ, HasDerivAt (fun s => costAt env.p (fun i => x i + s * d i) - s * costSlope env.p x d
      - L / 2 * s ^ 2 * ∑ i, d i ^ 2) (costSlope env.p (fun i => x i + s * d i) d - costSlope env.p x d
      - L * s * ∑ i, d i ^ 2) s := by
    intro s
    have e1 := cost_line_deriv env hr hp hJ x d s
    have e2 : HasDerivAt (fun s : ℝ => s * costSlope env.p x d) (costSlope env.p x d) s := by
      simpa using (hasDerivAt_id s).mul_const (costSlope env.p x d)
    have e3 : HasDerivAt (fun s : ℝ => L / 2 * s ^ 2 * ∑ i, d i ^ 2) (L * s * ∑ i, d i ^ 2) s := by
      refine (((hasDerivAt_pow 2 s).const_mul (L / 2)).mul_const (∑ i, d i ^ 2)).congr_deriv ?_
      push_cast
      ring
    exact (e1.sub e2).sub e3
  have hanti : AntitoneOn (fun s => costAt env.p (fun i => x i + s * d i) - s * costSlope env.p x d
      - L / 2 * s ^ 2 * ∑ i, d i ^ 2) (Icc 0 1) := by
    refine antitoneOn_of_deriv_nonpos (convex_Icc 0 1)
      (fun s _ => (hg s).continuousAt.continuousWithinAt) (fun s _ => (hg s).differentiableAt.differentiableWithinAt) ?_
    intro s hs
    rw [interior_Icc] at hs
    rw [(hg s).deriv]
    have := hlip x hx d s hs.1.le hs.2.le
    linarith
  have := hanti (left_mem_Icc.mpr zero_le_one) ⟨h0, h1⟩ h0
  simp only [zero_mul, sub_zero, add_zero] at this
  have e : (fun i => x i + 0 * d i) = x := by funext i; ring
  norm_num at this
  linarith

/-- **C96** (damping). With a positive `min_lambda` the damped matrix is bounded below whatever the problem. -/
theorem C96_damped (p : Problem D ℝ) (S : (Fin D → ℝ) → Prop) (lam : ℝ) (h : 0 < lam) : Curved p S lam lam := by
  refine ⟨h, fun x _ d => ?_⟩
  unfold curvature
  rw [max_eq_left h.le]
  have : 0 ≤ (p.costs.map fun r => ∑ k, slopeAt r x d k ^ 2).sum := by
    refine List.sum_nonneg fun v hv => ?_
    obtain ⟨r, _, rfl⟩ := List.mem_map.mp hv
    exact Finset.sum_nonneg fun k _ => sq_nonneg _
  linarith

/-! ## A nonlinear problem with a Jacobian that vanishes at the solution -/

open MiniOpt.DemoReal

/-- `√(x₀² + 1)`. -/
noncomputable def bowl : Residual ℝ :=
  res2 (fun x _ => Real.sqrt (x ^ 2 + 1)) (fun x _ => x / Real.sqrt (x ^ 2 + 1)) fun _ _ => 0

noncomputable def bowlEnv : Env 2 2 ℝ := mkEnv ⟨[bowl, cost3], [], []⟩

theorem bowl_ok : WellPosed bowlEnv.p 2 := by
  refine mk_wellPosed _ ?_ ?_
  · intro r hr
    have hr' : r ∈ [bowl, cost3] := by simpa [bowlEnv, mkEnv] using hr
    rcases List.mem_cons.mp hr' with rfl | hr'
    · exact ⟨_, _, _, rfl⟩
    · rcases List.mem_singleton.mp hr' with rfl; exact ⟨_, _, _, rfl⟩
  · intro c hc
    have hc' : c ∈ ([] : List (Ineq ℝ)) := hc
    cases hc'

theorem bowl_costs (g : (r : Residual ℝ) → Fin r.dim → ℝ) :
    (bowlEnv.p.costs.map fun r => ∑ k, g r k).sum = g bowl (0 : Fin 1) + g cost3 (0 : Fin 1) := by
  have e (u v : Fin 1 → ℝ) : (∑ k, u k) + ((∑ k, v k) + 0) = u 0 + v 0 := by simp
  exact e (g bowl) (g cost3)

theorem bowl_costs' (g : (r : Residual ℝ) → Fin r.dim → ℝ) :
    (bowlEnv.p.costs.map fun r => (1 / 2) * ∑ k, g r k).sum = (1 / 2) * g bowl (0 : Fin 1) + (1 / 2) * g cost3 (0 : Fin 1) := by
  have e (u v : Fin 1 → ℝ) : (1 / 2) * (∑ k, u k) + ((1 / 2) * (∑ k, v k) + 0) = (1 / 2) * u 0 + (1 / 2) * v 0 := by simp
  exact e (g bowl) (g cost3)

theorem bowl_cost (x : Fin 2 → ℝ) : costAt bowlEnv.p x = (1 / 2) * (x 0 ^ 2 + 1) + (1 / 2) * (x 1 - 1) ^ 2 := by
  rw [costAt_real, bowl_costs' fun r k => valueAt r x k ^ 2]
  unfold bowl cost3
  rw [res2_value, res2_value, Real.sq_sqrt (by positivity)]

theorem bowl_slope (x dx : Fin 2 → ℝ) (k : Fin 1) : slopeAt bowl x dx k = x 0 / Real.sqrt (x 0 ^ 2 + 1) * dx 0 := by
  have : slopeAt bowl x dx k = ∑ j : Fin 2, jacAt bowl x 2 k j * dx j := rfl
  rw [this]
  unfold bowl
  rw [Fin.sum_univ_two, res2_jac, res2_jac]
  simp

theorem bowl_costSlope (x d : Fin 2 → ℝ) : costSlope bowlEnv.p x d = x 0 * d 0 + (x 1 - 1) * d 1 := by
  unfold costSlope
  rw [bowl_costs fun r k => valueAt r x k * slopeAt r x d k]
  have h1 : valueAt bowl x (0 : Fin 1) = Real.sqrt (x 0 ^ 2 + 1) := by unfold bowl; rw [res2_value]
  have h2 : valueAt cost3 x (0 : Fin 1) = x 1 - 1 := by unfold cost3; rw [res2_value]
  have hpos : 0 < Real.sqrt (x 0 ^ 2 + 1) := Real.sqrt_pos.mpr (by positivity)
  have key : valueAt bowl x (0 : Fin 1) * slopeAt bowl x d (0 : Fin 1) + valueAt cost3 x (0 : Fin 1) * slopeAt cost3 x d (0 : Fin 1)
      = x 0 * d 0 + (x 1 - 1) * d 1 := by
    rw [h1, h2, bowl_slope, cost3_slope]
    field_simp
  exact key

/-- The cost of the demonstration is smooth with constant 1. -/
theorem bowl_smooth (S : (Fin 2 → ℝ) → Prop) : Smooth bowlEnv.p S 1 := by
  refine ⟨one_pos, fun x _ d t _ _ => ?_⟩
  rw [bowl_cost, bowl_cost, bowl_costSlope, Fin.sum_univ_two]
  apply le_of_eq
  ring

/-- Levenberg-Marquardt throughout. -/
noncomputable def dampedPrm : NLSParams ℝ := { NLSParams.default with minLambda := 1 / 2, lambdaInitial := 1 / 2, maxLambda := 10 }

theorem dampedPrm_valid : NLSParamsValid dampedPrm := by
  constructor <;> simp only [dampedPrm, NLSParams.default, real_lit] <;> norm_num

/-- All of C96 applies: from the start `(2, 5)` the solver accepts every step but perhaps the last and does not run into
`MAX_LAMBDA`. -/
example : ∃ (o' : bowlEnv.Obj) (out : NLSOutputs ℝ) (calls : List (NLSIteration ℝ)),
    solve bowlEnv dampedPrm (fun i => if i = 0 then 2 else 5) (mkObj _) = .ok (o', out, calls) ∧ out.iterations ≠ [] ∧
    out.termination ≠ .maxLambda ∧
    ∀ it ∈ out.iterations, it.stepResult = .success ∨ it.stepResult = .firstOrderSatisfied := by
  obtain ⟨o', out, calls, h, hne⟩ := ip_run _ bowl_ok (by simp [bowlEnv, mkEnv]) (fun c hc => by cases hc)
    dampedPrm dampedPrm_valid (by simp [dampedPrm, NLSParams.default]) (by simp [dampedPrm, NLSParams.default])
    (fun i => if i = 0 then 2 else 5)
  have hcv : Curved bowlEnv.p (Below bowlEnv.p (fun i => if i = 0 then 2 else 5)) dampedPrm.minLambda (1 / 2) :=
    C96_damped _ _ _ (by norm_num : (0 : ℝ) < 1 / 2)
  have ht : 0 < dampedPrm.absoluteFirstDerivativeTol := by
    simp only [dampedPrm, NLSParams.default, real_lit]; norm_num
  refine ⟨o', out, calls, h, hne, ?_, ?_⟩
  · exact (C96_no_max_lambda bowlEnv exactEigen_contract rfl bowl_ok rfl rfl _ _ _ o' out calls h 1 (1 / 2)
      (bowl_smooth _) hcv ht (by simp only [dampedPrm, NLSParams.default, real_lit]; norm_num)).1
  · obtain ⟨S, hS⟩ := exists_nat_gt (10 ^ 4 * costAt bowlEnv.p (fun i : Fin 2 => if i = 0 then 2 else 5)
      / (shortestStep dampedPrm 1 (1 / 2) * dampedPrm.absoluteFirstDerivativeTol))
    have hpos : 0 < shortestStep dampedPrm 1 (1 / 2) :=
      shortestStep_pos one_pos (by norm_num) dampedPrm_valid.armijoSearchTau.1
    rw [div_lt_iff₀ (mul_pos hpos ht)] at hS
    exact ((C96_iteration_bound bowlEnv exactEigen_contract rfl bowl_ok rfl rfl _ _ _ o' out calls h 1 (1 / 2)
      (bowl_smooth _) hcv ht S hS).2 (by
        simp only [stepRatio, safeStep, dampedPrm, NLSParams.default]
        show (51 / 100 : ℝ) ^ 2 ≤ _
        norm_num)).2.1

end MiniOpt.Props
