import Verif.Props.EqualityConvergence
import Verif.Props.EqualityLipschitz
import Verif.Props.NLSExamples
import Verif.Props.PenaltyExamples

/-!
# C125 on the parabola
-/

set_option autoImplicit false

namespace MiniOpt.Props

open MiniOpt.Spec MiniOpt.NLS MiniOpt.DemoReal

theorem arc_costSlope (K : ℝ) (x d : Fin 2 → ℝ) : costSlope (arcEnv K).p x d = x 0 * d 0 + x 1 * d 1 := by
  have : costSlope (arcEnv K).p x d = (∑ k : Fin 1, valueAt arcX x k * slopeAt arcX x d k)
      + ((∑ k : Fin 1, valueAt arcY x k * slopeAt arcY x d k) + 0) := rfl
  rw [this, Fin.sum_univ_one, Fin.sum_univ_one, add_zero, arcX_value, arcY_value, arcX_slope, arcY_slope]

theorem arc_smooth (K : ℝ) (S : (Fin 2 → ℝ) → Prop) : Smooth (arcEnv K).p S 1 := by
  refine ⟨one_pos, fun x _ d t _ _ => ?_⟩
  rw [arc_cost, arc_cost, arc_costSlope, Fin.sum_univ_two]
  unfold distSq
  apply le_of_eq
  ring

theorem arcEq_slope (K : ℝ) (x d : Fin 2 → ℝ) (k : Fin 1) : slopeAt (arcEq K) x d k = K * (d 0 + 2 * x 1 * d 1) := by
  have h := arcEq_lin K x d k
  have e : linAt (arcEq K) x d k = valueAt (arcEq K) x k + slopeAt (arcEq K) x d k := rfl
  rw [e, arcEq_value] at h
  linarith

theorem arc_smoothEqs (K : ℝ) (hK : 0 < K) (S : (Fin 2 → ℝ) → Prop) : SmoothEqs (arcEnv K).p S (2 * K) := by
  refine ⟨by linarith, fun x _ d t _ _ => ?_⟩
  have : ((arcEnv K).p.eqs.map fun r => ∑ k, |valueAt r (fun i => x i + t * d i) k - (valueAt r x k + t * slopeAt r x d k)|).sum
      = (∑ k : Fin 1, |valueAt (arcEq K) (fun i => x i + t * d i) k - (valueAt (arcEq K) x k + t * slopeAt (arcEq K) x d k)|) + 0 := rfl
  rw [this, Fin.sum_univ_one, arcEq_value, arcEq_value, arcEq_slope, add_zero, Fin.sum_univ_two]
  have e : K * (x 0 + t * d 0 + (x 1 + t * d 1) ^ 2) - (K * (x 0 + x 1 ^ 2) + t * (K * (d 0 + 2 * x 1 * d 1)))
      = K * (t * d 1) ^ 2 := by ring
  rw [e, abs_of_nonneg (by positivity)]
  have : 0 ≤ K * (t * d 0) ^ 2 := by positivity
  linarith

theorem arc_true (K : ℝ) : ∀ r ∈ (arcEnv K).p.costs ++ (arcEnv K).p.eqs, ∀ q, TrueJacobian r q := by
  intro r hr q
  have h0 (q : Fin 2 → ℝ) := hasFDerivAt_apply (𝕜 := ℝ) (F' := fun _ : Fin 2 => ℝ) 0 q
  have h1 (q : Fin 2 → ℝ) := hasFDerivAt_apply (𝕜 := ℝ) (F' := fun _ : Fin 2 => ℝ) 1 q
  have hr' : r ∈ [arcX, arcY, arcEq K] := by simpa [arcEnv, mkEnv] using hr
  rcases List.mem_cons.mp hr' with rfl | hr'
  · refine res2_true q ((h0 q).congr_fderiv ?_)
    ext; simp
  · rcases List.mem_cons.mp hr' with rfl | hr'
    · refine res2_true q ((h1 q).congr_fderiv ?_)
      ext; simp
    · rcases List.mem_singleton.mp hr' with rfl
      refine res2_true q ((((h0 q).add ((h1 q).pow 2)).const_mul K).congr_fderiv ?_)
      ext; simp; try ring

/-- C125 (Lipschitz Jacobians) on the parabola: the same constant again, from the Jacobian alone. -/
example (K : ℝ) (hK : 0 < K) (S : (Fin 2 → ℝ) → Prop) : SmoothEqs (arcEnv K).p S (2 * K) := by
  have h := C125_lipschitz (arcEnv K) rfl (arc_ok K) (arc_true K) S (fun _ _ => 2 * K) (fun _ _ => by linarith) (by
    intro r hr k x _ d t h0 h1
    rcases List.mem_singleton.mp (show r ∈ [arcEq K] from hr) with rfl
    have s1 : slopeAt (arcEq K) (fun i => x i + t * d i) d k = K * (d 0 + 2 * (x 1 + t * d 1) * d 1) := arcEq_slope K _ d k
    have s2 : slopeAt (arcEq K) x d k = K * (d 0 + 2 * x 1 * d 1) := arcEq_slope K x d k
    rw [s1, s2, Fin.sum_univ_two]
    have e : K * (d 0 + 2 * (x 1 + t * d 1) * d 1) - K * (d 0 + 2 * x 1 * d 1) = 2 * K * t * d 1 ^ 2 := by ring
    rw [e, abs_of_nonneg (by positivity)]
    have : 0 ≤ 2 * K * t * d 0 ^ 2 := by positivity
    linarith)
  have e : ((arcEnv K).p.eqs.map fun r => ∑ _k : Fin r.dim, 2 * K).sum = (∑ _k : Fin 1, 2 * K) + 0 := rfl
  rw [e, Fin.sum_univ_one, add_zero] at h
  exact h

theorem arc_curved (K : ℝ) (S : (Fin 2 → ℝ) → Prop) (lam : ℝ) (hl : lam ≤ 0) : Curved (arcEnv K).p S lam 1 := by
  refine ⟨one_pos, fun x _ d => ?_⟩
  rw [arc_curvature K x d lam hl, Fin.sum_univ_two, one_mul]

/-- Three line search iterations, and a first-order tolerance of 0.01. -/
noncomputable def arcPrm (limit : Int) : NLSParams ℝ :=
  { dp with maxLineSearchIterations := 3, absoluteFirstDerivativeTol := 1 / 100, maxIterations := limit }

/-- C125 on the curve `x + y² = 0`, from every start with `(x² + y²)/2 + |x + y²| ≤ 1/5`, three line search iterations and a
tolerance of 0.01: the solve returns after at most 5·10^7 iterations, none of which fails, and (if allowed one more) because of a
tolerance; the penalty is never raised. -/
example (x0 : Fin 2 → ℝ) (hC : 1 / 2 * distSq x0 + |x0 0 + x0 1 ^ 2| ≤ 1 / 5) (limit : Int) (hl : 5 * 10 ^ 7 < limit) :
    ∃ (o' : (arcEnv 1).Obj) (out : NLSOutputs ℝ) (calls : List (NLSIteration ℝ)),
      solve (arcEnv 1) (arcPrm limit) x0 (mkObj _) = .ok (o', out, calls) ∧ out.iterations ≠ [] ∧
      out.iterations.length ≤ 5 * 10 ^ 7 ∧
      (∀ it ∈ out.iterations, it.stepResult = .success ∨ it.stepResult = .firstOrderSatisfied) ∧
      (out.termination = .satisfiedAbsoluteTol ∨ out.termination = .satisfiedRelativeTol ∨
        out.termination = .satisfiedFirstOrderTol) := by
  have hpi : (arcPrm limit).equalityPenaltyInitial = 1 := by simp [arcPrm, dp, NLSParams.default, real_lit]
  have hM : startMerit (arcEnv 1).p (arcPrm limit) x0 ≤ 1 / 5 := by
    unfold startMerit
    rw [arc_cost, arc_violation, hpi, div_one, one_mul]
    exact hC
  have hvalid : NLSParamsValid (arcPrm limit) :=
    { (nls_default_valid : NLSParamsValid dp) with
      maxIterations := by show (0 : Int) ≤ limit; omega
      maxLineSearchIterations := by show (0 : Int) ≤ 3; omega
      absoluteFirstDerivativeTol := by show (0 : ℝ) ≤ 1 / 100; norm_num }
  have hpen : 0 < (arcPrm limit).equalityPenaltyInitial := by rw [hpi]; exact one_pos
  have hrho : (arcPrm limit).equalityPenaltyRho = 1 / 10 := by simp only [arcPrm, dp, NLSParams.default, real_lit]; norm_num
  have hP : (1 : ℝ) = max (arcPrm limit).equalityPenaltyInitial
      (penaltyBound (arcPrm limit) 1 (1 / 1) (startMerit (arcEnv 1).p (arcPrm limit) x0)) := by
    have e : penaltyBound (arcPrm limit) 1 (1 / 1) (startMerit (arcEnv 1).p (arcPrm limit) x0)
        = 19291 / 4050 * startMerit (arcEnv 1).p (arcPrm limit) x0 := arc_bound _
    rw [hpi, e, max_eq_left (by linarith)]
  have hstr : (arcPrm limit).lineSearchStrategy = .polynomialApproximation := by simp [arcPrm, dp, NLSParams.default]
  have hmin : (arcPrm limit).minLambda ≤ 0 := by simp [arcPrm, dp, NLSParams.default, real_lit]
  obtain ⟨o', out, calls, h, hne⟩ := arc_run 1 one_pos (arcPrm limit) hvalid hpen (by show (1 : Int) ≤ limit; omega) x0
  obtain ⟨h1, h2, h3⟩ := C125_converges (arcEnv 1).p (arc_ok 1) rfl (arc_eqs 1) (arcPrm limit) hpen (by rw [hrho]; norm_num) x0
    1 (1 / 1) 1 (2 * 1) 1 1 (arc_qualified 1 one_pos _) (arc_smooth 1 _) (arc_smoothEqs 1 one_pos _) (arc_curved 1 _ _ hmin) hP
    (by show _ ≤ (1 / 100 : ℝ); norm_num)
    (by
      unfold stepRatio safeStep
      rw [hstr]
      show (51 / 100 : ℝ) ^ 3 ≤ _
      norm_num)
    (5 * 10 ^ 7)
    (by
      unfold shortestStep
      rw [hstr, hrho]
      show _ < ((5 * 10 ^ 7 : Nat) : ℝ) * (min 1 (20 / 41 * (1 / 4 / (1 + 1 * (2 * 1)))) * (1 / 10 * (1 / 100)))
      rw [min_eq_right (by norm_num), max_self, mul_one]
      refine lt_of_le_of_lt (mul_le_mul_of_nonneg_left hM (by norm_num)) ?_
      norm_num)
    (arcEnv 1) rfl rfl exactNS_contract limit _ o' out calls h
  refine ⟨o', out, calls, h, hne, h1, h2, ?_⟩
  rcases h3 (by exact_mod_cast hl) with h4 | h4 | h4 | h4
  · exact .inl h4
  · exact .inr (.inl h4)
  · exact .inr (.inr h4)
  · have := C46_termination (arcEnv 1) (arcPrm limit) x0 _ o' out calls h
    rw [h4] at this
    obtain ⟨cb, hcb, -⟩ := this
    cases hcb

/-- C125 (`MAX_LAMBDA`) on the same problem with the default two line search iterations and `max_lambda = 100`: from every start with
`(x² + y²)/2 + |x + y²| ≤ 1/120` the solve never ends with `MAX_LAMBDA`, and by a tolerance if it may make more than 2·10^7
iterations. -/
example (x0 : Fin 2 → ℝ) (hC : 1 / 2 * distSq x0 + |x0 0 + x0 1 ^ 2| ≤ 1 / 120) (limit : Int) (hl : 2 * 10 ^ 7 < limit) :
    ∃ (o' : (arcEnv 1).Obj) (out : NLSOutputs ℝ) (calls : List (NLSIteration ℝ)),
      solve (arcEnv 1) { arcPrm limit with maxLineSearchIterations := 2, maxLambda := 100 } x0 (mkObj _) = .ok (o', out, calls) ∧
      out.termination ≠ .maxLambda ∧
      (out.termination = .satisfiedAbsoluteTol ∨ out.termination = .satisfiedRelativeTol ∨
        out.termination = .satisfiedFirstOrderTol) := by
  set prm : NLSParams ℝ := { arcPrm limit with maxLineSearchIterations := 2, maxLambda := 100 } with hprm
  have hpi : prm.equalityPenaltyInitial = 1 := by simp [hprm, arcPrm, dp, NLSParams.default, real_lit]
  have hM : startMerit (arcEnv 1).p prm x0 ≤ 1 / 120 := by
    unfold startMerit
    rw [arc_cost, arc_violation, hpi, div_one, one_mul]
    exact hC
  have hvalid : NLSParamsValid prm :=
    { (nls_default_valid : NLSParamsValid dp) with
      maxIterations := by show (0 : Int) ≤ limit; omega
      maxLineSearchIterations := by show (0 : Int) ≤ 2; omega
      maxLambda := by show (0 : ℝ) ≤ 100; norm_num
      minLambda := by show dp.minLambda ≤ (100 : ℝ); simp [dp, NLSParams.default, real_lit]
      lambdaInitial := ⟨(nls_default_valid : NLSParamsValid dp).lambdaInitial.1, by
        show dp.lambdaInitial ≤ (100 : ℝ); simp [dp, NLSParams.default, real_lit]⟩
      absoluteFirstDerivativeTol := by show (0 : ℝ) ≤ 1 / 100; norm_num }
  have hpen : 0 < prm.equalityPenaltyInitial := by rw [hpi]; exact one_pos
  have hrho : prm.equalityPenaltyRho = 1 / 10 := by simp only [hprm, arcPrm, dp, NLSParams.default, real_lit]; norm_num
  have hstr : prm.lineSearchStrategy = .polynomialApproximation := by simp [hprm, arcPrm, dp, NLSParams.default]
  have hmin : prm.minLambda ≤ 0 := by simp [hprm, arcPrm, dp, NLSParams.default, real_lit]
  have hfail : prm.lambdaFailureInit = 1 / 100 := by simp only [hprm, arcPrm, dp, NLSParams.default, real_lit]; norm_num
  have hml : prm.maxLambda = 100 := rfl
  have hbig : penaltyBound prm 1 (1 / 1) (startMerit (arcEnv 1).p prm x0) ≤ 1 := by
    have hM0 : 0 ≤ startMerit (arcEnv 1).p prm x0 :=
      add_nonneg (div_nonneg (costAt_nonneg _ _) hpen.le) (violationAt_nonneg _ _)
    unfold penaltyBound
    have hs : prm.equalityPenaltyScaleFactor = 101 / 100 := by simp only [hprm, arcPrm, dp, NLSParams.default, real_lit]; norm_num
    rw [hrho, hs, hml, max_eq_left (by norm_num)]
    linarith
  obtain ⟨o', out, calls, h, hne⟩ := arc_run 1 one_pos prm hvalid hpen (by show (1 : Int) ≤ limit; omega) x0
  have hb := C124_penalty_bounded (arcEnv 1) exactNS_contract (arc_ok 1) rfl (arc_eqs 1) prm hpen x0 1 (1 / 1)
    (arc_qualified 1 one_pos _) _ o' out calls h
  obtain ⟨h1, h2⟩ := C125_no_max_lambda (arcEnv 1) exactNS_contract rfl (arc_ok 1) rfl (arc_eqs 1) prm hpen
    (by rw [hrho]; norm_num) x0 _ o' out calls h 1 (2 * 1) 1 1 (arc_smooth 1 _) (arc_smoothEqs 1 one_pos _)
    (arc_curved 1 _ _ hmin) zero_le_one (by show _ ≤ (1 / 100 : ℝ); norm_num)
    (fun it hit => ((hb it hit).1).trans (max_le hpi.le hbig)) (by rw [hfail, hml]; norm_num)
  refine ⟨o', out, calls, h, h1, ?_⟩
  have h3 := h2 (21 * 10 ^ 5) 5 (by
      unfold shortestStep
      rw [hstr, hrho]
      show _ < ((21 * 10 ^ 5 : Nat) : ℝ) * (min 1 (20 / 41 * (1 / 4 / (1 + 1 * (2 * 1)))) * (1 / 10 * (1 / 100)))
      rw [min_eq_right (by norm_num), max_self, mul_one]
      refine lt_of_le_of_lt (mul_le_mul_of_nonneg_left hM (by norm_num)) ?_
      norm_num) (by rw [hfail, hml]; norm_num) (by
      show _ < limit
      norm_num
      linarith)
  rcases h3 with h4 | h4 | h4 | h4
  · exact .inl h4
  · exact .inr (.inl h4)
  · exact .inr (.inr h4)
  · have := C46_termination (arcEnv 1) prm x0 _ o' out calls h
    rw [h4] at this
    obtain ⟨cb, hcb, -⟩ := this
    cases hcb

end MiniOpt.Props
