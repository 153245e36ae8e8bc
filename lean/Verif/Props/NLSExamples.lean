import Verif.Lemmas.DemoHill
import Verif.Props.Derivative
import Verif.Props.NLSNullSpace
import Verif.Props.NLSBounds
import Verif.Props.NLSUnconstrained
import Verif.Props.LinearLS

/-!
# Runs that meet the hypotheses of the theorems about exact solves

For the theorems of `NLSDescent`, `NLSState`, `Derivative`, `NLSNullSpace`, `NLSBounds`, `LinearLS` and
`NLSUnconstrained`: each `example` exhibits a run (with the default parameters) for which the hypotheses hold, and applies the
theorem to it.
-/

set_option autoImplicit false

namespace MiniOpt.Props

open MiniOpt MiniOpt.Spec MiniOpt.NLS MiniOpt.DemoReal

/-- The default parameters. -/
noncomputable abbrev dp : NLSParams ℝ := NLSParams.default

theorem dp_penalty : 0 < dp.equalityPenaltyInitial := by simp [NLSParams.default]
theorem dp_iterations : 1 ≤ dp.maxIterations := by simp [NLSParams.default]

theorem first_of {α : Type} {l : List α} (h : l ≠ []) : ∃ x, l[0]? = some x :=
  ⟨_, List.getElem?_eq_getElem (List.length_pos_iff.mpr h)⟩

/-- C40, C43, C44, C36 (statement about any iteration): a run of the bounded problem from an infeasible start. -/
example : ∃ (o' : boundedEnv.Obj) (out : NLSOutputs ℝ) (calls : List (NLSIteration ℝ)) (it : NLSIteration ℝ),
    solve boundedEnv dp (fun _ => -7) (mkObj _) = .ok (o', out, calls) ∧ it ∈ out.iterations ∧
    it.lineSearchSteps ≠ [] ∧ it.lambda = 0 ∧ it.penalty = 1 := by
  obtain ⟨o', out, calls, h, hne⟩ := bounded_run dp nls_default_valid dp_penalty dp_iterations fun _ => -7
  obtain ⟨it, hit⟩ := first_of hne
  have hmem := List.mem_of_getElem? hit
  refine ⟨o', out, calls, it, h, hmem, (C40_alphas _ _ _ _ _ _ _ h it hmem).1, ?_, ?_⟩
  · exact (C43_state_machine _ _ _ _ _ _ _ h).1 it hit
  · exact ((C44_penalty _ _ _ _ _ _ _ h).1 it hmem).2.2 rfl

/-- The linear least squares problem with costs `x₀ - 3` and `x₁ - 1`. -/
noncomputable def lineEnv : Env 2 2 ℝ := mkEnv ⟨[cost1, cost3], [], []⟩

theorem cost1_lin (x dx : Fin 2 → ℝ) (k : Fin 1) : linAt cost1 x dx k = x 0 - 3 + dx 0 := by
  have : linAt cost1 x dx k = valueAt cost1 x k + ∑ j : Fin 2, jacAt cost1 x 2 k j * dx j := rfl
  rw [this]
  unfold cost1
  rw [Fin.sum_univ_two, res2_jac, res2_jac, res2_value]
  simp

theorem cost1_slope (x dx : Fin 2 → ℝ) (k : Fin 1) : slopeAt cost1 x dx k = dx 0 := by
  have : slopeAt cost1 x dx k = ∑ j : Fin 2, jacAt cost1 x 2 k j * dx j := rfl
  rw [this]
  unfold cost1
  rw [Fin.sum_univ_two, res2_jac, res2_jac]
  simp

theorem line_ok : WellPosed lineEnv.p 2 := by
  refine mk_wellPosed _ ?_ ?_
  · intro r hr
    have hr' : r ∈ [cost1, cost3] := by simpa [lineEnv, mkEnv] using hr
    rcases List.mem_cons.mp hr' with rfl | hr'
    · exact ⟨_, _, _, rfl⟩
    · rcases List.mem_singleton.mp hr' with rfl; exact ⟨_, _, _, rfl⟩
  · intro c hc
    have hc' : c ∈ ([] : List (Ineq ℝ)) := hc
    cases hc'

theorem line_costs (g : (r : Residual ℝ) → Fin r.dim → ℝ) :
    (lineEnv.p.costs.map fun r => ∑ k, g r k).sum = g cost1 (0 : Fin 1) + g cost3 (0 : Fin 1) := by
  have e (u v : Fin 1 → ℝ) : (∑ k, u k) + ((∑ k, v k) + 0) = u 0 + v 0 := by simp
  exact e (g cost1) (g cost3)

theorem line_affine : AffineCosts lineEnv.p := by
  intro r hr x dx k
  have hr' : r ∈ [cost1, cost3] := hr
  rcases List.mem_cons.mp hr' with rfl | hr'
  · have e1 : valueAt cost1 (fun i => x i + dx i) k = (x 0 + dx 0) - 3 := res2_value _ _ _ (fun i => x i + dx i) (k : Fin 1)
    have e2 := cost1_lin x dx k
    rw [e1]
    exact (by linarith : x 0 + dx 0 - 3 = x 0 - 3 + dx 0).trans e2.symm
  · rcases List.mem_singleton.mp hr' with rfl
    have e1 : valueAt cost3 (fun i => x i + dx i) k = (x 1 + dx 1) - 1 := res2_value _ _ _ (fun i => x i + dx i) (k : Fin 1)
    have e2 := cost3_lin x dx k
    rw [e1]
    exact (by linarith : x 1 + dx 1 - 1 = x 1 - 1 + dx 1).trans e2.symm

theorem line_rank : FullRankCosts lineEnv.p := by
  intro x dx hdx
  rw [line_costs fun r k => slopeAt r x dx k ^ 2, cost1_slope, cost3_slope]
  by_contra hc
  apply hdx
  have e0 : dx 0 = 0 := by nlinarith [sq_nonneg (dx 0), sq_nonneg (dx 1)]
  have e1 : dx 1 = 0 := by nlinarith [sq_nonneg (dx 0), sq_nonneg (dx 1)]
  funext i; fin_cases i <;> assumption

theorem line_run (x0 : Fin 2 → ℝ) : ∃ (o' : lineEnv.Obj) (out : NLSOutputs ℝ) (calls : List (NLSIteration ℝ)),
    solve lineEnv dp x0 (mkObj _) = .ok (o', out, calls) ∧ out.iterations ≠ [] :=
  ip_run _ line_ok (by simp [lineEnv, mkEnv]) (fun c hc => by cases hc) dp nls_default_valid dp_penalty dp_iterations x0

/-- C50: from the origin the first iteration succeeds and `Solve` returns the minimiser `(3, 1)`; so C36, which is about successful
iterations, applies to it, and C37 about problems without equality constraints. -/
theorem line_solved : ∃ (o' : lineEnv.Obj) (out : NLSOutputs ℝ) (calls : List (NLSIteration ℝ)) (it : NLSIteration ℝ),
    solve lineEnv dp (fun _ => 0) (mkObj _) = .ok (o', out, calls) ∧ out.iterations[0]? = some it ∧
    it.stepResult = .success ∧ o'.vars 0 = 3 ∧ o'.vars 1 = 1 := by
  obtain ⟨o', out, calls, h, hne⟩ := line_run fun _ => 0
  obtain ⟨best, hbest, -, hcase⟩ := C50_linear_least_squares lineEnv exactEigen_contract rfl line_ok line_affine line_rank
    rfl rfl dp (by simp [NLSParams.default]) _ _ _ _ _ h hne
  have hcost : ∀ x : Fin 2 → ℝ, costAt lineEnv.p x = 1 / 2 * (x 0 - 3) ^ 2 + 1 / 2 * (x 1 - 1) ^ 2 := by
    intro x
    rw [costAt_real]
    have e (u v : Fin 1 → ℝ) : (1 / 2) * (∑ k, u k) + ((1 / 2) * (∑ k, v k) + 0) = (1 / 2) * u 0 + (1 / 2) * v 0 := by simp
    refine (e (fun k => valueAt cost1 x k ^ 2) fun k => valueAt cost3 x k ^ 2).trans ?_
    unfold cost1 cost3
    rw [res2_value, res2_value]
  have hb : best = fun i => if i = 0 then 3 else 1 := by
    by_contra hn
    have := hbest (fun i => if i = 0 then 3 else 1) (fun e => hn e.symm)
    rw [hcost, hcost] at this
    norm_num at this
    nlinarith [sq_nonneg (best 0 - 3), sq_nonneg (best 1 - 1)]
  rcases hcase with ⟨-, -, -, hsmall⟩ | ⟨⟨it, hit, hs⟩, -, hv⟩
  · exfalso
    rw [hcost, hcost, hb] at hsmall
    simp only [NLSParams.default, real_lit] at hsmall
    norm_num at hsmall
  · refine ⟨o', out, calls, it, h, hit, hs, ?_, ?_⟩ <;> rw [hv, hb] <;> simp

/-- C36, C37. -/
example : ∃ (o' : lineEnv.Obj) (out : NLSOutputs ℝ) (calls : List (NLSIteration ℝ)) (it : NLSIteration ℝ) (a b : lineEnv.Obj),
    solve lineEnv dp (fun _ => 0) (mkObj _) = .ok (o', out, calls) ∧ out.iterations[0]? = some it ∧
    it.stepResult = .success ∧ After lineEnv dp (fun _ => 0) (mkObj _) 0 a ∧ After lineEnv dp (fun _ => 0) (mkObj _) 1 b ∧
    merit lineEnv.p it.penalty b.vars ≤ merit lineEnv.p it.penalty a.vars ∧
    costAt lineEnv.p o'.vars ≤ costAt lineEnv.p (fun _ : Fin 2 => (0 : ℝ)) := by
  obtain ⟨o', out, calls, it, h, hit, hs, -⟩ := line_solved
  have hlen := lt_of_getElem? hit
  obtain ⟨hex, -, -⟩ := C38_after lineEnv dp _ _ o' out calls h
  obtain ⟨a, ha, -⟩ := hex 0 (by omega)
  obtain ⟨b, hb, -⟩ := hex 1 (by omega)
  obtain ⟨st, -, -, -, -, -, hm⟩ :=
    C36_sufficient_decrease lineEnv line_ok.consistent dp _ _ o' out calls h 0 it hit hs a b ha hb
  exact ⟨o', out, calls, it, a, b, h, hit, hs, ha, hb, hm,
    (C37_cost_never_increases lineEnv line_ok.consistent rfl dp _ _ o' out calls h).1⟩

/-- C41, C42: on `hillEnv` the first line search interpolates twice. -/
example : ∃ (o' : hillEnv.Obj) (out : NLSOutputs ℝ) (calls : List (NLSIteration ℝ)) (it : NLSIteration ℝ)
    (st0 st1 st2 : LineSearchStep ℝ),
    solve hillEnv dp hillStart (mkObj _) = .ok (o', out, calls) ∧ it ∈ out.iterations ∧
    it.directionalDerivatives.total it.penalty < 0 ∧ it.lineSearchSteps = [st0, st1, st2] ∧
    st1.alpha < 51 / 100 * st0.alpha ∧ st2.alpha < 51 / 100 * st1.alpha := by
  obtain ⟨o', out, calls, it, h, hit, htot, -, hlen⟩ := hill_run
  have hmem := List.mem_of_getElem? hit
  have hneg : it.directionalDerivatives.total it.penalty < 0 := by rw [htot]; norm_num
  have hc := (C42_never_fails hillEnv dp _ _ o' out calls h rfl it hmem hneg).2
  obtain ⟨st0, st1, st2, hs⟩ : ∃ a b c, it.lineSearchSteps = [a, b, c] := List.length_eq_three.mp hlen
  rw [hs] at hc
  exact ⟨o', out, calls, it, st0, st1, st2, h, hmem, hneg, hs, (hc 0 st0 st1 rfl rfl).1, (hc 1 st1 st2 rfl rfl).1⟩

theorem res2_true {f fx fy : ℝ → ℝ → ℝ} (q : Fin 2 → ℝ)
    (hf : HasFDerivAt (fun q' : Fin 2 → ℝ => f (q' 0) (q' 1)) (fx (q 0) (q 1) •
      ContinuousLinearMap.proj (R := ℝ) (φ := fun _ : Fin 2 => ℝ) 0 + fy (q 0) (q 1) •
      ContinuousLinearMap.proj (R := ℝ) (φ := fun _ : Fin 2 => ℝ) 1) q) : TrueJacobian (res2 f fx fy) q := by
  intro k
  have e : (∑ l : Fin 2, (if l = 0 then fx (q 0) (q 1) else fy (q 0) (q 1)) •
      ContinuousLinearMap.proj (R := ℝ) (φ := fun _ : Fin 2 => ℝ) l) = fx (q 0) (q 1) •
      ContinuousLinearMap.proj (R := ℝ) (φ := fun _ : Fin 2 => ℝ) 0 + fy (q 0) (q 1) •
      ContinuousLinearMap.proj (R := ℝ) (φ := fun _ : Fin 2 => ℝ) 1 := by
    rw [Fin.sum_univ_two]; simp
  rw [← e] at hf
  exact hf

theorem curve_true : ∀ r ∈ curveEnv.p.costs ++ curveEnv.p.eqs, ∀ q, TrueJacobian r q := by
  intro r hr q
  have h0 (q : Fin 2 → ℝ) := hasFDerivAt_apply (𝕜 := ℝ) (F' := fun _ : Fin 2 => ℝ) 0 q
  have h1 (q : Fin 2 → ℝ) := hasFDerivAt_apply (𝕜 := ℝ) (F' := fun _ : Fin 2 => ℝ) 1 q
  have hr' : r ∈ [cost1, cost3, curve] := by simpa [curveEnv, mkEnv] using hr
  rcases List.mem_cons.mp hr' with rfl | hr'
  · refine res2_true q ?_
    have := (h0 q).sub_const 3
    refine this.congr_fderiv ?_
    ext; simp
  · rcases List.mem_cons.mp hr' with rfl | hr'
    · refine res2_true q ?_
      have := (h1 q).sub_const 1
      refine this.congr_fderiv ?_
      ext; simp
    · rcases List.mem_singleton.mp hr' with rfl
      refine res2_true q ?_
      have := ((h0 q).add ((h1 q).pow 2)).sub_const 1
      refine this.congr_fderiv ?_
      ext; simp

/-- C35: the null-space run of `curveEnv`, whose residuals have true Jacobians, along the straight line the default
retraction follows. -/
example : ∃ (o' : curveEnv.Obj) (out : NLSOutputs ℝ) (calls : List (NLSIteration ℝ)) (it : NLSIteration ℝ) (a b : curveEnv.Obj)
    (γ : ℝ → Fin 2 → ℝ),
    solve curveEnv dp (fun _ => 2) (mkObj _) = .ok (o', out, calls) ∧ out.iterations[0]? = some it ∧
    it.qpOutputs = .nullSpace .success ∧ Follows curveEnv.p a.vars b.dx γ ∧
    HasDerivWithinAt (fun t => merit curveEnv.p 1 (γ t)) (it.directionalDerivatives.total 1) (Set.Ici 0) 0 := by
  obtain ⟨o', out, calls, h, hne⟩ := curve_run dp nls_default_valid dp_penalty dp_iterations fun _ => 2
  obtain ⟨it, hit⟩ := first_of hne
  have hlen := lt_of_getElem? hit
  obtain ⟨hex, -, -⟩ := C38_after curveEnv dp _ _ o' out calls h
  obtain ⟨a, ha, -⟩ := hex 0 (by omega)
  obtain ⟨b, hb, -⟩ := hex 1 (by omega)
  have hns := (C45_which_solver curveEnv dp _ _ o' out calls h it (List.mem_of_getElem? hit)).1
    ⟨rfl, by simp [curveEnv, mkEnv]⟩
    
  obtain ⟨hγ, -⟩ := C35_default_retraction curveEnv rfl curve_ok a.vars b.dx (fun r hr => curve_true r hr _)
  exact ⟨o', out, calls, it, a, b, _, h, hit, hns, hγ,
    C35_null_space curveEnv exactNS_contract curve_ok dp _ _ o' out calls h 0 it hit hns a b ha hb _ hγ 1⟩

/-- C35 (merit derivative at a point where no equality residual vanishes): the same run; at the start the residual is
`2 + 4 - 1`. -/
example : ∃ (o' : curveEnv.Obj) (out : NLSOutputs ℝ) (calls : List (NLSIteration ℝ)) (it : NLSIteration ℝ)
    (γ : ℝ → Fin 2 → ℝ),
    solve curveEnv dp (fun _ => 2) (mkObj _) = .ok (o', out, calls) ∧ out.iterations[0]? = some it ∧
    HasDerivAt (fun t => merit curveEnv.p 1 (γ t)) (it.directionalDerivatives.total 1) 0 := by
  obtain ⟨o', out, calls, h, hne⟩ := curve_run dp nls_default_valid dp_penalty dp_iterations fun _ => 2
  obtain ⟨it, hit⟩ := first_of hne
  have hlen := lt_of_getElem? hit
  obtain ⟨hex, hfirst, -⟩ := C38_after curveEnv dp _ _ o' out calls h
  obtain ⟨a, ha, -⟩ := hex 0 (by omega)
  obtain ⟨b, hb, -⟩ := hex 1 (by omega)
  obtain ⟨hγ, -⟩ := C35_default_retraction curveEnv rfl curve_ok a.vars b.dx (fun r hr => curve_true r hr _)
  refine ⟨o', out, calls, it, _, h, hit,
    ((C35_merit_derivative curveEnv curve_ok dp _ _ o' out calls h 0 it hit a b ha hb _ hγ 1).2.2 ?_).2⟩
  intro r hr k
  have hr' : r ∈ [curve] := hr
  rcases List.mem_singleton.mp hr' with rfl
  have e : valueAt curve a.vars k = a.vars 0 + a.vars 1 ^ 2 - 1 := res2_value _ _ _ a.vars (k : Fin 1)
  rw [e, hfirst a ha]
  norm_num

/-- C45. -/
example : ∃ (o' : curveEnv.Obj) (out : NLSOutputs ℝ) (calls : List (NLSIteration ℝ)) (it : NLSIteration ℝ),
    solve curveEnv dp (fun _ => 2) (mkObj _) = .ok (o', out, calls) ∧ it ∈ out.iterations ∧
    it.errorsInitial.equality = 5 ∧ it.directionalDerivatives.dEquality = -5 ∧
    it.directionalDerivatives.total it.penalty < 0 := by
  obtain ⟨o', out, calls, h, hne⟩ := curve_run dp nls_default_valid dp_penalty dp_iterations fun _ => 2
  obtain ⟨it, hit⟩ := first_of hne
  have hmem := List.mem_of_getElem? hit
  have hlen := lt_of_getElem? hit
  obtain ⟨hex, hfirst, -⟩ := C38_after curveEnv dp _ _ o' out calls h
  obtain ⟨a, ha, -⟩ := hex 0 (by omega)
  obtain ⟨b, hb, -⟩ := hex 1 (by omega)
  obtain ⟨d1, d2, -⟩ := C45_descent curveEnv exactNS_contract curve_ok rfl (by simp [curveEnv, mkEnv]) dp _ _ o' out calls h it hmem
  have he : it.errorsInitial.equality = 5 := by
    obtain ⟨h1, -⟩ := C38_direction curveEnv _ _ _ o' out calls h 0 it hit a b ha hb
    rw [(linearize_facts curve_ok h1).1, hfirst a ha]
    show violationAt curveEnv.p (fun _ : Fin 2 => (2 : ℝ)) = 5
    have : violationAt curveEnv.p (fun _ : Fin 2 => (2 : ℝ)) = 0 + lpNorm1 (fun k : Fin 1 => valueAt curve (fun _ : Fin 2 => (2 : ℝ)) k) := rfl
    rw [this]
    unfold curve
    simp only [res2_value, lpNorm1, real_sum, real_abs]
    norm_num
  obtain ⟨e1, -, -⟩ := d2 (Or.inl (by rw [he]; norm_num))
  rw [he] at d1 e1
  refine ⟨o', out, calls, it, h, hmem, he, d1, lt_of_le_of_lt e1 ?_⟩
  have := ((C44_penalty _ _ _ _ _ _ _ h).1 it hmem).1
  have hrho : 0 < dp.equalityPenaltyRho := by simp only [NLSParams.default, real_lit]; norm_num
  have := mul_pos (mul_pos hrho this) (by norm_num : (0 : ℝ) < 5)
  linarith

/-- C49: the bounded problem started inside its bounds stays there (up to `1e-9`). -/
example : ∃ (o' : boundedEnv.Obj) (out : NLSOutputs ℝ) (calls : List (NLSIteration ℝ)),
    solve boundedEnv dp (fun _ => 2) (mkObj _) = .ok (o', out, calls) ∧ out.iterations ≠ [] ∧
    -1e-9 ≤ boundAt (⟨0, 1, -1 / 2⟩ : Ineq ℝ) o'.vars ∧ -1e-9 ≤ boundAt (⟨1, -1, 4⟩ : Ineq ℝ) o'.vars := by
  obtain ⟨o', out, calls, h, hne⟩ := bounded_run dp nls_default_valid dp_penalty dp_iterations fun _ => 2
  have hbox : ∃ w : Fin 2 → ℝ, ∀ c ∈ boundedEnv.p.ineq, 0 ≤ boundAt c w := by
    refine ⟨fun _ => 2, fun c hc => ?_⟩
    have hc' : c ∈ [(⟨0, 1, -1 / 2⟩ : Ineq ℝ), ⟨1, -1, 4⟩] := hc
    rcases List.mem_cons.mp hc' with rfl | hc'
    · norm_num [boundAt]
    · rcases List.mem_singleton.mp hc' with rfl; norm_num [boundAt]
  refine ⟨o', out, calls, h, hne, ?_, ?_⟩
  · exact (C49_bounds boundedEnv rfl hbox dp _ _ o' out calls h ⟨0, 1, -1 / 2⟩ (by simp [boundedEnv, mkEnv])).2.2
      (by norm_num [boundAt])
  · exact (C49_bounds boundedEnv rfl hbox dp _ _ o' out calls h ⟨1, -1, 4⟩ (by simp [boundedEnv, mkEnv])).2.2
      (by norm_num [boundAt])

/-- C67. -/
example : ∃ (o' : hillEnv.Obj) (out : NLSOutputs ℝ) (calls : List (NLSIteration ℝ)) (it : NLSIteration ℝ),
    solve hillEnv dp hillStart (mkObj _) = .ok (o', out, calls) ∧ out.iterations[0]? = some it ∧
    it.directionalDerivatives.total it.penalty = -1 := by
  obtain ⟨o', out, calls, it, h, hit, htot, -⟩ := hill_run
  exact ⟨o', out, calls, it, h, hit, htot⟩

end MiniOpt.Props
