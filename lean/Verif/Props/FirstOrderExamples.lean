import Verif.Props.FirstOrder
import Verif.Props.NLSExamples

/-!
# Runs that meet the hypotheses of C68 and C69
-/

set_option autoImplicit false

namespace MiniOpt.Props

open MiniOpt MiniOpt.Spec MiniOpt.NLS MiniOpt.DemoReal

variable {n D : Nat}

/-- If a problem can be solved for every derivative tolerance, then for some tolerance the first iteration stops with
`SATISFIED_FIRST_ORDER_TOL`, at the start. -/
theorem exists_first_order (env : Env n D ℝ) (prm : NLSParams ℝ) (x0 : Fin n → ℝ) (o : env.Obj)
    (hrun : ∀ t : ℝ, 0 ≤ t → ∃ o' out calls,
      solve env { prm with absoluteFirstDerivativeTol := t } x0 o = .ok (o', out, calls) ∧ out.iterations ≠ []) :
    ∃ t o' out calls, 0 < t ∧ solve env { prm with absoluteFirstDerivativeTol := t } x0 o = .ok (o', out, calls) ∧
      out.termination = .satisfiedFirstOrderTol ∧ o'.vars = x0 := by
  obtain ⟨o1, out1, calls1, h1, hne1⟩ := hrun 0 le_rfl
  obtain ⟨it1, hit1⟩ := first_of hne1
  set t := it1.directionalDerivatives.lInfinity + 1 with ht
  have hl0 : 0 ≤ it1.directionalDerivatives.lInfinity := by
    unfold DirectionalDerivatives.lInfinity
    rw [real_cmax, real_abs]
    exact le_max_of_le_left (abs_nonneg _)
  obtain ⟨o2, out2, calls2, h2, hne2⟩ := hrun t (by linarith)
  obtain ⟨it2, hit2⟩ := first_of hne2
  have hmem2 := List.mem_of_getElem? hit2
  have hsteps := (C40_alphas env _ x0 o o2 out2 calls2 h2 it2 hmem2).1
  obtain ⟨S1, T1, W1, v1⟩ := solve_view h1
  obtain ⟨_, i1, p1⟩ := view_info v1 hit1
  obtain ⟨S2, T2, W2, v2⟩ := solve_view h2
  obtain ⟨_, i2, p2⟩ := view_info v2 hit2
  have es : (S1 0).obj = (S2 0).obj ∧ (S1 0).lambda = (S2 0).lambda := by
    rw [v1.start, v2.start]; exact ⟨rfl, rfl⟩
  have hl1 := p1.lin
  rw [es.1, es.2, p2.lin] at hl1
  injection hl1 with hl1
  injection hl1 with hq hpre
  obtain ⟨sol1, d1, -⟩ := p1.dir
  obtain ⟨sol2, d2, -⟩ := p2.dir
  rw [es.1, ← hq] at d1
  have d2' : stepDirection env { prm with absoluteFirstDerivativeTol := 0 } { (S2 0).obj with qp := (W2 0).qp }
      = .ok ({ (S2 0).obj with qp := (W2 0).qp, dx := (W2 0).dx, solver := sol2 }, (W2 0).out) := d2
  rw [d1] at d2'
  injection d2' with d2'
  injection d2' with e1 e2
  have hdx : (W1 0).dx = (W2 0).dx := congrArg Obj.dx e1
  have hd : it2.directionalDerivatives = it1.directionalDerivatives := by
    rw [i1, i2, p1.ideriv, p2.ideriv, hdx, hq]
  obtain ⟨_, hout, _⟩ := lsLoop_start _ _ _ _ _ _ _ _ _ _ _ _ p2.ls
  have hf := hout.facts
  have hd' : costDerivative (W2 0).qp (W2 0).dx = it1.directionalDerivatives := by
    rw [← hd, i2, p2.ideriv]
  rw [hd'] at hf
  have hsmall : it1.directionalDerivatives.lInfinity < t := by rw [ht]; linarith
  obtain ⟨st, hst⟩ := List.exists_mem_of_ne_nil _ hsteps
  have hmem' : st ∈ (W2 0).steps := by rw [← p2.isteps, ← i2]; exact hst
  have hres : it2.stepResult = .firstOrderSatisfied := by
    rw [i2, p2.ires]
    cases hr' : (W2 0).res with
    | firstOrderSatisfied => rfl
    | success =>
      obtain ⟨_, _, _, hn, _⟩ := hf.success hr'
      exact absurd hsmall hn
    | maxIterations => exact absurd hsmall ((hf.maxIter hr').2 st hmem').notFirstOrder
    | positiveDerivative =>
      obtain ⟨_, _, _, hn, _⟩ := hf.positive hr'
      exact absurd hsmall hn
    | failureNonFiniteCost =>
      obtain ⟨_, _, hn⟩ := hf.nonFinite hr'
      exact absurd hn (real_valid _)
    | failureInvalidAlpha => exact absurd hsmall ((hf.invalidAlpha hr').2.1 st hmem').notFirstOrder
  obtain ⟨hlen, hterm⟩ := C46_exits_are_taken env _ x0 o o2 out2 calls2 h2 0 it2 hit2 .satisfiedFirstOrderTol
    ⟨hres, by rw [hd]; exact hsmall⟩
  obtain ⟨hex, hfirst, hlast⟩ := C38_after env _ x0 o o2 out2 calls2 h2
  obtain ⟨a, ha, -⟩ := hex 0 (by omega)
  obtain ⟨b, hb, -⟩ := hex (0 + 1) (by omega)
  refine ⟨t, o2, out2, calls2, by linarith, h2, hterm, ?_⟩
  rw [← hlast b (hlen ▸ hb), (C38_variables_move env _ x0 o o2 out2 calls2 h2 0 it2 hit2 a b ha hb).2 (by rw [hres]; simp),
    hfirst a ha]

/-- The default parameters with another derivative tolerance are valid. -/
theorem dp_tol (t : ℝ) (ht : 0 ≤ t) : NLSParamsValid { dp with absoluteFirstDerivativeTol := t } :=
  { nls_default_valid with absoluteFirstDerivativeTol := ht }

/-- C68: a step of the bounded problem from a point inside its bounds. -/
example : ∃ (o' : boundedEnv.Obj) (out : NLSOutputs ℝ) (calls : List (NLSIteration ℝ)) (it : NLSIteration ℝ)
    (a : boundedEnv.Obj) (q : QPOutputs ℝ),
    solve boundedEnv dp (fun _ => 2) (mkObj _) = .ok (o', out, calls) ∧ out.iterations[0]? = some it ∧
    After boundedEnv dp (fun _ => 2) (mkObj _) 0 a ∧ it.qpOutputs = .interiorPoint q ∧
    ∀ c ∈ boundedEnv.p.ineq, 0 < boundAt c a.vars := by
  obtain ⟨o', out, calls, h, hne⟩ := bounded_run dp nls_default_valid dp_penalty dp_iterations fun _ => 2
  obtain ⟨it, hit⟩ := first_of hne
  obtain ⟨hex, hfirst, -⟩ := C38_after boundedEnv dp _ _ o' out calls h
  obtain ⟨a, ha, -⟩ := hex 0 (by omega)
  obtain ⟨q, hq⟩ := (C45_which_solver boundedEnv dp _ _ o' out calls h it (List.mem_of_getElem? hit)).2 (by simp [boundedEnv, mkEnv])
  refine ⟨o', out, calls, it, a, q, h, hit, ha, hq, ?_⟩
  rw [hfirst a ha]
  intro c hc
  have hc' : c ∈ [(⟨0, 1, -1 / 2⟩ : Ineq ℝ), ⟨1, -1, 4⟩] := hc
  rcases List.mem_cons.mp hc' with rfl | hc'
  · norm_num [boundAt]
  · rcases List.mem_singleton.mp hc' with rfl; norm_num [boundAt]

/-- C69 (with inequality constraints): a run of the bounded problem. -/
example : ∃ t o' out calls, 0 < t ∧
    solve boundedEnv { dp with absoluteFirstDerivativeTol := t } (fun _ => 2) (mkObj _) = .ok (o', out, calls) ∧
    out.termination = .satisfiedFirstOrderTol ∧ ∀ c ∈ boundedEnv.p.ineq, 0 ≤ boundAt c o'.vars := by
  obtain ⟨t, o', out, calls, ht, h, hT, hv⟩ := exists_first_order boundedEnv dp (fun _ => 2) (mkObj _)
    (fun t ht => bounded_run _ (dp_tol t ht) dp_penalty dp_iterations _)
  refine ⟨t, o', out, calls, ht, h, hT, ?_⟩
  rw [hv]
  intro c hc
  have hc' : c ∈ [(⟨0, 1, -1 / 2⟩ : Ineq ℝ), ⟨1, -1, 4⟩] := hc
  rcases List.mem_cons.mp hc' with rfl | hc'
  · norm_num [boundAt]
  · rcases List.mem_singleton.mp hc' with rfl; norm_num [boundAt]

/-- C69 (equality constraints): a run of the curve problem. -/
example : ∃ t o' out calls, 0 < t ∧
    solve curveEnv { dp with absoluteFirstDerivativeTol := t } (fun _ => 2) (mkObj _) = .ok (o', out, calls) ∧
    out.termination = .satisfiedFirstOrderTol ∧ curveEnv.p.ineq = [] ∧ curveEnv.p.eqs ≠ [] ∧ NSContract curveEnv.NE := by
  obtain ⟨t, o', out, calls, ht, h, hT, hv⟩ := exists_first_order curveEnv dp (fun _ => 2) (mkObj _)
    (fun t ht => curve_run _ (dp_tol t ht) dp_penalty dp_iterations _)
  exact ⟨t, o', out, calls, ht, h, hT, rfl, by simp [curveEnv, mkEnv], exactNS_contract⟩

/-- C69 (no constraints): a run of the linear problem, whose Jacobian is injective. -/
example : ∃ t o' out calls, 0 < t ∧
    solve lineEnv { dp with absoluteFirstDerivativeTol := t } (fun _ => 2) (mkObj _) = .ok (o', out, calls) ∧
    out.termination = .satisfiedFirstOrderTol ∧
    ∀ dx : Fin 2 → ℝ, (∀ r ∈ lineEnv.p.costs, ∀ k, slopeAt r o'.vars dx k = 0) → dx = 0 := by
  obtain ⟨t, o', out, calls, ht, h, hT, hv⟩ := exists_first_order lineEnv dp (fun _ => 2) (mkObj _)
    (fun t ht => ip_run _ line_ok (by simp [lineEnv, mkEnv]) (fun c hc => by cases hc) _ (dp_tol t ht) dp_penalty dp_iterations _)
  refine ⟨t, o', out, calls, ht, h, hT, fun dx hdx => ?_⟩
  have e1 := hdx cost1 (by simp [lineEnv, mkEnv]) (0 : Fin 1)
  have e2 := hdx cost3 (by simp [lineEnv, mkEnv]) (0 : Fin 1)
  rw [cost1_slope] at e1
  have e3 : slopeAt cost3 o'.vars dx (0 : Fin 1) = dx 1 := by
    have : slopeAt cost3 o'.vars dx (0 : Fin 1) = ∑ j : Fin 2, jacAt cost3 o'.vars 2 (0 : Fin 1) j * dx j := rfl
    rw [this]
    unfold cost3
    rw [Fin.sum_univ_two, res2_jac, res2_jac]
    simp
  have e2' : dx 1 = 0 := e3.symm.trans e2
  funext i
  fin_cases i
  · exact e1
  · exact e2'

end MiniOpt.Props
