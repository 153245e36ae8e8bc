import Verif.Props.ConstrainedLS
import Verif.Props.FirstOrderExamples

/-!
# C98: concrete runs, and a full step that is refused

`tiltEnv`: costs `100 x₀ - 50.007` and `x₁ - 1`, equality constraint `x₀ = 0`.
-/

set_option autoImplicit false

namespace MiniOpt.Props

open MiniOpt.Spec MiniOpt.NLS MiniOpt.DemoReal

noncomputable def tiltCost : Residual ℝ := res2 (fun x _ => 100 * x - 50007 / 1000) (fun _ _ => 100) fun _ _ => 0
noncomputable def tiltEq : Residual ℝ := res2 (fun x _ => x) (fun _ _ => 1) fun _ _ => 0
noncomputable def tiltEnv : Env 2 2 ℝ := mkEnv ⟨[tiltCost, cost3], [], [tiltEq]⟩

theorem tiltCost_value (x : Fin 2 → ℝ) (k : Fin 1) : valueAt tiltCost x k = 100 * x 0 - 50007 / 1000 := res2_value _ _ _ x k
theorem tiltEq_value (x : Fin 2 → ℝ) (k : Fin 1) : valueAt tiltEq x k = x 0 := res2_value _ _ _ x k

theorem tiltCost_slope (x dx : Fin 2 → ℝ) (k : Fin 1) : slopeAt tiltCost x dx k = 100 * dx 0 := by
  have : slopeAt tiltCost x dx k = ∑ j : Fin 2, jacAt tiltCost x 2 k j * dx j := rfl
  rw [this]
  unfold tiltCost
  rw [Fin.sum_univ_two, res2_jac, res2_jac]
  simp

theorem tiltEq_lin (x dx : Fin 2 → ℝ) (k : Fin 1) : linAt tiltEq x dx k = x 0 + dx 0 := by
  have : linAt tiltEq x dx k = valueAt tiltEq x k + ∑ j : Fin 2, jacAt tiltEq x 2 k j * dx j := rfl
  rw [this]
  unfold tiltEq
  rw [Fin.sum_univ_two, res2_value, res2_jac, res2_jac]
  simp

theorem tilt_ok : WellPosed tiltEnv.p 2 := by
  refine mk_wellPosed _ ?_ ?_
  · intro r hr
    have hr' : r ∈ [tiltCost, cost3, tiltEq] := by simpa [tiltEnv, mkEnv] using hr
    rcases List.mem_cons.mp hr' with rfl | hr'
    · exact ⟨_, _, _, rfl⟩
    · rcases List.mem_cons.mp hr' with rfl | hr'
      · exact ⟨_, _, _, rfl⟩
      · rcases List.mem_singleton.mp hr' with rfl; exact ⟨_, _, _, rfl⟩
  · intro c hc
    have hc' : c ∈ ([] : List (Ineq ℝ)) := hc
    cases hc'

theorem tilt_affine : AffineCosts tiltEnv.p := by
  intro r hr x dx k
  have hr' : r ∈ [tiltCost, cost3] := hr
  rcases List.mem_cons.mp hr' with rfl | hr'
  · have e1 := tiltCost_value (fun i => x i + dx i) k
    have e2 : linAt tiltCost x dx k = valueAt tiltCost x k + slopeAt tiltCost x dx k := rfl
    rw [e2]
    refine e1.trans ?_
    have e3 := tiltCost_value x k
    have e4 := tiltCost_slope x dx k
    exact (by ring : 100 * (x 0 + dx 0) - 50007 / 1000 = (100 * x 0 - 50007 / 1000) + 100 * dx 0).trans
      (congrArg₂ (· + ·) e3.symm e4.symm)
  · rcases List.mem_singleton.mp hr' with rfl
    have e1 : valueAt cost3 (fun i => x i + dx i) k = (x 1 + dx 1) - 1 := res2_value _ _ _ (fun i => x i + dx i) (k : Fin 1)
    have e2 := cost3_lin x dx k
    rw [e1]
    exact (by linarith : x 1 + dx 1 - 1 = x 1 - 1 + dx 1).trans e2.symm

theorem tilt_affine_eqs : AffineEqs tiltEnv.p := by
  intro r hr x dx k
  have hr' : r ∈ [tiltEq] := hr
  rcases List.mem_singleton.mp hr' with rfl
  exact (tiltEq_value (fun i => x i + dx i) k).trans (tiltEq_lin x dx k).symm

theorem tilt_run (prm : NLSParams ℝ) (hprm : NLSParamsValid prm) (hpen : 0 < prm.equalityPenaltyInitial)
    (hk : 1 ≤ prm.maxIterations) (x0 : Fin 2 → ℝ) :
    ∃ o' out calls, solve tiltEnv prm x0 (mkObj _) = .ok (o', out, calls) ∧ out.iterations ≠ [] := by
  rcases C65_nls_exceptions tiltEnv tilt_ok (Or.inl rfl) (fun c hc => by cases hc) prm hprm hpen x0 (mkObj _) with
    ⟨⟨o', out, calls⟩, h⟩ | ⟨e, h, ht⟩
  · refine ⟨o', out, calls, h, run_nonempty hk h fun hq => ?_⟩
    have := C46_termination tiltEnv prm x0 _ o' out calls h
    rw [hq] at this
    obtain ⟨_, _, _, lam, qp, qp0, pre, s, s', hl, hn⟩ := this
    obtain ⟨-, -, -, -, -, f6⟩ := linearize_facts tilt_ok hl
    have hnot := (C28_not_posdef_truthful exactNS exactNS_contract _ s _ hn).1.mp rfl
    apply hnot
    intro d hd _
    have e : ∑ i, ∑ j, d i * Gsym (⟨qp.G, qp.c, qp.A, qp.b, Fin.elim0⟩ : QP 2 0 tiltEnv.p.K ℝ) i j * d j
        = ∑ i, ∑ j, d i * qp.G (max i j) (min i j) * d j := rfl
    rw [e, f6]
    have hJ : (tiltEnv.p.costs.map fun r => ∑ k, slopeAt r o'.vars d k ^ 2).sum = (100 * d 0) ^ 2 + d 1 ^ 2 := by
      have : (tiltEnv.p.costs.map fun r => ∑ k, slopeAt r o'.vars d k ^ 2).sum
          = (∑ k : Fin 1, slopeAt tiltCost o'.vars d k ^ 2) + ((∑ k : Fin 1, slopeAt cost3 o'.vars d k ^ 2) + 0) := rfl
      rw [this, Fin.sum_univ_one, Fin.sum_univ_one, tiltCost_slope, cost3_slope, add_zero]
    rw [hJ]
    have h0 : 0 ≤ max lam 0 * ∑ i, d i ^ 2 :=
      mul_nonneg (le_max_right _ _) (Finset.sum_nonneg fun i _ => sq_nonneg _)
    have h1 : 0 < (100 * d 0) ^ 2 + d 1 ^ 2 := by
      by_contra hc
      apply hd
      have e0 : d 0 = 0 := by nlinarith [sq_nonneg (d 0), sq_nonneg (d 1)]
      have e1 : d 1 = 0 := by nlinarith [sq_nonneg (d 0), sq_nonneg (d 1)]
      funext i; fin_cases i <;> assumption
    linarith
  · exfalso
    rcases ht with ⟨h1, _⟩ | ⟨_, h2, _⟩ | ⟨_, _, _, hA, hR⟩ | ⟨_, hu'⟩
    rotate_right
    · exact mkEnv_quiet (by never_throws) hu'
    · exact h1 ⟨rfl, by simp [tiltEnv, mkEnv]⟩
    · revert h2; decide
    · apply hR exactNS_contract.qr
      intro y hy
      have hrow : ∀ dx : Fin 2 → ℝ, (∑ j, e.2.qp.A ⟨0, by decide⟩ j * dx j) + e.2.qp.b ⟨0, by decide⟩
          = e.2.vars 0 + dx 0 := by
        intro dx
        have := hA dx
        have h0 := congrArg List.head? this
        have hl : stackedModel e.2.vars dx tiltEnv.p.eqs = [linAt tiltEq e.2.vars dx (0 : Fin 1)] := by
          show List.ofFn _ ++ [] = _
          rw [List.append_nil]
          rfl
        rw [hl, tiltEq_lin] at h0
        have h1 := Option.some.inj h0
        exact h1
      have h00 := hrow fun _ => 0
      have h10 := hrow fun j => if j = 0 then 1 else 0
      rw [Fin.sum_univ_two] at h00 h10
      simp only [mul_zero, add_zero, zero_add, if_true, mul_one, one_ne_zero, if_false] at h00 h10
      have hA0 : e.2.qp.A ⟨0, by decide⟩ 0 = 1 := by
        have : e.2.qp.A ⟨0, by decide⟩ 0 + e.2.qp.b ⟨0, by decide⟩ = e.2.vars 0 + 1 := h10
        have h00' : e.2.qp.b ⟨0, by decide⟩ = e.2.vars 0 := h00
        linarith
      have hy0 : ∑ k : Fin 1, e.2.qp.A k 0 * y k = 0 := hy 0
      rw [Fin.sum_univ_one] at hy0
      have hA0' : e.2.qp.A (0 : Fin 1) 0 = 1 := hA0
      rw [hA0', one_mul] at hy0
      funext k
      have : k = (0 : Fin 1) := Subsingleton.elim (α := Fin 1) k 0
      rw [this]; exact hy0

theorem tilt_cost (x : Fin 2 → ℝ) :
    costAt tiltEnv.p x = 1 / 2 * (100 * x 0 - 50007 / 1000) ^ 2 + 1 / 2 * (x 1 - 1) ^ 2 := by
  rw [costAt_real]
  have : (tiltEnv.p.costs.map fun r => (1 / 2) * ∑ k, valueAt r x k ^ 2).sum
      = (1 / 2) * (∑ k : Fin 1, valueAt tiltCost x k ^ 2) + ((1 / 2) * (∑ k : Fin 1, valueAt cost3 x k ^ 2) + 0) := rfl
  rw [this, Fin.sum_univ_one, Fin.sum_univ_one, tiltCost_value, add_zero]
  have e : valueAt cost3 x (0 : Fin 1) = x 1 - 1 := res2_value _ _ _ x (0 : Fin 1)
  exact congrArg (fun v : ℝ => 1 / 2 * (100 * x 0 - 50007 / 1000) ^ 2 + 1 / 2 * v ^ 2) e

theorem tilt_violation (x : Fin 2 → ℝ) : violationAt tiltEnv.p x = |x 0| := by
  rw [violationAt_real]
  have : (tiltEnv.p.eqs.map fun r => ∑ k, |valueAt r x k|).sum = (∑ k : Fin 1, |valueAt tiltEq x k|) + 0 := rfl
  rw [this, Fin.sum_univ_one, add_zero]
  exact congrArg (fun v : ℝ => |v|) (tiltEq_value x (0 : Fin 1))

theorem tilt_best {best : Fin 2 → ℝ} (h : BestFeasible tiltEnv.p best) : best 0 = 0 ∧ best 1 = 1 := by
  have h0 : best 0 = 0 := by
    have := h.1 tiltEq (by simp [tiltEnv, mkEnv]) (0 : Fin 1)
    exact (tiltEq_value best (0 : Fin 1)).symm.trans this
  refine ⟨h0, ?_⟩
  by_contra hne
  have hs : SatisfiesEqs tiltEnv.p (fun i => if i = 0 then 0 else 1) := by
    rw [← satisfies_violation, tilt_violation]; simp
  have := h.2 _ hs (fun hc => hne (by rw [← hc]; simp))
  rw [tilt_cost, tilt_cost, h0] at this
  simp only [if_true, one_ne_zero, if_false] at this
  nlinarith [sq_nonneg (best 1 - 1)]

/-- The penalty wanted after a null-space step. -/
theorem select_penalty_free {M K : Nat} (q : QPData 2 M K ℝ) (dx : Fin 2 → ℝ) (rho : ℝ) :
    selectPenalty q dx none rho = ((∑ i, q.c i * dx i) + 1 / 2 * max 0 (∑ i, ∑ j, dx i * q.G (max i j) (min i j) * dx j))
      / ((1 - rho) * max (∑ k, |q.b k|) (1 / 2 ^ 52)) := by
  simp only [selectPenalty, real_cmax, real_lpNorm1, epsilon, real_lit, Residual.half]
  have hquad : dot dx (matVec (symLower q.G) dx) = ∑ i, ∑ j, dx i * q.G (max i j) (min i j) * dx j := by
    rw [real_dot]
    refine Finset.sum_congr rfl fun i _ => ?_
    rw [real_matVec, Finset.mul_sum]
    refine Finset.sum_congr rfl fun j _ => ?_
    have : symLower q.G i j = q.G (max i j) (min i j) := by
      unfold symLower
      split_ifs with hij
      · rw [max_eq_left hij, min_eq_right hij]
      · rw [max_eq_right (not_le.mp hij).le, min_eq_left (not_le.mp hij).le]
    rw [this]; ring
  rw [hquad, real_dot]
  push_cast
  rfl

/-- **C98** (a refused full step). With the default parameters a full step can be refused although costs and constraints
are linear: from `(1, 1)` the first iteration needs two trials, and its accepted step goes just over half of the way. -/
theorem C98_full_step_refused : ∃ o' out calls, solve tiltEnv dp (fun _ => 1) (mkObj _) = .ok (o', out, calls) ∧
    ∃ it, out.iterations[0]? = some it ∧ it.stepResult = .success ∧ it.lineSearchSteps.length = 2 ∧
    ∃ b, After tiltEnv dp (fun _ => 1) (mkObj _) 1 b ∧ 1 / 4 ≤ violationAt tiltEnv.p b.vars := by
  obtain ⟨o', out, calls, h, hne⟩ := tilt_run dp nls_default_valid dp_penalty dp_iterations fun _ => 1
  obtain ⟨it, hit⟩ := first_of hne
  obtain ⟨hex, hfirst, -⟩ := C38_after tiltEnv dp _ _ o' out calls h
  obtain ⟨a, ha, -⟩ := hex 0 (by omega)
  obtain ⟨b, hb, -⟩ := hex 1 (by have := List.length_pos_iff.mpr hne; omega)
  have hmem := List.mem_of_getElem? hit
  have hav := hfirst a ha
  have hlam : it.lambda ≤ 0 := by
    rw [(C43_state_machine tiltEnv dp _ _ o' out calls h).1 it hit]; exact le_rfl
  have he : tiltEnv.p.eqs ≠ [] := by simp [tiltEnv, mkEnv]
  have hva : violationAt tiltEnv.p a.vars = 1 := by rw [hav, tilt_violation]; simp
  have hv : violationAt tiltEnv.p a.vars = 0 ∨ 1 / 2 ^ 52 ≤ violationAt tiltEnv.p a.vars := by
    right; rw [hva]; norm_num
  obtain ⟨L, -⟩ := linear_step tiltEnv exactNS_contract tilt_ok tilt_affine tilt_affine_eqs rfl he dp _ _ o' out calls h 0 it
    hit hlam a b ha hb
  obtain ⟨hb0, hb1⟩ := tilt_best L.best
  rw [hav] at hb0 hb1
  have d0 : b.dx 0 = -1 := by have : (1 : ℝ) + b.dx 0 = 0 := hb0; linarith
  have d1 : b.dx 1 = 0 := by have : (1 : ℝ) + b.dx 1 = 1 := hb1; linarith
  have hQ : curvature tiltEnv.p a.vars it.lambda b.dx = 10000 := by
    have : curvature tiltEnv.p a.vars it.lambda b.dx
        = ((∑ k : Fin 1, slopeAt tiltCost a.vars b.dx k ^ 2) + ((∑ k : Fin 1, slopeAt cost3 a.vars b.dx k ^ 2) + 0))
          + max it.lambda 0 * ∑ i, b.dx i ^ 2 := rfl
    rw [this, Fin.sum_univ_one, Fin.sum_univ_one, tiltCost_slope, cost3_slope, max_eq_right hlam, d0, d1]
    norm_num
  have hdF : it.directionalDerivatives.dF = - 49993 / 10 := by
    have e := L.line 1
    simp only [one_mul] at e
    rw [tilt_cost, tilt_cost, hQ, hav, d0, d1] at e
    norm_num at e
    linarith
  have hpen : it.penalty = 1 := by
    obtain ⟨e, -⟩ := C44_penalty_update tiltEnv dp _ _ o' out calls h 0 it hit b hb
    have hns := (C45_which_solver tiltEnv dp _ _ o' out calls h it hmem).1 ⟨rfl, he⟩
    obtain ⟨h1, h2, -⟩ := C38_direction tiltEnv dp _ _ o' out calls h 0 it hit a b ha hb
    obtain ⟨f1, f2, f3, f4, f5, f6⟩ := linearize_facts tilt_ok h1
    have hw := select_penalty_free b.qp b.dx dp.equalityPenaltyRho
    have hcd := (costDerivative_real b.qp b.dx).1
    rw [← h2, hdF] at hcd
    have hcurv : (∑ i, ∑ j, b.dx i * b.qp.G (max i j) (min i j) * b.dx j) = 10000 := (f6 _).trans hQ
    rw [← hcd, hcurv, sum_abs_b f3 f4, hva] at hw
    have hρ : dp.equalityPenaltyRho = 1 / 10 := by
      show (Scalar.lit _ : ℝ) = _
      simp
    rw [hρ] at hw
    simp only [if_true] at e
    have hm : multipliers it.qpOutputs = none := by rw [hns]; rfl
    rw [hm, hρ, hw] at e
    rw [e, if_neg]
    · rfl
    · rintro ⟨-, hlt⟩
      have hlt' : (1 : ℝ) < _ := hlt
      have hm1 : max (1 : ℝ) (1 / 2 ^ 52) = 1 := max_eq_left (by norm_num)
      rw [hm1] at hlt'
      norm_num at hlt'
  obtain ⟨hD, -, htr, -, hdE⟩ := linear_trial tiltEnv exactNS_contract rfl tilt_ok tilt_affine tilt_affine_eqs rfl he dp _ _ o' out
    calls h 0 it hit hlam a b ha hb hv
  obtain ⟨hlen2, hcase⟩ := C98_progress tiltEnv exactNS_contract rfl tilt_ok tilt_affine tilt_affine_eqs rfl he dp
    (show (1 : Int) ≤ 2 by norm_num) (fun hc => by cases hc) _ _ o' out calls h 0 it hit hlam a b ha hb hv
  obtain ⟨hlen, -, hfirst1, -⟩ := C40_alphas_any tiltEnv dp _ _ o' out calls h it hmem
  obtain ⟨-, hsucc⟩ := C40_only_last_accepted tiltEnv dp _ _ o' out calls h it hmem
  have hD0 : it.directionalDerivatives.total it.penalty = - 50003 / 10 := by
    unfold DirectionalDerivatives.total
    rw [hdE, hdF, hpen, hva]; norm_num
  have hs : it.stepResult = .success := by
    rcases hcase with ⟨hs, -⟩ | ⟨-, -, hlt⟩
    · exact hs
    · exfalso
      have ht : dp.absoluteFirstDerivativeTol = 1 / 10 ^ 6 := by
        show (Scalar.lit _ : ℝ) = _
        simp
      rw [hva, ht] at hlt
      norm_num at hlt
  have hl2 : it.lineSearchSteps.length = 2 := by
    by_contra hc
    have hl1 : it.lineSearchSteps.length = 1 := by omega
    obtain ⟨st, hst, -, -, -, harm⟩ := hsucc.mp hs
    have hm := List.mem_of_getLast? hst
    rw [List.getLast?_eq_getElem?, hl1] at hst
    have hα := hfirst1 st hst
    have hc1 : (armijoC1 : ℝ) = 1 / 10 ^ 4 := by unfold armijoC1; simp
    rw [htr st hm, hα, hQ, hD0, hc1] at harm
    linarith
  refine ⟨o', out, calls, h, it, hit, hs, hl2, b, hb, ?_⟩
  obtain ⟨best, hbest, htrial, hm1, -⟩ := C98_iteration tiltEnv exactNS_contract rfl tilt_ok tilt_affine tilt_affine_eqs rfl he dp _ _
    o' out calls h 0 it hit hlam a b ha hb
  obtain ⟨st, hst, hbv⟩ := hm1 hs
  have hlt : st.alpha < 51 / 100 := by
    rw [List.getLast?_eq_getElem?, hl2] at hst
    obtain ⟨st0, hst0⟩ : ∃ st0, it.lineSearchSteps[0]? = some st0 := ⟨_, List.getElem?_eq_getElem hlen⟩
    have := ((C42_never_fails tiltEnv dp _ _ o' out calls h rfl it hmem (by rw [hD0]; norm_num)).2 0 st0 st hst0 hst).1
    rw [hfirst1 st0 hst0] at this
    linarith
  rw [hbv, between_violation tilt_affine_eqs hbest.1 _ (by linarith), hva]
  linarith

/-- C98: a run of the linear problem with a linear equality constraint meets the hypotheses. -/
example : ∃ o' out calls, solve tiltEnv dp (fun _ => 1) (mkObj _) = .ok (o', out, calls) ∧ out.iterations ≠ [] ∧
    NSContract tiltEnv.NE ∧ tiltEnv.retraction = none ∧ WellPosed tiltEnv.p 2 ∧ AffineCosts tiltEnv.p ∧ AffineEqs tiltEnv.p ∧
    tiltEnv.p.ineq = [] ∧ tiltEnv.p.eqs ≠ [] ∧ 1 ≤ dp.maxLineSearchIterations ∧ dp.lambdaInitial ≤ 0 ∧
    dp.lineSearchStrategy = .polynomialApproximation ∧ 1 / 2 ^ 52 ≤ violationAt tiltEnv.p (fun _ : Fin 2 => (1 : ℝ)) := by
  obtain ⟨o', out, calls, h, hne⟩ := tilt_run dp nls_default_valid dp_penalty dp_iterations fun _ => 1
  refine ⟨o', out, calls, h, hne, exactNS_contract, rfl, tilt_ok, tilt_affine, tilt_affine_eqs, rfl, by simp [tiltEnv, mkEnv],
    show (1 : Int) ≤ 2 by norm_num, le_refl (0 : ℝ), rfl, ?_⟩
  rw [tilt_violation]; norm_num

/-- C98 (feasible start): a run from a point that satisfies the constraint but is not the best such point. -/
example : ∃ o' out calls, solve tiltEnv dp (fun i => if i = 0 then 0 else 5) (mkObj _) = .ok (o', out, calls) ∧
    out.iterations ≠ [] ∧ SatisfiesEqs tiltEnv.p (fun i => if i = 0 then 0 else 5) ∧
    ¬ BestFeasible tiltEnv.p (fun i => if i = 0 then 0 else 5) := by
  obtain ⟨o', out, calls, h, hne⟩ := tilt_run dp nls_default_valid dp_penalty dp_iterations fun i => if i = 0 then 0 else 5
  refine ⟨o', out, calls, h, hne, ?_, fun hb => ?_⟩
  · rw [← satisfies_violation, tilt_violation]; simp
  · have := (tilt_best hb).2
    norm_num at this

end MiniOpt.Props
