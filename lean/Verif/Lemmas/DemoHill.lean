import Verif.Props.NLSUnconstrained

/-!
# A problem whose line search is forced to interpolate twice (exact arithmetic)

Used only in `example`s.  One cost jumps from 1 to 2 as soon as `x₀` leaves 0, while its Jacobian promises a decrease, so
every step is rejected: the line search logs three steps, the second from the quadratic and the third from the cubic
interpolation.
-/

set_option autoImplicit false

namespace MiniOpt.DemoReal

open MiniOpt MiniOpt.Spec MiniOpt.NLS MiniOpt.Props

open Classical in
/-- 1 at `x₀ = 0`, 2 elsewhere, with the (wrong) gradient `(-1, 0)`. -/
noncomputable def hill : Residual ℝ := res2 (fun x _ => if x = 0 then 1 else 2) (fun _ _ => -1) fun _ _ => 0

noncomputable def hillEnv : Env 2 2 ℝ := mkEnv ⟨[hill, cost3], [], []⟩

/-- The start vector. -/
def hillStart : Fin 2 → ℝ := fun i => if i = 0 then 0 else 1

theorem hill_ok : WellPosed hillEnv.p 2 := by
  refine mk_wellPosed _ ?_ ?_
  · intro r hr
    have hr' : r ∈ [hill, cost3] := by simpa [hillEnv, mkEnv] using hr
    rcases List.mem_cons.mp hr' with rfl | hr'
    · exact ⟨_, _, _, rfl⟩
    · rcases List.mem_singleton.mp hr' with rfl; exact ⟨_, _, _, rfl⟩
  · intro c hc
    have hc' : c ∈ ([] : List (Ineq ℝ)) := hc
    cases hc'

theorem hill_lin (x dx : Fin 2 → ℝ) (k : Fin 1) : linAt hill x dx k = valueAt hill x k - dx 0 := by
  have : linAt hill x dx k = valueAt hill x k + ∑ j : Fin 2, jacAt hill x 2 k j * dx j := rfl
  rw [this]
  unfold hill
  rw [Fin.sum_univ_two, res2_jac, res2_jac]
  simp
  ring

theorem cost3_lin (x dx : Fin 2 → ℝ) (k : Fin 1) : linAt cost3 x dx k = x 1 - 1 + dx 1 := by
  have : linAt cost3 x dx k = valueAt cost3 x k + ∑ j : Fin 2, jacAt cost3 x 2 k j * dx j := rfl
  rw [this]
  unfold cost3
  rw [Fin.sum_univ_two, res2_jac, res2_jac, res2_value]
  simp

theorem hill_slope (x dx : Fin 2 → ℝ) (k : Fin 1) : slopeAt hill x dx k = - dx 0 := by
  have : slopeAt hill x dx k = ∑ j : Fin 2, jacAt hill x 2 k j * dx j := rfl
  rw [this]
  unfold hill
  rw [Fin.sum_univ_two, res2_jac, res2_jac]
  simp

theorem cost3_slope (x dx : Fin 2 → ℝ) (k : Fin 1) : slopeAt cost3 x dx k = dx 1 := by
  have : slopeAt cost3 x dx k = ∑ j : Fin 2, jacAt cost3 x 2 k j * dx j := rfl
  rw [this]
  unfold cost3
  rw [Fin.sum_univ_two, res2_jac, res2_jac]
  simp

theorem hill_costs (g : (r : Residual ℝ) → Fin r.dim → ℝ) :
    (hillEnv.p.costs.map fun r => ∑ k, g r k).sum = g hill (0 : Fin 1) + g cost3 (0 : Fin 1) := by
  have e (u v : Fin 1 → ℝ) : (∑ k, u k) + ((∑ k, v k) + 0) = u 0 + v 0 := by simp
  exact e (g hill) (g cost3)

theorem hill_costs' (g : (r : Residual ℝ) → Fin r.dim → ℝ) :
    (hillEnv.p.costs.map fun r => (1 / 2) * ∑ k, g r k).sum = (1 / 2) * g hill (0 : Fin 1) + (1 / 2) * g cost3 (0 : Fin 1) := by
  have e (u v : Fin 1 → ℝ) : (1 / 2) * (∑ k, u k) + ((1 / 2) * (∑ k, v k) + 0) = (1 / 2) * u 0 + (1 / 2) * v 0 := by simp
  exact e (g hill) (g cost3)

theorem hill_cost (x : Fin 2 → ℝ) :
    costAt hillEnv.p x = (1 / 2) * (if x 0 = 0 then 1 else 2) ^ 2 + (1 / 2) * (x 1 - 1) ^ 2 := by
  classical
  rw [costAt_real, hill_costs' fun r k => valueAt r x k ^ 2]
  unfold hill cost3
  rw [res2_value, res2_value]

/-- The first iteration logs three line search steps. -/
theorem hill_run : ∃ (o' : hillEnv.Obj) (out : NLSOutputs ℝ) (calls : List (NLSIteration ℝ)) (it : NLSIteration ℝ),
    solve hillEnv NLSParams.default hillStart (mkObj _) = .ok (o', out, calls) ∧
    out.iterations[0]? = some it ∧ it.directionalDerivatives.total it.penalty = -1 ∧
    it.stepResult = .maxIterations ∧ it.lineSearchSteps.length = 3 := by
  obtain ⟨o', out, calls, h, hne⟩ := ip_run _ hill_ok (by simp [hillEnv, mkEnv]) (fun c hc => by cases hc)
    (NLSParams.default : NLSParams ℝ) nls_default_valid (by simp [NLSParams.default]) (by simp [NLSParams.default]) hillStart
  have hlen : 0 < out.iterations.length := List.length_pos_iff.mpr hne
  obtain ⟨it, hit⟩ : ∃ it, out.iterations[0]? = some it := ⟨_, List.getElem?_eq_getElem hlen⟩
  obtain ⟨hex, hfirst, -⟩ := C38_after hillEnv _ _ _ o' out calls h
  obtain ⟨a, ha, -⟩ := hex 0 (by omega)
  obtain ⟨b, hb, -⟩ := hex 1 (by omega)
  have hav : a.vars = hillStart := hfirst a ha
  have hlam : it.lambda = 0 := (C43_state_machine hillEnv _ _ _ o' out calls h).1 it hit
  obtain ⟨c1, c2, c3, -, c5⟩ := C67_levenberg_marquardt hillEnv exactEigen_contract hill_ok rfl rfl _ _ _ o' out calls h 0 it hit a b ha hb
    (Or.inr (by
      intro dx hdx
      have h0 : slopeAt hill a.vars dx (0 : Fin 1) = 0 := hdx hill (by simp [hillEnv, mkEnv]) (0 : Fin 1)
      have h1 : slopeAt cost3 a.vars dx (0 : Fin 1) = 0 := hdx cost3 (by simp [hillEnv, mkEnv]) (0 : Fin 1)
      rw [hill_slope] at h0
      rw [cost3_slope] at h1
      funext i
      fin_cases i
      · show dx 0 = 0; linarith
      · exact h1))
  have hmem := List.mem_of_getElem? hit
  have hval : ∀ k : Fin 1, valueAt hill hillStart k = 1 := by
    intro k
    unfold hill
    rw [res2_value]
    simp [hillStart]
  have hdx : b.dx = fun i => if i = 0 then 1 else 0 := by
    by_contra hc
    have := c1 (fun i => if i = 0 then 1 else 0) (fun e => hc e.symm)
    unfold dampedModel at this
    rw [hill_costs' fun r k => linAt r a.vars _ k ^ 2, hill_costs' fun r k => linAt r a.vars _ k ^ 2, hlam] at this
    simp only [hill_lin, cost3_lin, hval, hav, hillStart, max_self, zero_div, zero_mul] at this
    norm_num at this
    nlinarith [sq_nonneg (1 - b.dx 0), sq_nonneg (b.dx 1)]
  have htot : ∀ pen, it.directionalDerivatives.total pen = -1 := by
    intro pen
    rw [c2, hill_costs fun r k => slopeAt r a.vars _ k ^ 2, hlam]
    simp only [hill_slope, cost3_slope, hdx]
    norm_num
  have hdF : it.directionalDerivatives.dF = -1 := by
    have := htot 0
    unfold DirectionalDerivatives.total at this
    linarith
  have hdE : it.directionalDerivatives.dEquality = 0 := by
    have := htot 1
    unfold DirectionalDerivatives.total at this
    linarith
  have hsmall : ¬ it.directionalDerivatives.lInfinity < (NLSParams.default : NLSParams ℝ).absoluteFirstDerivativeTol := by
    unfold DirectionalDerivatives.lInfinity
    rw [hdF, hdE]
    simp only [NLSParams.default, real_cmax, real_abs, real_lit]
    norm_num
  have hpre : it.errorsInitial.total it.penalty = 1 / 2 := by
    obtain ⟨h1, -⟩ := C38_direction hillEnv _ _ _ o' out calls h 0 it hit a b ha hb
    rw [(linearize_facts hill_ok h1).1]
    unfold Errors.total errorsAt
    rw [hill_cost, hav]
    have : violationAt hillEnv.p hillStart = 0 := rfl
    rw [this]
    simp [hillStart]
  have hpos := (C40_alphas hillEnv _ _ _ o' out calls h it hmem).2.2.1
  obtain ⟨S, T, W, hv⟩ := solve_view h
  obtain ⟨hlt, hinfo, hpass⟩ := view_info hv hit
  obtain ⟨htr, hout, -⟩ := lsLoop_start _ _ _ _ _ _ _ _ _ _ _ _ hpass.ls
  have hsteps : it.lineSearchSteps = (W 0).steps := by rw [hinfo]; exact hpass.isteps
  have hax : (S 0).obj = a := ((hv.after 0 (by omega) a).mp ha).symm
  have hbx : (S 1).obj = b := ((hv.after 1 (by omega) b).mp hb).symm
  have herr : ∀ st ∈ it.lineSearchSteps, st.errors.total it.penalty = 2 := by
    intro st hst
    obtain ⟨c, hc1, hc2⟩ := htr.entry st (by rw [← hsteps]; exact hst)
    rw [← hpass.dx, hax, hbx] at hc1
    have hmv := retract_moves hc1
    obtain ⟨_, hc⟩ : ∃ _ : 2 = 2, c = fun i => a.vars i + b.dx i * st.alpha := hmv
    rw [((evalErrors_ok_iff _ _ _).mp hc2).2]
    show costAt hillEnv.p c + it.penalty * violationAt hillEnv.p c = 2
    have : violationAt hillEnv.p c = 0 := rfl
    rw [this, hill_cost, hc, hav, hdx]
    have hne : st.alpha ≠ 0 := (hpos st hst).1.ne'
    simp [hillStart, hne]
    norm_num
  have hnoArm : ∀ st ∈ it.lineSearchSteps, ¬ (st.errors.total it.penalty ≤ it.errorsInitial.total it.penalty
      + it.directionalDerivatives.total it.penalty * st.alpha * armijoC1) := by
    intro st hst hle
    rw [herr st hst, hpre, htot] at hle
    unfold armijoC1 at hle
    rw [real_lit] at hle
    push_cast at hle
    have := (hpos st hst).1
    linarith
  have hres : it.stepResult = (W 0).res := by rw [hinfo]; exact hpass.ires
  have hd' : costDerivative (W 0).qp (W 0).dx = it.directionalDerivatives := by rw [hinfo]; exact hpass.ideriv.symm
  have hf := hout.facts
  rw [hd'] at hf
  have hsucc := (C40_only_last_accepted hillEnv _ _ _ o' out calls h it hmem).2
  refine ⟨o', out, calls, it, h, hit, htot _, ?_⟩
  cases hr : (W 0).res with
  | success =>
    obtain ⟨st, hst, _, _, _, harm⟩ := hsucc.mp (hres.trans hr)
    exact absurd harm (hnoArm st (List.mem_of_getLast? hst))
  | firstOrderSatisfied =>
    obtain ⟨_, _, _, hlt⟩ := hf.firstOrder hr
    exact absurd hlt hsmall
  | positiveDerivative => exact absurd (hres.trans hr) c5
  | failureNonFiniteCost =>
    obtain ⟨_, _, hn⟩ := hf.nonFinite hr
    exact absurd hn (real_valid _)
  | maxIterations =>
    refine ⟨hres.trans hr, ?_⟩
    rw [hsteps, (hf.maxIter hr).1]
    rfl
  | failureInvalidAlpha =>
    exfalso
    exact (C42_never_fails hillEnv _ _ _ o' out calls h rfl it hmem (by rw [htot]; norm_num)).1 (hres.trans hr)

end MiniOpt.DemoReal
