import Verif.Props.Units
import Verif.Props.ConstrainedLSExamples
import Verif.Props.EndToEndExamples

/-!
# Changing units with an equality constraint: an example
-/

set_option autoImplicit false

namespace MiniOpt.Props

open MiniOpt.Spec MiniOpt.NLS MiniOpt.DemoReal

variable {n D : Nat}

/-- **C46** (absolute tolerance, exact arithmetic). After `SATISFIED_ABSOLUTE_TOL` the cost and the sum of the absolute
equality residuals at the returned point are below `absolute_exit_tol`. -/
theorem C46_absolute_exit (env : Env n D ℝ) (hp : ConsistentP env.p) (prm : NLSParams ℝ)
    (x0 : Fin n → ℝ) (o o' : env.Obj) (out : NLSOutputs ℝ) (calls : List (NLSIteration ℝ))
    (h : solve env prm x0 o = .ok (o', out, calls)) (hT : out.termination = .satisfiedAbsoluteTol) :
    costAt env.p o'.vars < prm.absoluteExitTol ∧ violationAt env.p o'.vars < prm.absoluteExitTol := by
  have hC := C46_termination env prm x0 o o' out calls h
  rw [hT] at hC
  obtain ⟨it, hlast, hs, st, hst, hlt⟩ := hC
  have hne : out.iterations ≠ [] := fun e => by rw [e] at hlast; cases hlast
  have hlen := List.length_pos_iff.mpr hne
  obtain ⟨hex, -, hfinal⟩ := C38_after env prm x0 o o' out calls h
  obtain ⟨a, ha, -⟩ := hex (out.iterations.length - 1) (by omega)
  obtain ⟨b, hb, -⟩ := hex out.iterations.length le_rfl
  have hidx : out.iterations[out.iterations.length - 1]? = some it := by rw [← List.getLast?_eq_getElem?]; exact hlast
  have hb' : After env prm x0 o (out.iterations.length - 1 + 1) b := by rw [Nat.sub_add_cancel hlen]; exact hb
  obtain ⟨-, -, h3⟩ := C39_logged_errors env hp prm x0 o o' out calls h _ it hidx a b ha hb'
  obtain ⟨st', hst', he⟩ := h3 hs
  rw [hst] at hst'
  cases hst'
  rw [he, hfinal b hb] at hlt
  unfold Errors.lInfinity at hlt
  rw [real_cmax] at hlt
  exact max_lt_iff.mp hlt

/-- Two costs and one equality constraint; no point has both a small cost and a small violation. -/
noncomputable def tiltP : Problem 2 ℝ := ⟨[tiltCost, cost3], [], [tiltEq]⟩

/-- The same problem with the cost residuals multiplied by 3. -/
noncomputable def tilt3P : Problem 2 ℝ := ⟨[multiplied 3 tiltCost, multiplied 3 cost3], [], [tiltEq]⟩

theorem tilt3_ok : WellPosed tilt3P 2 := multiplied_wellPosed tilt_ok 3

theorem tilt_full (x : Fin 2 → ℝ) (t : Fin 1 → ℝ) : ∃ dx : Fin 2 → ℝ, stackedModel x dx [tiltEq] = List.ofFn t := by
  refine ⟨fun _ => t 0 - x 0, ?_⟩
  have hl : stackedModel x (fun _ : Fin 2 => t 0 - x 0) [tiltEq] = [linAt tiltEq x (fun _ : Fin 2 => t 0 - x 0) (0 : Fin 1)] := by
    show List.ofFn _ ++ [] = _
    rw [List.append_nil]
    rfl
  rw [hl, tiltEq_lin]
  simp

/-- No exit on absolute tolerances: the first-derivative tolerance is zero. -/
noncomputable def strictPrm : NLSParams ℝ := { NLSParams.default with absoluteFirstDerivativeTol := 0 }

theorem strictPrm_valid : NLSParamsValid strictPrm := by
  constructor <;> simp only [strictPrm, NLSParams.default, real_lit] <;> norm_num

theorem strict3_valid : NLSParamsValid (paramsInUnits (3 ^ 2) (3 ^ 2) strictPrm) := by
  constructor <;> simp only [paramsInUnits, strictPrm, NLSParams.default, real_lit] <;> norm_num

theorem deriv_nonneg (d : DirectionalDerivatives ℝ) : 0 ≤ d.lInfinity := by
  unfold DirectionalDerivatives.lInfinity
  rw [real_cmax]
  exact le_max_of_le_left (abs_nonneg d.dF)

theorem tilt3_cost (x : Fin 2 → ℝ) : costAt tilt3P x = 9 * costAt tiltP x := by
  rw [costAt_real, costAt_real]
  have e1 : (tilt3P.costs.map fun r => (1 / 2) * ∑ k, valueAt r x k ^ 2).sum
      = (1 / 2) * (∑ k : Fin 1, (3 * valueAt tiltCost x k) ^ 2) + ((1 / 2) * (∑ k : Fin 1, (3 * valueAt cost3 x k) ^ 2) + 0) := rfl
  have e2 : (tiltP.costs.map fun r => (1 / 2) * ∑ k, valueAt r x k ^ 2).sum
      = (1 / 2) * (∑ k : Fin 1, valueAt tiltCost x k ^ 2) + ((1 / 2) * (∑ k : Fin 1, valueAt cost3 x k ^ 2) + 0) := rfl
  rw [e1, e2, Fin.sum_univ_one, Fin.sum_univ_one, Fin.sum_univ_one, Fin.sum_univ_one]
  ring

/-- Neither tolerance ends a solve of `p` when cost and violation are never both small. -/
theorem no_absolute_exit (env : Env 2 2 ℝ) (hp : WellPosed env.p 2) (prm : NLSParams ℝ) (h0 : prm.absoluteFirstDerivativeTol ≤ 0)
    (hbig : ∀ x : Fin 2 → ℝ, ¬ (costAt env.p x < prm.absoluteExitTol ∧ violationAt env.p x < prm.absoluteExitTol))
    (x0 : Fin 2 → ℝ) (o o' : env.Obj) (out : NLSOutputs ℝ) (calls : List (NLSIteration ℝ))
    (h : solve env prm x0 o = .ok (o', out, calls)) (t : NLSTermination)
    (ht : t ∈ [NLSTermination.satisfiedAbsoluteTol, .satisfiedFirstOrderTol]) : out.termination ≠ t := by
  intro hT
  rcases List.mem_cons.mp ht with rfl | ht
  · exact hbig _ (C46_absolute_exit env hp.consistent prm x0 o o' out calls h hT)
  · rcases List.mem_singleton.mp ht with rfl
    have hC := C46_termination env prm x0 o o' out calls h
    rw [hT] at hC
    obtain ⟨it, -, -, hlt⟩ := hC
    exact absurd (lt_of_lt_of_le hlt h0) (not_lt.mpr (deriv_nonneg _))

theorem tilt_big (x : Fin 2 → ℝ) (ε : ℝ) (hε : ε ≤ 1 / 10) : ¬ (costAt tiltP x < ε ∧ violationAt tiltP x < ε) := by
  rintro ⟨h1, h2⟩
  have e1 : costAt tiltP x = 1 / 2 * (100 * x 0 - 50007 / 1000) ^ 2 + 1 / 2 * (x 1 - 1) ^ 2 := tilt_cost x
  have e2 : violationAt tiltP x = |x 0| := tilt_violation x
  rw [e1] at h1
  rw [e2] at h2
  have h3 := (abs_lt.mp h2).2
  have h4 : 100 * x 0 - 50007 / 1000 < -1 := by linarith
  nlinarith [sq_nonneg (x 1 - 1)]

/-- C118 with an equality constraint, from any start: the two solves take the same path and none of the absolute tolerances
plays a part. -/
example (x0 : Fin 2 → ℝ) : ∃ (o1 : (qrEnv 0 0 tiltP).Obj) (o1' : (qrEnv 0 0 tilt3P).Obj) (out out' : NLSOutputs ℝ)
    (calls calls' : List (NLSIteration ℝ)),
    solve (qrEnv 0 0 tiltP) strictPrm x0 (mkObj _) = .ok (o1, out, calls) ∧
    solve (qrEnv 0 0 tilt3P) (paramsInUnits (3 ^ 2) (3 ^ 2) strictPrm) x0 (mkObj _) = .ok (o1', out', calls') ∧ out.iterations ≠ [] ∧
    o1'.vars = o1.vars ∧ out'.termination = out.termination ∧
    out'.iterations.map withoutQP = out.iterations.map (inUnits (3 ^ 2) (3 ^ 2)) := by
  obtain ⟨o1, out, calls, h, hq⟩ := C115_equality_returns (qrEnv 0 0 tiltP) 0 rfl tilt_ok (Or.inl rfl) rfl (show 0 < 1 by norm_num)
    (fun x => tilt_full x) (quiet_of (by never_throws) 0 0) strictPrm strictPrm_valid (by simp [strictPrm, NLSParams.default])
    x0 (mkObj _)
  obtain ⟨o1', out', calls', h', -⟩ := C115_equality_returns (qrEnv 0 0 tilt3P) 0 rfl tilt3_ok (Or.inl rfl) rfl (show 0 < 1 by norm_num)
    (fun x => tilt_full x) (quiet_of (by never_throws) 0 0) (paramsInUnits (3 ^ 2) (3 ^ 2) strictPrm) strict3_valid
    (by simp [paramsInUnits, strictPrm, NLSParams.default]) x0 (mkObj _)
  have hne : out.iterations ≠ [] := by
    refine run_nonempty (by simp [strictPrm, NLSParams.default]) h (hq fun x d hd h0 => ?_)
    have e0 : d 0 = 0 := by
      have h1 := h0 tiltEq (by show tiltEq ∈ [tiltEq]; simp) (0 : Fin 1)
      have h2 : linAt tiltEq x d (0 : Fin 1) = valueAt tiltEq x (0 : Fin 1) + slopeAt tiltEq x d (0 : Fin 1) := rfl
      have h3 := tiltEq_lin x d 0
      have h4 := tiltEq_value x 0
      have h5 : slopeAt tiltEq x d (0 : Fin 1) = 0 := h1
      linarith
    refine ⟨cost3, by show cost3 ∈ [tiltCost, cost3]; simp, (0 : Fin 1), fun h1 => hd ?_⟩
    have e1 : d 1 = 0 := (cost3_slope x d 0).symm.trans h1
    funext i; fin_cases i
    · exact e0
    · exact e1
  have t1 := no_absolute_exit (qrEnv 0 0 tiltP) tilt_ok strictPrm le_rfl
    (fun x => tilt_big x _ (by simp only [strictPrm, NLSParams.default, real_lit]; norm_num)) x0 _ o1 out calls h
  have t2 := no_absolute_exit (qrEnv 0 0 tilt3P) tilt3_ok (paramsInUnits (3 ^ 2) (3 ^ 2) strictPrm)
    (by simp [paramsInUnits, strictPrm]) (fun x => ?_) x0 _ o1' out' calls' h'
  · obtain ⟨r1, r2, r3, -⟩ := C118_cost_units (qrEnv 0 0 tiltP) (qrEnv 0 0 tilt3P) 3 (by norm_num) rfl rfl trivial
      (C111_contract _ _) (C111_contract _ _) (C113_contract 0) (C113_contract 0) tilt_ok rfl strictPrm x0 _ o1 _ o1' out out' calls calls' h h'
      (fun he => by cases he) (.inr fun t ht => ⟨t1 t ht, t2 t ht⟩)
    exact ⟨o1, o1', out, out', calls, calls', h, h', hne, r1, r2, r3⟩
  · rintro ⟨h1, h2⟩
    have e1 : costAt (qrEnv 0 0 tilt3P).p x = 9 * costAt tiltP x := tilt3_cost x
    have e2 : violationAt (qrEnv 0 0 tilt3P).p x = violationAt tiltP x := rfl
    have e3 : (paramsInUnits (3 ^ 2) (3 ^ 2) strictPrm).absoluteExitTol = 9 / 10 ^ 12 := by
      simp only [paramsInUnits, strictPrm, NLSParams.default, real_lit]; norm_num
    rw [e1, e3] at h1
    rw [e2, e3] at h2
    exact tilt_big x (9 / 10 ^ 12) (by norm_num) ⟨by
      have := costAt_nonneg tiltP x
      linarith, h2⟩

end MiniOpt.Props
