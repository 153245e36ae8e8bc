import Verif.Props.Again
import Verif.Props.UnitsExamples

/-!
# Solving again and damping: examples
-/

set_option autoImplicit false

namespace MiniOpt.Props

open MiniOpt.Spec MiniOpt.NLS MiniOpt.DemoReal

/-- C121_damping_slope and C121_damping_length for `(x - 3)² + (y - 1)²` from any start, undamped and with `lambda = 1/2`. -/
example (x0 : Fin 2 → ℝ) : ∃ (o1 o1' b b' : lineEnv.Obj) (out out' : NLSOutputs ℝ) (calls calls' : List (NLSIteration ℝ))
    (it it' : NLSIteration ℝ),
    solve lineEnv dp x0 (mkObj _) = .ok (o1, out, calls) ∧ solve lineEnv dampedPrm x0 (mkObj _) = .ok (o1', out', calls') ∧
    out.iterations[0]? = some it ∧ out'.iterations[0]? = some it' ∧ it.lambda < it'.lambda ∧
    After lineEnv dp x0 (mkObj _) 1 b ∧ After lineEnv dampedPrm x0 (mkObj _) 1 b' ∧
    it.directionalDerivatives.dF ≤ it'.directionalDerivatives.dF ∧ it'.directionalDerivatives.dF ≤ 0 ∧
    l2 b'.dx ≤ l2 b.dx := by
  obtain ⟨o1, out, calls, h, hne⟩ := ip_run _ line_ok (by simp [lineEnv, mkEnv]) (fun c hc => by cases hc) dp nls_default_valid
    dp_penalty dp_iterations x0
  obtain ⟨o1', out', calls', h', hne'⟩ := ip_run _ line_ok (by simp [lineEnv, mkEnv]) (fun c hc => by cases hc) dampedPrm
    dampedPrm_valid (by simp [dampedPrm, NLSParams.default]) (by simp [dampedPrm, NLSParams.default]) x0
  obtain ⟨it, a, hk, ha, hav, hl⟩ := first_iteration (env := lineEnv) rfl h (by simp [NLSParams.default])
  obtain ⟨it', a', hk', ha', hav', hl'⟩ := first_iteration (env := lineEnv) rfl h' (by simp [dampedPrm, NLSParams.default])
  obtain ⟨b, hb, -⟩ := (C38_after lineEnv dp x0 _ o1 out calls h).1 1 (List.getElem?_eq_some_iff.mp hk).1
  obtain ⟨b', hb', -⟩ := (C38_after lineEnv dampedPrm x0 _ o1' out' calls' h').1 1 (List.getElem?_eq_some_iff.mp hk').1
  have hlt : it.lambda < it'.lambda := by
    rw [hl, hl']
    simp only [dampedPrm, NLSParams.default, real_lit]
    norm_num
  have h0 : 0 ≤ it.lambda := by
    rw [hl]
    simp only [NLSParams.default, real_lit]
    norm_num
  obtain ⟨s1, s2⟩ := C121_damping_slope lineEnv exactEigen_contract exactNS_contract line_ok rfl rfl dp dampedPrm x0 x0 _ o1 _ o1'
    out out' calls calls' h h' 0 0 it it' a a' hk hk' ha ha' (by rw [hav, hav']) hlt.le (.inr (line_regular _))
  have s3 := C121_damping_length lineEnv exactEigen_contract exactNS_contract line_ok rfl dp dampedPrm x0 x0 _ o1 _ o1'
    out out' calls calls' h h' 0 0 it it' a a' b b' hk hk' ha ha' hb hb' (by rw [hav, hav']) h0 hlt
    (fun _ => .inr (line_regular _))
  exact ⟨o1, o1', b, b', out, out', calls, calls', it, it', h, h', hk, hk', hlt, hb, hb', s1, s2, s3⟩

/-- C121_again: the solve of `C118_defaults_carry_units` ends at once with `SATISFIED_FIRST_ORDER_TOL`; a second, damped one from
there does the same. -/
example : ∃ (o1 o2 : tinyEnv.Obj) (out out' : NLSOutputs ℝ) (calls calls' : List (NLSIteration ℝ)),
    solve tinyEnv dp (fun _ => 0) (mkObj _) = .ok (o1, out, calls) ∧ out.termination = .satisfiedFirstOrderTol ∧
    solve tinyEnv dampedPrm o1.vars (mkObj _) = .ok (o2, out', calls') ∧
    out'.termination = .satisfiedFirstOrderTol ∧ out'.iterations.length = 1 ∧ o2.vars = o1.vars := by
  obtain ⟨o1, out, calls, h, hT, hv⟩ := C118_defaults_carry_units
  obtain ⟨o2, out', calls', h', -⟩ := ip_run _ tiny_ok (by simp [tinyEnv, mkEnv]) (fun c hc => by cases hc) dampedPrm
    dampedPrm_valid (by simp [dampedPrm, NLSParams.default]) (by simp [dampedPrm, NLSParams.default]) o1.vars
  obtain ⟨-, h2, -⟩ := C119_start tinyEnv exactEigen_contract exactNS_contract tiny_ok rfl rfl dp _ _ o1 out calls h
    (by simp [NLSParams.default]) (.inr (tiny_regular _)) (by
      rw [tiny_cost, line_cost]
      simp only [NLSParams.default, real_lit]
      norm_num)
  obtain ⟨it, a, hk, -, -, hl⟩ := first_iteration (env := tinyEnv) rfl h (by simp [NLSParams.default])
  have hlast : out.iterations.getLast? = some it := by rw [List.getLast?_eq_getElem?, h2]; exact hk
  have r := C121_again tinyEnv exactEigen_contract exactNS_contract tiny_ok rfl rfl dp dampedPrm _ _ o1 _ o2 out out' calls calls' h h'
    hT it hlast (by
      rw [hl]
      simp only [dampedPrm, NLSParams.default, real_lit]
      norm_num) (by simp [dampedPrm]) (by simp [dampedPrm, NLSParams.default]) (.inr (tiny_regular _))
  exact ⟨o1, o2, out, out', calls, calls', h, hT, h', r⟩

/-- C121_after_absolute: from the origin `Solve` finds the minimiser `(3, 1)` in one iteration and ends with
`SATISFIED_ABSOLUTE_TOL`; the second solve from there ends after one iteration where it started. -/
example : ∃ (o1 o2 : lineEnv.Obj) (out out' : NLSOutputs ℝ) (calls calls' : List (NLSIteration ℝ)),
    solve lineEnv dp (fun _ => 0) (mkObj _) = .ok (o1, out, calls) ∧ out.termination = .satisfiedAbsoluteTol ∧
    solve lineEnv dp o1.vars (mkObj _) = .ok (o2, out', calls') ∧
    out'.termination = .satisfiedFirstOrderTol ∧ out'.iterations.length = 1 ∧ o2.vars = o1.vars := by
  obtain ⟨o1, out, calls, h, hne⟩ := line_run fun _ => 0
  obtain ⟨best, hbest, -, hcase⟩ := C50_linear_least_squares lineEnv exactEigen_contract rfl line_ok line_affine line_rank
    rfl rfl dp (by simp [NLSParams.default]) _ _ _ _ _ h hne
  have hb : best = fun i => if i = 0 then 3 else 1 := by
    by_contra hn
    have := hbest (fun i => if i = 0 then 3 else 1) (fun e => hn e.symm)
    rw [line_cost, line_cost] at this
    norm_num at this
    nlinarith [sq_nonneg (best 0 - 3), sq_nonneg (best 1 - 1)]
  obtain ⟨hex, -, -⟩ := C38_after lineEnv dp _ _ o1 out calls h
  have hlen := List.length_pos_iff.mpr hne
  obtain ⟨a, ha, -⟩ := hex 0 (by omega)
  obtain ⟨b, hbb, -⟩ := hex 1 (by omega)
  have hT : out.termination = .satisfiedAbsoluteTol := by
    rcases hcase with ⟨-, -, -, hsmall⟩ | ⟨⟨it, hit, hs⟩, hall, -⟩
    · exfalso
      rw [line_cost, line_cost, hb] at hsmall
      simp only [NLSParams.default, real_lit] at hsmall
      norm_num at hsmall
    · obtain ⟨st, hst, he⟩ := (C39_logged_errors lineEnv line_ok.consistent dp _ _ o1 out calls h 0 it hit a b ha hbb).2.2 hs
      refine (C46_exits_are_taken lineEnv dp _ _ o1 out calls h 0 it hit .satisfiedAbsoluteTol ⟨hs, st, hst, ?_⟩).2
      have hv := hall 1 le_rfl hlen b hbb
      rw [he, hv]
      unfold Errors.lInfinity
      rw [real_cmax]
      refine max_lt ?_ ?_
      · show costAt lineEnv.p best < _
        rw [line_cost, hb]
        simp only [NLSParams.default, real_lit]
        norm_num
      · show violationAt lineEnv.p best < _
        have : violationAt lineEnv.p best = 0 := by rw [violationAt_real]; rfl
        rw [this]
        simp only [NLSParams.default, real_lit]
        norm_num
  obtain ⟨o2, out', calls', h', -⟩ := line_run o1.vars
  exact ⟨o1, o2, out, out', calls, calls', h, hT, h',
    C121_after_absolute lineEnv exactEigen_contract exactNS_contract line_ok rfl rfl dp dp _ _ o1 _ o2 out out' calls calls' h h' hT
      (by simp only [NLSParams.default, real_lit]; norm_num) (by simp [NLSParams.default]) (.inr (line_regular _))⟩

end MiniOpt.Props
