import Verif.Props.Stopping
import Verif.Props.Totality
import Verif.Props.NLSExamples
import Verif.Lemmas.Demo
import Verif.Lemmas.DemoReal

/-! Concrete runs meeting the hypotheses of C132. -/

set_option autoImplicit false

namespace MiniOpt.Props

open MiniOpt MiniOpt.Spec MiniOpt.NLS MiniOpt.DemoReal

/-- The default parameters, with a larger iteration limit and damping, and tiny tolerances. -/
noncomputable def patient : NLSParams ℝ :=
  { dp with maxIterations := 25, absoluteExitTol := 1 / 10 ^ 30, relativeExitTol := 1 / 10 ^ 30, absoluteFirstDerivativeTol := 1 / 10 ^ 30, maxLambda := 10 }

theorem patient_valid : NLSParamsValid patient := by
  constructor <;> simp only [patient, dp, NLSParams.default, real_lit] <;> norm_num

theorem patient_stricter : Stricter dp patient := by
  constructor
  · rfl
  all_goals simp only [patient, dp, NLSParams.default, real_lit]
  all_goals norm_num

/-- The problem with a cost, a bound and an equality constraint, run twice from the same start. -/
example (x0 : Fin 2 → ℝ) : ∃ o1' out' calls' o1 out calls, solve mixedEnv patient x0 (mkObj _) = .ok (o1', out', calls') ∧
    out'.iterations ≠ [] ∧ solve mixedEnv dp x0 (mkObj _) = .ok (o1, out, calls) ∧
    out.iterations.length ≤ out'.iterations.length := by
  obtain ⟨o1', out', calls', h, hne⟩ := mixed_run patient patient_valid (by exact dp_penalty) (by simp [patient]) x0
  obtain ⟨o1, out, calls, h1, h2, -⟩ := C132_looser mixedEnv mixed_ok dp patient patient_stricter nls_default_valid
    (.inr (.inr fun _ => rfl)) x0 _ o1' out' calls' h
  exact ⟨_, _, _, _, _, _, h, hne, h1, h2⟩

/-- The interior point solver with the default parameters and with three iterations less and looser tolerances. -/
example : ∃ r r', IP.solve exactEigen demoQP QPParams.default (IP.setupState demoJunk) = .ok r' ∧
    IP.solve exactEigen demoQP { QPParams.default with maxIterations := 7, terminationKktTol := 1 / 10, terminationComplementarityTol := 1 }
      (IP.setupState demoJunk) = .ok r ∧ r.2.iterations <+: r'.2.iterations := by
  obtain ⟨r', hr'⟩ := demo_returns _ default_valid (by simp [QPParams.default])
  obtain ⟨r, h1, h2, -⟩ := C132_qp exactEigen demoQP
    { QPParams.default with maxIterations := 7, terminationKktTol := 1 / 10, terminationComplementarityTol := 1 } QPParams.default
    ⟨rfl, by simp [QPParams.default], by simp only [QPParams.default, real_lit]; norm_num,
      by simp only [QPParams.default, real_lit]; norm_num⟩
    (by rw [IP.checkParams_ok_iff]; simp only [QPParams.default, real_lit]; norm_num) _ r' hr'
  exact ⟨r, r', hr', h1, h2⟩

end MiniOpt.Props
