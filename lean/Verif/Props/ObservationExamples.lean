import Verif.Props.Observation
import Verif.Props.NLSExamples
import Verif.Lemmas.DemoReal

/-! Runs meeting the hypotheses of C133. -/

set_option autoImplicit false

namespace MiniOpt.Props

open MiniOpt MiniOpt.Spec MiniOpt.NLS MiniOpt.DemoReal

/-- The mixed problem, watched by a callback that stops the solve after the first iteration. -/
noncomputable def stoppedEnv : Env 2 2 ℝ := { mixedEnv with callback := some fun _ => false }

/-- The mixed problem, watched by a callback that never stops the solve. -/
noncomputable def watchedEnv : Env 2 2 ℝ := { mixedEnv with callback := some fun _ => true }

/-- The watched run is the unwatched one, with at least one call of the callback. -/
example (x0 : Fin 2 → ℝ) : ∃ (o1 : watchedEnv.Obj) (out : NLSOutputs ℝ), out.iterations ≠ [] ∧
    solve mixedEnv dp x0 (mkObj _) = .ok (o1, out, []) ∧ solve watchedEnv dp x0 (mkObj _) = .ok (o1, out, out.iterations) := by
  obtain ⟨o', out, calls, h, hne⟩ := mixed_run dp nls_default_valid dp_penalty dp_iterations x0
  have h' : solve (withoutCallback watchedEnv) dp x0 (mkObj _) = .ok (o', out, calls) := h
  rcases C133_accepting watchedEnv (fun _ => rfl) (fun cb hcb l => by cases hcb; rfl) dp x0 (mkObj _) with ⟨e, h1, -⟩ | ⟨o1, out1, h1, h2⟩
  · cases h'.symm.trans h1
  · have h3 := h'.symm.trans h1
    cases h3
    exact ⟨o', out, hne, h1, h2⟩

/-- The stopped run ends with `USER_CALLBACK` in the state of the run without callback at that time, or the solver itself stopped. -/
example (x0 : Fin 2 → ℝ) : ∃ (o1 : stoppedEnv.Obj) (out : NLSOutputs ℝ) (calls : List (NLSIteration ℝ)),
    solve stoppedEnv dp x0 (mkObj _) = .ok (o1, out, calls) ∧
    (out.termination = .userCallback → solve mixedEnv { dp with maxIterations := (out.iterations.length : Int) } x0 (mkObj _)
      = .ok (o1, ⟨.maxIterations, out.iterations⟩, [])) := by
  obtain ⟨o', out, calls, h, hne⟩ := mixed_run dp nls_default_valid dp_penalty dp_iterations x0
  have h' : solve (withoutCallback stoppedEnv) dp x0 (mkObj _) = .ok (o', out, calls) := h
  rcases C133_callback stoppedEnv (fun _ => rfl) dp x0 (mkObj _) with ⟨e, h1, -⟩ | ⟨o1, out1, calls1, h1, h2⟩ | ⟨o1, log, cb, h1, -, -, h2⟩
  · cases h'.symm.trans h1
  · refine ⟨o1, out1, calls1, h1, fun ht => ?_⟩
    exact absurd ht ((C47_verdict mixedEnv dp x0 _ o1 out1 _ h2).2.2 rfl)
  · exact ⟨o1, _, _, h1, fun _ => h2⟩

/-- The eigenvalues can be logged without any other effect. -/
example (x0 : Fin 2 → ℝ) : ∃ (o1 : watchedEnv.Obj) (out : NLSOutputs ℝ) (calls : List (NLSIteration ℝ)), out.iterations ≠ [] ∧
    solve watchedEnv { dp with logQPEigenvalues := true } x0 (mkObj _) = .ok (o1, out, calls) ∧
    solve watchedEnv { dp with logQPEigenvalues := false } x0 (mkObj _) = .ok (o1, ⟨out.termination, out.iterations.map blind⟩,
      calls.map blind) := by
  obtain ⟨o', out, calls, h, hne⟩ := mixed_run { dp with logQPEigenvalues := true }
    (by constructor <;> simp only [NLSParams.default, real_lit] <;> norm_num) (by exact dp_penalty) (by exact dp_iterations) x0
  have h' : solve (withoutCallback watchedEnv) { dp with logQPEigenvalues := true } x0 (mkObj _) = .ok (o', out, calls) := h
  have h4 := C133_eigenvalues watchedEnv ⟨fun cb hcb l => by cases hcb; rfl, fun _ => rfl⟩ dp x0 (mkObj _)
  rcases C133_accepting watchedEnv (fun _ => rfl) (fun cb hcb l => by cases hcb; rfl) { dp with logQPEigenvalues := true } x0 (mkObj _) with
    ⟨e, h1, -⟩ | ⟨o1, out1, h1, h2⟩
  · cases h'.symm.trans h1
  · have h3 := h'.symm.trans h1
    cases h3
    rw [h2] at h4
    exact ⟨o', out, _, hne, h2, h4⟩

end MiniOpt.Props
