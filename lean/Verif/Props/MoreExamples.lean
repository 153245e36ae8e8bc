import Verif.Props.NLSExamples
import Verif.Props.NLSParams
import Verif.Props.Totality
import Verif.Props.SerializationLogs
import Verif.Props.NLSReuse
import Verif.Props.DoublesState
import Verif.Props.MissingMembers

/-!
# More concrete cases for the theorems of `NLSParams`, `NLSLog`, `Totality`, `Serialization`, `SerializationLogs`
-/

set_option autoImplicit false

namespace MiniOpt.Props

open MiniOpt MiniOpt.Spec MiniOpt.NLS MiniOpt.DemoReal

/-! ### C52, C53 -/

/-- C52: a NaN parameter is rejected in doubles, and so is a negative damping. -/
example : ¬ NLSParamsValid { (NLSParams.default : NLSParams DemoF64.D64) with armijoSearchTau := F64.nan } ∧
    ¬ NLSParamsValid { (NLSParams.default : NLSParams DemoNLS.Rt) with lambdaInitial := -1 } := by
  constructor
  · rw [← checkParams_iff]
    intro h
    have : (match NLS.checkParams { (NLSParams.default : NLSParams DemoF64.D64) with armijoSearchTau := F64.nan } with
      | .ok _ => true | .error _ => false) = false := by decide +kernel
    rw [h] at this
    cases this
  · rw [← checkParams_iff]
    intro h
    have : (match NLS.checkParams { (NLSParams.default : NLSParams DemoNLS.Rt) with lambdaInitial := -1 } with
      | .ok _ => true | .error _ => false) = false := by decide +kernel
    rw [h] at this
    cases this

/-- C52: the iteration limit 0 is accepted, and the run returns the start value. -/
example : ∃ o' out calls, solve curveEnv { dp with maxIterations := 0 } (fun _ => 5) (mkObj _) = .ok (o', out, calls) ∧
    o'.vars = (fun _ => 5) := by
  have hv : NLSParamsValid { dp with maxIterations := 0 } := by
    have h := nls_default_valid
    rw [← checkParams_iff] at h ⊢
    exact h
  obtain ⟨⟨o', out, calls⟩, h⟩ := (C52_accepted curveEnv dp (fun _ => 5) (mkObj _)).mpr hv
  exact ⟨o', out, calls, h, (C52_zero_iterations _ _ _ _ _ _ _ rfl h).1⟩

/-- C53: an index outside the start vector: one variable for the two-variable curve problem. -/
example : ConsistentP curveEnv.p ∧ ¬ IndicesOk curveEnv.p 1 := by
  refine ⟨curve_ok.consistent, fun h => ?_⟩
  have h1 := h cost1 (by simp [curveEnv, mkEnv]) (1 : Fin 2)
  have h2 : (cost1.index (1 : Fin 2)) = 1 := rfl
  rw [h2] at h1
  exact absurd h1.2 (by decide)

/-! ### C46, C47, C54 -/

/-- C47: the callback ends a run after its second iteration, and was called with each prefix of the log. -/
example : ∃ o' out calls, solve (DemoNLS.env1 DemoNLS.sqrt2 (some fun l => l.length < 2)) (DemoNLS.prm 10) (fun _ => ⟨5⟩)
      (DemoNLS.obj1 DemoNLS.sqrt2 (some fun l => l.length < 2)) = .ok (o', out, calls) ∧
    out.termination = .userCallback ∧ out.iterations.length = 2 ∧ calls = out.iterations := by
  obtain ⟨o', out, calls, h, ht, hs⟩ := DemoNLS.summary_run' DemoNLS.run_callback
  have hl : out.iterations.length = 2 := by simpa using congrArg List.length hs
  refine ⟨o', out, calls, h, ht, hl, ?_⟩
  have := (C47_numbering_and_callback _ _ _ _ _ _ _ h).2.2
  simpa [DemoNLS.env1] using this

/-- C54: the counters of the run that exceeds the damping limit: four QP iterations, twelve line-search steps, four
failed searches. -/
example : ∃ o' out calls, solve (DemoNLS.env1 DemoNLS.wrongSign none)
      { DemoNLS.prm 10 with lineSearchStrategy := .armijoBacktrack } (fun _ => ⟨5⟩)
      (DemoNLS.obj1 DemoNLS.wrongSign none) = .ok (o', out, calls) ∧
    out.numLineSearchSteps = 12 ∧ out.numFailedLineSearches = 4 ∧ 4 ≤ out.numQPIterations := by
  obtain ⟨o', out, calls, h, -, h2, h3, -⟩ := DemoNLS.summary_run DemoNLS.run_maxLambda
  obtain ⟨c1, c2, c3, -⟩ := C54_counters out
  have hl : out.iterations.length = 4 := by simpa using congrArg List.length h2
  refine ⟨o', out, calls, h, ?_, ?_, ?_⟩
  · rw [c2]
    have e : (out.iterations.map fun it => it.lineSearchSteps.length) =
        (out.iterations.map fun it => it.lineSearchSteps.map (·.alpha.v)).map List.length := by simp
    rw [e, h3]
    rfl
  · rw [c3]
    have e : (out.iterations.filter fun it => !(it.stepResult = .success ∨ it.stepResult = .firstOrderSatisfied : Bool)).length
        = ((out.iterations.map (·.stepResult)).filter fun r => !(r = .success ∨ r = .firstOrderSatisfied : Bool)).length := by
      rw [List.filter_map, List.length_map]; rfl
    rw [e, h2]
    decide
  · have := (C54_bounds _ _ _ _ _ _ _ h).2.1
    omega

/-! ### C65 -/

/-- C65: the hypotheses hold for the curve problem (equality constraints), the bounded one and the mixed one. -/
example : (∀ c ∈ boundedEnv.p.ineq, c.a ≠ 0) ∧ WellPosed boundedEnv.p 2 ∧ WellPosed mixedEnv.p 2 ∧ WellPosed curveEnv.p 2 ∧
    NLSParamsValid dp ∧ 0 < dp.equalityPenaltyInitial := by
  refine ⟨?_, bounded_ok, mixed_ok, curve_ok, nls_default_valid, dp_penalty⟩
  intro c hc
  have hc' : c ∈ [(⟨0, 1, -1 / 2⟩ : Ineq ℝ), ⟨1, -1, 4⟩] := hc
  rcases List.mem_cons.mp hc' with rfl | hc'
  · simp
  · rcases List.mem_singleton.mp hc' with rfl; simp

/-! ### C57-C59, C66 -/

open MiniOpt.Ser MiniOpt.Cpp

/-- The NaN the C++ fields are initialised with. -/
def nan64 : DemoF64.D64 := F64.nan

/-- C58: the log of the kernel-evaluated binary64 run (five iterations, interior point) cannot be read back from text. -/
example : ∃ o' out calls, solve (DemoF64.env1 DemoF64.sqrt2) (DemoF64.prm 20) (fun _ => DemoF64.d 5)
      (DemoF64.obj1 DemoF64.sqrt2) = .ok (o', out, calls) ∧ out.iterations.length = 5 ∧
    fromJson (toJson (Outputs.of nan64 out)) = .ok (Outputs.of nan64 out) ∧
    fromJson (throughText (toJson (Outputs.of nan64 out))) = .error .typeError := by
  obtain ⟨o', out, calls, h, -, hs⟩ := DemoF64.summary_run DemoF64.run_sqrt2
  have hl : out.iterations.length = 5 := by simpa using congrArg List.length hs
  refine ⟨o', out, calls, h, hl, C57_value_round_trip _, ?_⟩
  refine C58_interior_point_logs _ _ _ _ _ _ _ h ?_ ?_ _ ?_
  · simp [DemoF64.env1]
  · intro he; rw [he] at hl; cases hl
  · show ¬ (F64.isFinite F64.nan = true)
    decide

/-- C58: the log of a null-space solve reads back (over `ℝ`, where every number is finite). -/
example : ∃ o' out calls, solve curveEnv dp (fun _ => 5) (mkObj _) = .ok (o', out, calls) ∧
    fromJson (throughText (toJson (Outputs.of (0 : ℝ) out))) = .ok (Outputs.of (0 : ℝ) out) := by
  obtain ⟨o', out, calls, h, -⟩ := curve_run dp nls_default_valid dp_penalty dp_iterations fun _ => 5
  refine ⟨o', out, calls, h, C58_null_space_logs _ _ _ _ _ _ _ h ?_ ?_ _⟩
  · simp [curveEnv, mkEnv]
  · intro it _
    exact ⟨trivial, trivial, trivial, trivial, trivial, trivial, fun _ _ => ⟨trivial, trivial, trivial⟩,
      fun _ _ => ⟨trivial, trivial, trivial⟩⟩

/-- C59: a misspelt termination state reads as `MAX_ITERATIONS`; `null` reads as `SUCCESS` for a step result. -/
example : getEnum nlsTerminationTable.1 nlsTerminationTable.2 (.str "SATISFIED_ABSOLUTE" : Json ℝ) = .maxIterations ∧
    getEnum stepResultTable.1 stepResultTable.2 (.null : Json ℝ) = .success := by
  obtain ⟨-, -, h3, -⟩ := C59_enum_decoding (.str "SATISFIED_ABSOLUTE" : Json ℝ)
  obtain ⟨-, h2, -⟩ := C59_enum_decoding (.null : Json ℝ)
  refine ⟨h3.2 ?_, h2.2 ?_⟩
  · intro e; cases e <;> simp [Fmt.nameNLS]
  · intro e; simp

/-- C66: a log without its `iterations` member is undefined behaviour to read. -/
example : fromJson (without "iterations" (toJson (⟨.maxLambda, []⟩ : Outputs ℝ))) = .error .ub :=
  C66_missing_member _ .log trivial "iterations" (by decide)

end MiniOpt.Props
