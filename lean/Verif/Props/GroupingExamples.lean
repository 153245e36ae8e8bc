import Verif.Props.Grouping
import Verif.Props.NLSExamples

/-! C135 at work: a problem with bounds and an equality constraint. -/

set_option autoImplicit false

namespace MiniOpt.Props

open MiniOpt MiniOpt.Spec MiniOpt.NLS MiniOpt.DemoReal

/-- Every component listed twice, with the weights `3/5` and `4/5`. -/
noncomputable def twice (r : Residual ℝ) : Fin (r.dim + r.dim) → Fin r.dim → ℝ :=
  Fin.addCases (fun k l => if k = l then 3 / 5 else 0) (fun k l => if k = l then 4 / 5 else 0)

theorem twice_keeps (r : Residual ℝ) : KeepsLength (twice r) := by
  intro v
  rw [Fin.sum_univ_add]
  unfold twice
  simp only [Fin.addCases_left, Fin.addCases_right, ite_mul, zero_mul, Finset.sum_ite_eq, Finset.mem_univ, if_true]
  rw [← Finset.sum_add_distrib]
  exact Finset.sum_congr rfl fun k _ => by ring

/-- The mixed problem with every residual written twice, and then with every component as a residual of its own: the log of the
original problem, with at least one iteration. -/
example (x0 : Fin 2 → ℝ) :
    let env2 := withCosts mixedEnv (mixedEnv.p.costs.map fun r => rotatedResidual r (twice r))
    ∃ o' out calls, solve mixedEnv dp x0 (mkObj _) = .ok (o', out, calls) ∧ out.iterations ≠ [] ∧
      solve env2 dp x0 (mkObj mixedEnv.p) = .ok (o', out, calls) ∧
      solve (withCosts env2 (env2.p.costs.flatMap componentsOf)) dp x0 (mkObj mixedEnv.p) = .ok (o', out, calls) ∧
      (env2.p.costs.flatMap componentsOf).length = 4 := by
  intro env2
  have hq : ∀ r ∈ mixedEnv.p.costs, NeverThrows r := by
    intro r hr
    have hr' : r ∈ [cost1, cost3] := hr
    rcases List.mem_cons.mp hr' with rfl | hr'
    · exact fun _ => ⟨rfl, rfl⟩
    · rcases List.mem_singleton.mp hr' with rfl
      exact fun _ => ⟨rfl, rfl⟩
  obtain ⟨o', out, calls, h, hne⟩ := mixed_run dp nls_default_valid dp_penalty dp_iterations x0
  have h2 := (C135_rotated mixedEnv (fun r => r.dim + r.dim) twice (fun r _ => twice_keeps r) mixed_ok hq dp x0 (mkObj _)).trans h
  have hp2 : WellPosed env2.p 2 := by
    refine wellPosed_costs mixed_ok fun r' hr' => ?_
    obtain ⟨r, hr, rfl⟩ := List.mem_map.mp hr'
    refine ⟨r, hr, id, id, id, fun hc p => ?_⟩
    funext k
    show ∑ l, twice r k l * r.valueJ p l = ∑ l, twice r k l * r.value p l
    rw [hc p]
  have hq2 : ∀ r ∈ env2.p.costs, NeverThrows r := by
    intro r' hr'
    obtain ⟨r, hr, rfl⟩ := List.mem_map.mp hr'
    exact fun p => hq r hr p
  exact ⟨o', out, calls, h, hne, h2, (C135_components env2 hp2 hq2 dp x0 (mkObj mixedEnv.p)).trans h2, rfl⟩

end MiniOpt.Props
