import Verif.Props.Flip
import Verif.Props.NLSExamples
import Verif.Lemmas.DemoHill

/-!
# An example for C129
-/

set_option autoImplicit false

namespace MiniOpt.Props

open MiniOpt MiniOpt.Spec MiniOpt.NLS MiniOpt.DemoReal

/-- Exchange the two variables. -/
def exchange : Fin 2 ≃ Fin 2 := Equiv.swap 0 1

/-- Reverse the first one. -/
def reverseFirst : Fin 2 → Bool := ![true, false]

/-- `mixedEnv` (two costs, the bound `x₁ ≤ 4`, the curve `x₀ + x₁² = 1`), rewritten. -/
noncomputable def mixedFlipped (t : Fin 2 → ℝ) : Env 2 2 ℝ :=
  mkEnv ⟨mixedEnv.p.costs.map (rewrittenResidual (flip exchange reverseFirst) t),
    mixedEnv.p.ineq.map (flippedBound exchange reverseFirst t), mixedEnv.p.eqs.map (rewrittenResidual (flip exchange reverseFirst) t)⟩

theorem mixed_regular (x : Fin 2 → ℝ) : RegularAt mixedEnv.p x := by
  intro d hd
  have h1 := hd cost1 (by simp [mixedEnv, mkEnv]) (0 : Fin 1)
  have h2 := hd cost3 (by simp [mixedEnv, mkEnv]) (0 : Fin 1)
  rw [cost1_slope] at h1
  rw [cost3_slope] at h2
  funext i
  rcases Fin.exists_fin_two.mp ⟨i, rfl⟩ with rfl | rfl
  · exact h1
  · exact h2

theorem mixed_independent (x : Fin 2 → ℝ) : EqualitiesIndependentAt mixedEnv.p x := by
  intro v hv
  have hv' : v.length = 1 := hv
  obtain ⟨a, rfl⟩ := List.length_eq_one_iff.mp hv'
  refine ⟨fun i => if i = 0 then a - (x 0 + x 1 ^ 2 - 1) else 0, ?_⟩
  have : ∀ d : Fin 2 → ℝ, stackedModel x d mixedEnv.p.eqs = List.ofFn (linAt curve x d) ++ [] := fun d => rfl
  have hl : ∀ d : Fin 2 → ℝ, linAt curve x d = fun _ => (x 0 + x 1 ^ 2 - 1) + slopeAt curve x d (0 : Fin 1) := by
    intro d
    funext k
    have hk : k = (0 : Fin 1) := Subsingleton.elim (α := Fin 1) k 0
    rw [hk]
    rfl
  have hs : slopeAt curve x (fun i : Fin 2 => if i = 0 then a - (x 0 + x 1 ^ 2 - 1) else 0) (0 : Fin 1) = a - (x 0 + x 1 ^ 2 - 1) := by
    have h0 : jacAt curve x 2 (0 : Fin 1) 0 = 1 := by
      unfold curve
      rw [res2_jac]
      simp
    have e : slopeAt curve x (fun i : Fin 2 => if i = 0 then a - (x 0 + x 1 ^ 2 - 1) else 0) (0 : Fin 1)
      = ∑ j, jacAt curve x 2 (0 : Fin 1) j * (if j = 0 then a - (x 0 + x 1 ^ 2 - 1) else 0) := rfl
    rw [e, Fin.sum_univ_two, h0]
    simp
  rw [this, List.append_nil, hl, hs]
  show [_] = _
  congr 1
  ring

/-- Both solves, with the default parameters, from any point: they return and log the same numbers. -/
example (t y0 : Fin 2 → ℝ) : ∃ (o1 : mixedEnv.Obj) (o1' : (mixedFlipped t).Obj) (out out' : NLSOutputs ℝ)
    (calls calls' : List (NLSIteration ℝ)),
    solve mixedEnv dp (flipMap exchange reverseFirst t y0) (mkObj _) = .ok (o1, out, calls) ∧
    solve (mixedFlipped t) dp y0 (mkObj _) = .ok (o1', out', calls') ∧ out.iterations ≠ [] ∧
    o1.vars = flipMap exchange reverseFirst t o1'.vars ∧ out'.termination = out.termination ∧
    out'.iterations.map withoutEigenvalues = out.iterations.map withoutEigenvalues := by
  obtain ⟨o1, out, calls, h, hne⟩ := mixed_run dp nls_default_valid dp_penalty dp_iterations (flipMap exchange reverseFirst t y0)
  have hok := flipped_wellPosed mixed_ok exchange reverseFirst t
  obtain ⟨o1', out', calls', h', -⟩ := ip_run (mixedFlipped t).p hok (by simp [mixedFlipped, mixedEnv, mkEnv]) (by
      intro c hc
      obtain ⟨c0, h0, rfl⟩ := List.mem_map.mp (show c ∈ mixedEnv.p.ineq.map (flippedBound exchange reverseFirst t) from hc)
      have h0' : c0 ∈ [(⟨1, -1, 4⟩ : Ineq ℝ)] := h0
      rcases List.mem_singleton.mp h0' with rfl
      unfold flippedBound
      rw [dif_pos (by decide)]
      dsimp only
      refine mul_ne_zero (by norm_num) ?_
      unfold sgn
      split_ifs <;> norm_num)
    dp nls_default_valid dp_penalty dp_iterations y0
  obtain ⟨q1, q2, q3, -⟩ := C129_any mixedEnv (mixedFlipped t) exchange reverseFirst t rfl rfl rfl trivial (by simp [mixedEnv, mkEnv])
    exactEigen_contract exactEigen_contract mixed_ok ⟨fun _ => 0, fun c hc => by
      have hc' : c ∈ [(⟨1, -1, 4⟩ : Ineq ℝ)] := hc
      rcases List.mem_singleton.mp hc' with rfl
      norm_num [boundAt]⟩ dp y0 _ o1 _ o1' out out' calls calls' h h' fun k it a _ _ => ⟨.inr (mixed_regular _), mixed_independent _⟩
  exact ⟨o1, o1', out, out', calls, calls', h, h', hne, q1, q2, q3⟩

end MiniOpt.Props
