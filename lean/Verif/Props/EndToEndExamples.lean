import Verif.Props.EndToEnd
import Verif.Props.EigenLDLTExamples
import Verif.Props.EigenQRExamples

/-! # C115: examples -/

set_option autoImplicit false

namespace MiniOpt.Props

open MiniOpt.Spec MiniOpt.NLS MiniOpt.DemoReal

/-- The costs `x₀ - 3` and `x₁ - 1`, no constraints. -/
noncomputable def twoCosts : Problem 2 ℝ := ⟨[cost1, cost3], [], []⟩

theorem two_sees (x d : Fin 2 → ℝ) (hd : d ≠ 0) : CostSees twoCosts x d := by
  by_cases h0 : d 0 = 0
  · refine ⟨cost3, by show cost3 ∈ [cost1, cost3]; simp, (0 : Fin 1), fun h => hd ?_⟩
    rw [slope_cost3] at h
    funext i; fin_cases i
    · exact h0
    · exact h
  · exact ⟨cost1, by show cost1 ∈ [cost1, cost3]; simp, (0 : Fin 1), fun h => h0 (by rw [slope_cost1] at h; exact h)⟩

theorem twoCosts_ok : WellPosed twoCosts 2 := by
  refine mk_wellPosed _ ?_ fun c h => by cases h
  intro r hr
  have hr' : r ∈ [cost1, cost3] := hr
  rcases List.mem_cons.mp hr' with rfl | hr'
  · exact ⟨_, _, _, rfl⟩
  rcases List.mem_singleton.mp hr' with rfl; exact ⟨_, _, _, rfl⟩

theorem affine1 (x dx : Fin 2 → ℝ) (k : Fin 1) : valueAt cost1 (fun i => x i + dx i) k = linAt cost1 x dx k := by
  have h1 : ∀ y : Fin 2 → ℝ, valueAt cost1 y k = y 0 - 3 := fun y => res2_value _ _ _ y k
  unfold linAt
  have h2 : slopeAt cost1 x dx k = dx 0 := slope_cost1 x dx k
  have h3 : (∑ j : Fin 2, jacAt cost1 x 2 k j * dx j) = dx 0 := h2
  rw [h1, h1]
  linarith [h3]

theorem affine3 (x dx : Fin 2 → ℝ) (k : Fin 1) : valueAt cost3 (fun i => x i + dx i) k = linAt cost3 x dx k := by
  have h1 : ∀ y : Fin 2 → ℝ, valueAt cost3 y k = y 1 - 1 := fun y => res2_value _ _ _ y k
  unfold linAt
  have h3 : (∑ j : Fin 2, jacAt cost3 x 2 k j * dx j) = dx 1 := slope_cost3 x dx k
  rw [h1, h1]
  linarith [h3]

theorem quiet_of {p : Problem 2 ℝ} (hnt : NeverThrowsP p) (eps dd : ℝ) : ¬ UserThrows (qrEnv eps dd p) := by
  rintro (⟨r, hr, q, hq⟩ | ⟨h, _⟩ | ⟨h, _⟩)
  · have := hnt r hr q
    rcases hq with hq | hq
    · rw [this.1] at hq; cases hq
    · rw [this.2] at hq; cases hq
  · exact h rfl
  · exact h rfl

/-- From every start the default parameters lead to a result whose cost is within `5e-7` of the minimum, zero. -/
example (dd : ℝ) (x0 : Fin 2 → ℝ) : ∃ o' out calls,
    solve (qrEnv 0 dd twoCosts) NLSParams.default x0 (mkObj twoCosts) = .ok (o', out, calls) ∧
    (o'.vars = ![3, 1] ∨ (o'.vars = x0 ∧ out.termination = .satisfiedFirstOrderTol)) := by
  obtain ⟨o', out, calls, h, best, hb, hres⟩ := C115_least_squares (qrEnv 0 dd twoCosts) rfl rfl twoCosts_ok
    (fun r hr x dx k => by
      have hr' : r ∈ [cost1, cost3] := hr
      rcases List.mem_cons.mp hr' with rfl | hr'
      · exact affine1 x dx k
      rcases List.mem_singleton.mp hr' with rfl; exact affine3 x dx k)
    (fun x d hd => (cost_form x d).2.1 (two_sees x d hd)) rfl rfl (quiet_of (by never_throws) 0 dd) NLSParams.default
    nls_default_valid (by simp [NLSParams.default]) (by simp [NLSParams.default]) (by simp [NLSParams.default]) x0 (mkObj twoCosts)
  refine ⟨o', out, calls, h, ?_⟩
  have hbest : best = ![3, 1] := by
    by_contra hne
    have h1 := hb ![3, 1] (Ne.symm hne)
    have h0 : costAt twoCosts (![3, 1] : Fin 2 → ℝ) = 0 := by
      unfold costAt
      have e1 : ∀ k, valueAt cost1 (![3, 1] : Fin 2 → ℝ) k = 0 := fun k => (res2_value _ _ _ _ k).trans (by norm_num)
      have e3 : ∀ k, valueAt cost3 (![3, 1] : Fin 2 → ℝ) k = 0 := fun k => (res2_value _ _ _ _ k).trans (by norm_num)
      have s1 : squaredNorm (valueAt cost1 (![3, 1] : Fin 2 → ℝ)) = 0 := by
        rw [show valueAt cost1 (![3, 1] : Fin 2 → ℝ) = fun _ => 0 from funext e1]; simp [squaredNorm, dot, real_sum]
      have s3 : squaredNorm (valueAt cost3 (![3, 1] : Fin 2 → ℝ)) = 0 := by
        rw [show valueAt cost3 (![3, 1] : Fin 2 → ℝ) = fun _ => 0 from funext e3]; simp [squaredNorm, dot, real_sum]
      simp [twoCosts, s1, s3]
    have h1' : costAt twoCosts best < costAt twoCosts ![3, 1] := h1
    rw [h0] at h1'
    have := costAt_nonneg twoCosts best
    linarith
  rcases hres with h1 | ⟨h1, h2, -⟩
  · exact Or.inl (h1.trans hbest)
  · exact Or.inr ⟨h1, h2⟩

/-- The cost `x₀ - 3` subject to `x₁ = 1`, from any start on the line. -/
example (dd t : ℝ) : ∃ o' out calls,
    solve (qrEnv 0 dd unguarded) NLSParams.default ![t, 1] (mkObj unguarded) = .ok (o', out, calls) ∧
    (BestFeasible unguarded o'.vars ∨ (o'.vars = ![t, 1] ∧ out.termination = .satisfiedFirstOrderTol)) := by
  refine C115_constrained_least_squares (qrEnv 0 dd unguarded) dd rfl rfl (two_ok _ rfl rfl fun c hc => by cases hc)
    (fun r hr x dx k => ?_) (fun r hr x dx k => ?_) rfl (show 0 < 1 by norm_num) (fun x => guarded_rank x)
    (fun x d hd h => ?_) (quiet_of (by never_throws) 0 dd) NLSParams.default
    nls_default_valid (by simp [NLSParams.default]) (by simp [NLSParams.default]) (by simp [NLSParams.default]) ![t, 1] ?_ (mkObj unguarded)
  · have hr' : r ∈ [cost1] := hr
    rcases List.mem_singleton.mp hr' with rfl; exact affine1 x dx k
  · have hr' : r ∈ [cost3] := hr
    rcases List.mem_singleton.mp hr' with rfl; exact affine3 x dx k
  · have h1 : d 1 = 0 := by
      have := h cost3 (by show cost3 ∈ [cost3]; simp) (0 : Fin 1)
      rw [slope_cost3] at this; exact this
    refine ⟨cost1, by show cost1 ∈ [cost1]; simp, (0 : Fin 1), fun h0 => hd ?_⟩
    rw [slope_cost1] at h0
    funext i; fin_cases i
    · exact h0
    · exact h1
  · intro r hr k
    have hr' : r ∈ [cost3] := hr
    rcases List.mem_singleton.mp hr' with rfl
    exact (res2_value _ _ _ _ k).trans (by norm_num)

/-- The QP of `Lemmas/Demo` with one bound and one equality constraint, default parameters. -/
example : ∃ st' out, IP.solve (LDLT.eigen 2 1 0) demoQP QPParams.default (IP.setupState demoJunk) = .ok (st', out) ∧
    ∀ m, 0 < st'.v.s m ∧ 0 < st'.v.z m := by
  obtain ⟨st', out, h, -, h2, -⟩ := C115_quadratic_program demoQP demo_posdef demo_rows demo_slope QPParams.default default_valid
    (by simp [QPParams.default]) (IP.setupState demoJunk) (setupState_WF _)
  exact ⟨st', out, h, h2⟩

end MiniOpt.Props
