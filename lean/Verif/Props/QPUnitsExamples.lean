import Verif.Props.QPUnits
import Verif.Props.QPResult

/-!
# C120: examples, and what does depend on the units
-/

set_option autoImplicit false

namespace MiniOpt.Props

open MiniOpt MiniOpt.Spec MiniOpt.IP

/-- The first variable in units of 2, the second in units of -3, the equality row multiplied by 5. -/
noncomputable def demoUnits : Units 2 1 1 where
  γ := 1
  d := ![2, -3]
  e := fun _ => 5
  t := fun _ => 1
  γ_pos := one_pos
  d_ne := fun i => by fin_cases i <;> norm_num
  e_ne := fun _ => by norm_num
  t_pos := fun _ => one_pos

/-- The cost multiplied by 7 and the inequality constraint by 4 as well. -/
noncomputable def demoUnits' : Units 2 1 1 :=
  { demoUnits with γ := 7, t := fun _ => 4, γ_pos := by norm_num, t_pos := fun _ => by norm_num }

theorem demoUnits_slope (u : Units 2 1 1) (m : Fin 1) : ((QPInUnits u demoQP).con m).a ≠ 0 :=
  mul_ne_zero (u.t_pos m).ne' (mul_ne_zero (demo_slope m) (u.d_ne _))

/-- Default parameters, default guess. -/
example : ∃ r r', solve exactEigen demoQP QPParams.default (setupState demoJunk) = .ok r ∧
    solve exactEigen (QPInUnits demoUnits demoQP) QPParams.default (setupState demoJunk) = .ok r' ∧ 1 ≤ r.2.iterations.length ∧
    1 ≤ r'.2.iterations.length ∧
    (∀ (k : Nat) (it it' : QPIteration ℝ), r.2.iterations[k]? = some it → r'.2.iterations[k]? = some it' → it'.ip.alpha = it.ip.alpha) := by
  obtain ⟨r, h⟩ := demo_returns QPParams.default default_valid (by simp [QPParams.default])
  obtain ⟨r', h'⟩ := solve_returns exactEigen exactEigen_total (QPInUnits demoUnits demoQP) (demoUnits_slope _) QPParams.default default_valid
    (setupState demoJunk) (Or.inl (by simp [QPParams.default]))
  obtain ⟨h1, -⟩ := C120_units demoUnits exactEigen exactEigen exactEigen_contract exactEigen_contract demoQP
    (demo_posdef.onNull.regular demo_rows) QPParams.default QPParams.default ⟨(one_mul _).symm, rfl, rfl, rfl, rfl, rfl, rfl⟩ _ _
    (.setup demoJunk) (.setup demoJunk) (Or.inl (by simp [QPParams.default])) (by simp [QPParams.default]) (fun _ => ⟨rfl, fun _ => rfl⟩)
    (by simp [QPParams.default]) r r' h h'
  exact ⟨r, r', h, h', (C13_iteration_count _ _ _ _ _ h).1, (C13_iteration_count _ _ _ _ _ h').1,
    fun k it it' hk hk' => by rw [h1 k it it' hk hk']; rfl⟩

/-- A user-provided start, the predictor-corrector strategy, all units changed; one iteration each. -/
noncomputable def pcPrm (mu : ℝ) : QPParams ℝ :=
  { QPParams.default with initialMu := mu, maxIterations := 1, barrierStrategy := .predictorCorrector, initialGuessMethod := .userProvided }

theorem pc_valid (mu : ℝ) (hmu : 0 < mu) : checkParams (pcPrm mu) = .ok () := by
  have := default_valid
  unfold checkParams at this ⊢
  simp only [pcPrm, QPParams.default] at this ⊢
  simp only [real_lit] at this ⊢
  norm_num [hmu] at this ⊢

noncomputable def demoStart : Blocks 2 1 1 ℝ := ⟨fun _ => 1, fun _ => 2, fun _ => 0, fun _ => 3⟩

example : ∃ r r', solve exactEigen demoQP (pcPrm 1) { setupState demoJunk with v := demoStart } = .ok r ∧
    solve exactEigen (QPInUnits demoUnits' demoQP) (pcPrm 7) { setupState demoJunk with v := pointInUnits demoUnits' demoStart } = .ok r' ∧
    r'.1.v = pointInUnits demoUnits' r.1.v := by
  have hp : (∀ m, 0 < demoStart.s m) ∧ ∀ m, 0 < demoStart.z m := ⟨fun m => by norm_num [demoStart], fun m => by norm_num [demoStart]⟩
  obtain ⟨r, h⟩ := solve_returns exactEigen exactEigen_total demoQP demo_slope (pcPrm 1) (pc_valid 1 one_pos)
    { setupState demoJunk with v := demoStart } (Or.inr hp)
  obtain ⟨r', h'⟩ := solve_returns exactEigen exactEigen_total (QPInUnits demoUnits' demoQP) (demoUnits_slope _) (pcPrm 7) (pc_valid 7 (by norm_num))
    { setupState demoJunk with v := pointInUnits demoUnits' demoStart }
    (Or.inr ⟨fun m => by norm_num [pointInUnits, demoStart, demoUnits'], fun m => by norm_num [pointInUnits, demoStart, demoUnits']⟩)
  obtain ⟨-, h2⟩ := C120_units demoUnits' exactEigen exactEigen exactEigen_contract exactEigen_contract demoQP
    (demo_posdef.onNull.regular demo_rows) (pcPrm 1) (pcPrm 7) ⟨by simp [pcPrm, demoUnits'], rfl, rfl, rfl, rfl, rfl, rfl⟩ _ _
    (.setVariables _ (.setup demoJunk)) (.setVariables _ (.setup demoJunk)) (Or.inr hp) (by simp [pcPrm]) (by simp [pcPrm])
    (fun _ => rfl) r r' h h'
  refine ⟨r, r', h, h', h2 ?_⟩
  obtain ⟨a1, a2, -⟩ := C13_iteration_count _ _ _ _ _ h
  obtain ⟨b1, b2, -⟩ := C13_iteration_count _ _ _ _ _ h'
  simp only [pcPrm] at a2 b2
  omega

/-- Signs only: the second variable replaced by its negative, the equality row multiplied by `-1`. -/
noncomputable def demoSigns : Units 2 1 1 where
  γ := 1
  d := ![1, -1]
  e := fun _ => -1
  t := fun _ => 1
  γ_pos := one_pos
  d_ne := fun i => by fin_cases i <;> norm_num
  e_ne := fun _ => by norm_num
  t_pos := fun _ => one_pos

example : ∃ r r', solve exactEigen demoQP QPParams.default (setupState demoJunk) = .ok r ∧
    solve exactEigen (QPInUnits demoSigns demoQP) QPParams.default (setupState demoJunk) = .ok r' ∧
    r'.2.iterations = r.2.iterations ∧ r'.1.v.x 1 = - r.1.v.x 1 := by
  obtain ⟨r, h⟩ := demo_returns QPParams.default default_valid (by simp [QPParams.default])
  obtain ⟨r', h'⟩ := solve_returns exactEigen exactEigen_total (QPInUnits demoSigns demoQP) (demoUnits_slope _) QPParams.default default_valid
    (setupState demoJunk) (Or.inl (by simp [QPParams.default]))
  obtain ⟨h1, -, h3⟩ := C120_signs demoSigns ⟨rfl, fun _ => rfl, fun i => by fin_cases i <;> simp [demoSigns], fun _ => by simp [demoSigns]⟩
    exactEigen exactEigen exactEigen_contract exactEigen_contract demoQP
    (demo_posdef.onNull.regular demo_rows) QPParams.default _ _
    (.setup demoJunk) (.setup demoJunk) (Or.inl (by simp [QPParams.default])) (by simp [QPParams.default])
    (by simp [QPParams.default]) r r' h h'
  refine ⟨r, r', h, h', h1, ?_⟩
  rw [h3]
  simp [pointInUnits, demoSigns, div_neg, div_one]

/-! ## The guess fixes the units of the cost -/

/-- Minimise `γ (x²/2 + 2 x)` subject to `x ≥ -1`. -/
noncomputable def bowlQP (γ : ℝ) : QP 1 1 0 ℝ where
  G _ _ := γ
  c _ := 2 * γ
  A k _ := k.elim0
  b k := k.elim0
  con _ := ⟨0, 1, 1⟩

/-- Only the units of the cost. -/
noncomputable def costUnits (γ : ℝ) (h : 0 < γ) : Units 1 1 0 :=
  ⟨γ, fun _ => 1, fun k => k.elim0, fun _ => 1, h, fun _ => one_ne_zero, fun k => k.elim0, fun _ => one_pos⟩

theorem bowl_units (γ : ℝ) (h : 0 < γ) : QPInUnits (costUnits γ h) (bowlQP 1) = bowlQP γ := by
  unfold QPInUnits costUnits bowlQP
  congr 1
  · funext i j; simp
  · funext i; ring
  · funext k; exact k.elim0
  · funext k; exact k.elim0
  · funext m; simp

/-- One iteration of the default strategy, barrier parameter `γ`. -/
noncomputable def oncePrm (γ : ℝ) : QPParams ℝ := { QPParams.default with initialMu := γ, maxIterations := 1 }

theorem once_valid (mu : ℝ) (hmu : 0 < mu) : checkParams (oncePrm mu) = .ok () := by
  have := default_valid
  unfold checkParams at this ⊢
  simp only [oncePrm, QPParams.default] at this ⊢
  simp only [real_lit] at this ⊢
  norm_num [hmu] at this ⊢

theorem bowl_regular (γ : ℝ) (h : 0 < γ) : Regular (bowlQP γ) where
  rows y _ := by funext k; exact k.elim0
  psd d _ := by
    simp only [Finset.univ_unique, Fin.default_eq_zero, Fin.isValue, Finset.sum_singleton, Gsym, bowlQP]
    nlinarith [mul_nonneg h.le (mul_self_nonneg (d 0))]
  pd d hd _ hm := by
    refine absurd (funext fun i => ?_) hd
    have := hm 0
    rw [Fin.fin_one_eq_zero i]
    simpa [bowlQP] using this

theorem bowl_guess (E : Eigen 1 0 ℝ) (γ : ℝ) (st st0 : IPState 1 1 0 ℝ) (h0 : initialGuess E (bowlQP γ) .naive st = .ok st0) :
    st0.v.x 0 = 0 ∧ st0.v.s 0 = 1 ∧ st0.v.z 0 = 1 := by
  have hc : ((bowlQP γ).con 0).toIneq.clampX (0 : ℝ) = .ok 0 := by
    unfold Ineq.clampX
    simp [bowlQP, Con.toIneq, Scalar.feq, cmax]
    norm_num
  unfold initialGuess finishGuess at h0
  dsimp only at h0
  have hl : List.finRange 1 = [0] := rfl
  rw [hl] at h0
  unfold clampAll at h0
  have hvar : ((bowlQP γ).con 0).var = 0 := rfl
  rw [hc] at h0
  dsimp only at h0
  unfold clampAll at h0
  dsimp only at h0
  cases h0
  simp [bowlQP, cmax, minSlack, real_lit]
  norm_num

theorem bowl_once (γ : ℝ) (h : 0 < γ) (E : Eigen 1 0 ℝ) (hE : LDLTContract E) (st : IPState 1 1 0 ℝ) (hwf : WF st)
    (r : IPState 1 1 0 ℝ × QPOutputs ℝ) (hr : solve E (bowlQP γ) (oncePrm γ) st = .ok r) :
    r.2.iterations.length = 1 ∧ r.1.v.x 0 = - γ / (γ + 1) := by
  obtain ⟨hc, st0, h0, hl⟩ := solve_ok hr
  have hguess : (oncePrm γ).initialGuessMethod = .naive := rfl
  rw [hguess] at h0
  obtain ⟨gx, gs, gz⟩ := bowl_guess E γ st st0 h0
  have hn : (oncePrm γ).maxIterations.toNat = 0 + 1 := rfl
  have hmu : initialMu (oncePrm γ) (evaluateKKT (bowlQP γ) true st0) = γ := by simp [initialMu, oncePrm, QPParams.default]
  rw [hn, hmu] at hl
  have hwf0 := WF_initialGuess hwf h0
  have hv0 := evaluateKKT_v (bowlQP γ) true st0
  have hs0 : ∀ m, 0 < (evaluateKKT (bowlQP γ) true st0).v.s m := fun m => by
    rw [Fin.fin_one_eq_zero m, hv0, gs]; exact one_pos
  have hz0 : ∀ m, 0 < (evaluateKKT (bowlQP γ) true st0).v.z m := fun m => by
    rw [Fin.fin_one_eq_zero m, hv0, gz]; exact one_pos
  have hnz := reducedMatrix_nonsing (bowlQP γ) (evaluateKKT (bowlQP γ) true st0).v (bowl_regular γ h) hs0 hz0
  have key : ∀ st2 it, BodyStep E (bowlQP γ) (oncePrm γ) (evaluateKKT (bowlQP γ) true st0) γ st2 it →
      st2.v.x 0 = - γ / (γ + 1) := by
    rintro st2 it ⟨⟨st1, hit, hst2⟩, hi, hf⟩
    obtain ⟨corr, d, hN, hv, hsame, -⟩ := C09_newton_direction E hE _ _ _ _ _ _ (WF_evaluateKKT hwf0) hnz hit
    obtain ⟨hmu', hcorr⟩ := hsame (by simp [oncePrm, QPParams.default])
    have e1 := hN.dual 0
    have e2 := hN.comp 0
    have e3 := hN.ineq 0
    rw [hv0] at e1 e2 e3
    simp only [gradLagrangian, ineqVal, Gsym, bowlQP, Finset.univ_unique, Fin.default_eq_zero, Fin.isValue, Finset.sum_singleton,
      Finset.univ_eq_empty, Finset.sum_empty, gx, gs, gz, hcorr, hmu', Pi.zero_apply, if_true] at e1 e2 e3
    have hg1 : 0 < γ + 1 := by linarith
    have e4 : (γ + 1) * d.x 0 = - γ := by
      linarith
    have hdx : d.x 0 = - γ / (γ + 1) := by
      rw [eq_div_iff hg1.ne', mul_comm]; exact e4
    have hds : d.s 0 = - γ / (γ + 1) := by rw [← hdx]; linarith
    obtain ⟨s1, hs1, hst1, hal, -⟩ := iterate_ok hit
    have hready := ready_of_ldlt hs1
    have hdv : (direction (bowlQP γ) γ (oncePrm γ).barrierStrategy s1).1.v = st0.v := by
      rw [(direction_fields _ _ _ _).1, hready.v_eq, hv0]
    have hpos : 0 < it.ip.alpha.primal := by
      rw [hal]
      simp only [stepAlpha, Nat.one_pos, if_true, computeAlpha]
      exact alphaLoop_pos (fun m => by rw [hdv, Fin.fin_one_eq_zero m, gs]; exact one_pos) (by norm_num [tauStep, real_lit])
    have hdelta : (direction (bowlQP γ) γ (oncePrm γ).barrierStrategy s1).1.delta.s 0 = - γ / (γ + 1) := by
      have : st1.v.s 0 = st0.v.s 0 + (direction (bowlQP γ) γ (oncePrm γ).barrierStrategy s1).1.delta.s 0 * it.ip.alpha.primal := by
        rw [hst1]; simp only [applyStep]; rw [hdv]
      rw [hv] at this
      simp only [step] at this
      rw [hv0, mul_comm] at this
      have := mul_right_cancel₀ hpos.ne' (add_left_cancel this)
      rw [← this, hds]
    have hone : it.ip.alpha.primal = 1 := by
      rw [hal]
      simp only [stepAlpha, Nat.one_pos, if_true, computeAlpha]
      obtain ⟨-, -, h3⟩ := alphaLoop_spec (direction (bowlQP γ) γ (oncePrm γ).barrierStrategy s1).1.v.s
        (direction (bowlQP γ) γ (oncePrm γ).barrierStrategy s1).1.delta.s tauStep
      rcases h3 with h3 | ⟨i, hL, -⟩
      · exact h3
      · have h4 := hL.1
        rw [Fin.fin_one_eq_zero i, hdelta, hdv, gs] at h4
        have : 0 < 1 + - γ / (γ + 1) := by
          have : 1 + - γ / (γ + 1) = 1 / (γ + 1) := by field_simp; ring
          rw [this]; positivity
        linarith
    rw [hst2, evaluateKKT_v, hv]
    simp only [step]
    rw [hv0, gx, hone, hdx]
    ring
  rcases solveLoop_succ E (bowlQP γ) (oncePrm γ) 0 (evaluateKKT (bowlQP γ) true st0) γ [] with ⟨e, -, he⟩ | ⟨st2, it, hb, ⟨-, h2⟩ | ⟨-, h2⟩⟩
  · rw [he] at hl; cases hl
  · rw [h2] at hl; cases hl; exact ⟨rfl, key _ _ hb⟩
  · rw [h2] at hl
    unfold solveLoop at hl
    cases hl
    exact ⟨rfl, key _ _ hb⟩

/-- **C120** (limit of the claim). With the guess the library makes, two solves of one problem whose costs are in different units
part after the first iteration, even when the barrier parameter is given in the new units: the hypothesis `hone` of `C120_units`
is needed. -/
theorem C120_cost_units_matter : ∃ (u : Units 1 1 0) (p : QP 1 1 0 ℝ) (prm prm' : QPParams ℝ),
    Regular p ∧ SameMethod u.γ prm prm' ∧ u.d = 1 ∧ u.t = 1 ∧ prm.initialGuessMethod = .naive ∧
    ∀ st : IPState 1 1 0 ℝ, WF st → ∃ r r', solve exactEigen p prm st = .ok r ∧ solve exactEigen (QPInUnits u p) prm' st = .ok r' ∧
      r.2.iterations.length = 1 ∧ r'.2.iterations.length = 1 ∧ r.1.v.x 0 = - (1 / 2) ∧ r'.1.v.x 0 = - (3 / 4) := by
  have h3 : (0 : ℝ) < 3 := by norm_num
  refine ⟨costUnits 3 h3, bowlQP 1, oncePrm 1, oncePrm 3, bowl_regular 1 one_pos, ⟨?_, rfl, rfl, rfl, rfl, rfl, rfl⟩, rfl, rfl, rfl, ?_⟩
  · simp [oncePrm, costUnits]
  · intro st hwf
    rw [bowl_units 3 h3]
    obtain ⟨r, h⟩ := solve_returns exactEigen exactEigen_total (bowlQP 1) (fun _ => one_ne_zero) (oncePrm 1) (once_valid 1 one_pos) st
      (Or.inl (by simp [oncePrm, QPParams.default]))
    obtain ⟨r', h'⟩ := solve_returns exactEigen exactEigen_total (bowlQP 3) (fun _ => one_ne_zero) (oncePrm 3) (once_valid 3 h3) st
      (Or.inl (by simp [oncePrm, QPParams.default]))
    obtain ⟨a1, a2⟩ := bowl_once 1 one_pos exactEigen exactEigen_contract st hwf r h
    obtain ⟨b1, b2⟩ := bowl_once 3 h3 exactEigen exactEigen_contract st hwf r' h'
    exact ⟨r, r', h, h', a1, b1, by rw [a2]; norm_num, by rw [b2]; norm_num⟩

end MiniOpt.Props
