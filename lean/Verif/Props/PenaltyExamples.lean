import Verif.Props.PenaltyBound
import Verif.Props.MaratosExamples
import Mathlib.LinearAlgebra.FiniteDimensional.Lemmas

/-!
# C124: when its assumptions hold
-/

set_option autoImplicit false

namespace MiniOpt.Props

open MiniOpt.Spec MiniOpt.NLS MiniOpt.DemoReal

variable {n D : Nat}

theorem sum_eqRow (p : Problem D ℝ) (f : (r : Residual ℝ) → Fin r.dim → ℝ) :
    ∑ s : EqRow p, f (p.eqs.get s.1) s.2 = (p.eqs.map fun r => ∑ k, f r k).sum := by
  rw [Fintype.sum_sigma, ← List.sum_ofFn]
  congr 1
  apply List.ext_getElem
  · simp
  · intro i h1 h2; simp

/-- Every right-hand side of linearized constraints whose Jacobian has independent rows is reached by a short displacement. -/
theorem rows_reach (p : Problem D ℝ) (σ : ℝ) (hσ : 0 < σ) (x : Fin n → ℝ) (h : RowsIndependentAt p σ x)
    (g : (r : Residual ℝ) → Fin r.dim → ℝ) :
    ∃ v : Fin D → ℝ, (∀ r ∈ p.eqs, ∀ k, slopeAt r x v k = g r k) ∧
      ∑ j, v j ^ 2 ≤ (1 / σ * (p.eqs.map fun r => ∑ k, |g r k|).sum) ^ 2 := by
  let A : EqRow p → Fin D → ℝ := fun s j => jacAt (p.eqs.get s.1) x D s.2 j
  let c : EqRow p → ℝ := fun s => - g (p.eqs.get s.1) s.2
  let M : (EqRow p → ℝ) →ₗ[ℝ] (EqRow p → ℝ) :=
    { toFun := fun w s => ∑ j, A s j * ∑ s', A s' j * w s'
      map_add' := by
        intro u w; funext s
        simp only [Pi.add_apply, mul_add, Finset.sum_add_distrib]
      map_smul' := by
        intro t w; funext s
        simp only [Pi.smul_apply, smul_eq_mul, RingHom.id_apply, Finset.mul_sum]
        refine Finset.sum_congr rfl fun j _ => Finset.sum_congr rfl fun s' _ => ?_
        ring }
  have hquad : ∀ w u : EqRow p → ℝ, ∑ s, u s * M w s = ∑ j, (∑ s, A s j * u s) * (∑ s, A s j * w s) := by
    intro w u
    have : ∀ s, u s * M w s = ∑ j, u s * (A s j * ∑ s', A s' j * w s') := by
      intro s
      show u s * ∑ j, A s j * ∑ s', A s' j * w s' = _
      rw [Finset.mul_sum]
    simp only [this]
    rw [Finset.sum_comm]
    refine Finset.sum_congr rfl fun j _ => ?_
    rw [Finset.sum_mul]
    refine Finset.sum_congr rfl fun s _ => ?_
    ring
  have hinj : Function.Injective M := by
    rw [← LinearMap.ker_eq_bot, LinearMap.ker_eq_bot']
    intro w hw
    have h1 := hquad w w
    rw [hw] at h1
    simp only [Pi.zero_apply, mul_zero, Finset.sum_const_zero] at h1
    have h2 := h w
    have h3 : ∑ j : Fin D, (∑ s : EqRow p, jacAt (p.eqs.get s.1) x D s.2 j * w s) ^ 2 = 0 := by
      rw [h1]; exact Finset.sum_congr rfl fun j _ => pow_two _
    rw [h3] at h2
    have h4 : ∑ s, w s ^ 2 ≤ 0 := by
      by_contra hc
      have := mul_pos (pow_pos hσ 2) (not_le.mp hc)
      linarith
    funext s
    have h5 := (Finset.sum_eq_zero_iff_of_nonneg fun s _ => sq_nonneg (w s)).mp
      (le_antisymm h4 (Finset.sum_nonneg fun s _ => sq_nonneg _)) s (Finset.mem_univ s)
    exact pow_eq_zero_iff (two_ne_zero) |>.mp h5
  obtain ⟨w, hw⟩ := (LinearMap.injective_iff_surjective.mp hinj) (fun s => - c s)
  refine ⟨fun j => ∑ s, A s j * w s, ?_, ?_⟩
  · intro r hr k
    obtain ⟨i, rfl⟩ := List.mem_iff_get.mp hr
    have := congrFun hw ⟨i, k⟩
    have h1 : ∑ j, A ⟨i, k⟩ j * ∑ s', A s' j * w s' = - - g (p.eqs.get i) k := this
    show ∑ j, A ⟨i, k⟩ j * ∑ s, A s j * w s = _
    linarith
  · have h1 := hquad w w
    rw [hw] at h1
    have h2 := h w
    have h3 : ∑ j : Fin D, (∑ s : EqRow p, jacAt (p.eqs.get s.1) x D s.2 j * w s) ^ 2
        = ∑ j, (∑ s, A s j * w s) ^ 2 := rfl
    rw [h3] at h2
    have h4 : ∑ s, w s * -c s = ∑ j, (∑ s, A s j * w s) ^ 2 := by
      rw [h1]; exact Finset.sum_congr rfl fun j _ => (pow_two _).symm
    have hcs : (∑ s, w s * -c s) ^ 2 ≤ (∑ s, w s ^ 2) * ∑ s, (-c s) ^ 2 := Finset.sum_mul_sq_le_sq_mul_sq _ _ _
    have hc2 : ∑ s, (-c s) ^ 2 ≤ (p.eqs.map fun r => ∑ k, |g r k|).sum ^ 2 := by
      have e : (p.eqs.map fun r => ∑ k, |g r k|).sum = ∑ s, |c s| := by
        rw [← sum_eqRow p fun r k => |g r k|]
        exact Finset.sum_congr rfl fun s _ => (abs_neg _).symm
      rw [e]
      have : ∑ s, (-c s) ^ 2 = ∑ s, |c s| ^ 2 := Finset.sum_congr rfl fun s _ => by rw [neg_sq, sq_abs]
      rw [this]
      exact Finset.sum_sq_le_sq_sum_of_nonneg fun s _ => abs_nonneg _
    show ∑ j, (∑ s, A s j * w s) ^ 2 ≤ _
    rw [h4] at hcs
    have hQ : 0 ≤ ∑ s, (-c s) ^ 2 := Finset.sum_nonneg fun s _ => sq_nonneg _
    generalize ∑ j, (∑ s, A s j * w s) ^ 2 = V at *
    generalize ∑ s, w s ^ 2 = W at *
    generalize ∑ s, (-c s) ^ 2 = Q at *
    have hW : W ≤ V / σ ^ 2 := by rw [le_div_iff₀ (by positivity)]; linarith
    rw [mul_pow]
    rcases le_or_gt V 0 with hV | hV
    · exact hV.trans (by positivity)
    · have h5 : V * V ≤ V * (1 / σ ^ 2 * Q) := by
        have h6 := mul_le_mul_of_nonneg_right hW hQ
        have e : V / σ ^ 2 * Q = V * (1 / σ ^ 2 * Q) := by ring
        rw [e] at h6
        nlinarith
      have h7 := le_of_mul_le_mul_left h5 hV
      have h8 : 1 / σ ^ 2 * Q ≤ (1 / σ) ^ 2 * (p.eqs.map fun r => ∑ k, |g r k|).sum ^ 2 := by
        rw [one_div_pow]
        exact mul_le_mul_of_nonneg_left hc2 (by positivity)
      linarith

/-- **C124** (the qualification in familiar terms). If no combination of the rows of the constraint Jacobian at `x` is shorter
than `σ` times its coefficients, the linearized constraints can be satisfied by a displacement of at most `1/σ` times the violation. -/
theorem C124_independent (p : Problem D ℝ) (σ : ℝ) (hσ : 0 < σ) (x : Fin n → ℝ) (h : RowsIndependentAt p σ x) :
    CorrectionAt p (1 / σ) x := by
  obtain ⟨v, v1, v2⟩ := rows_reach p σ hσ x h fun r k => - valueAt r x k
  refine ⟨v, fun r hr k => ?_, ?_⟩
  · have := v1 r hr k
    show valueAt r x k + slopeAt r x v k = 0
    linarith
  · rw [violationAt_real]
    simpa only [abs_neg] using v2

/-- The problem `x = y = 0` on the curve `K (x + y²) = 0` meets the assumptions everywhere. -/
theorem arc_qualified (K : ℝ) (hK : 0 < K) (C : ℝ) : Qualified (arcEnv K).p 2 1 (1 / K) C := by
  refine ⟨fun x _ v => ?_, fun x _ => ?_⟩
  · have : ((arcEnv K).p.costs.map fun r => ∑ k, slopeAt r x v k ^ 2).sum
        = (∑ k : Fin 1, slopeAt arcX x v k ^ 2) + ((∑ k : Fin 1, slopeAt arcY x v k ^ 2) + 0) := rfl
    rw [this, Fin.sum_univ_one, Fin.sum_univ_one, arcX_slope, arcY_slope, Fin.sum_univ_two]
    linarith
  · have hd : 0 < 1 + 4 * x 1 ^ 2 := by positivity
    refine ⟨fun i => if i = 0 then - (x 0 + x 1 ^ 2) / (1 + 4 * x 1 ^ 2)
      else - (x 0 + x 1 ^ 2) * (2 * x 1) / (1 + 4 * x 1 ^ 2), ?_, ?_⟩
    · intro r hr k
      have hr' : r ∈ [arcEq K] := hr
      rcases List.mem_singleton.mp hr' with rfl
      refine (arcEq_lin K x _ k).trans ?_
      simp only [if_true, one_ne_zero, if_false]
      field_simp
      ring
    · rw [Fin.sum_univ_two, arc_violation]
      simp only [if_true, one_ne_zero, if_false]
      have e : (1 / K * |K * (x 0 + x 1 ^ 2)|) ^ 2 = (x 0 + x 1 ^ 2) ^ 2 := by
        rw [mul_pow, sq_abs]; field_simp
      rw [e]
      have e2 : (-(x 0 + x 1 ^ 2) / (1 + 4 * x 1 ^ 2)) ^ 2 + (-(x 0 + x 1 ^ 2) * (2 * x 1) / (1 + 4 * x 1 ^ 2)) ^ 2
          = (x 0 + x 1 ^ 2) ^ 2 / (1 + 4 * x 1 ^ 2) := by
        field_simp; ring
      rw [e2]
      exact div_le_self (sq_nonneg _) (by nlinarith [sq_nonneg (x 1)])

/-- The bound for the default parameters on the curve with `K = 1`. -/
theorem arc_bound (C : ℝ) : penaltyBound dp 1 (1 / 1) C = 19291 / 4050 * C := by
  unfold penaltyBound
  simp only [dp, NLSParams.default, real_lit]
  push_cast
  rw [max_eq_left (by norm_num)]
  ring

/-- C124 with the default parameters, on the curve, from every start with `(x² + y²)/2 + |x + y²| ≤ 10^8`: the solve returns, no
penalty exceeds `max 1 (4.77 C)`, and there is a number of iterations after which it stops whatever `max_iterations` is. -/
example (x0 : Fin 2 → ℝ) (C : ℝ) (hC : C = 1 / 2 * distSq x0 + |x0 0 + x0 1 ^ 2|) (hC8 : C ≤ 10 ^ 8) :
    ∃ B : Nat, ∀ limit : Int, 1 ≤ limit → ∃ (o' : (arcEnv 1).Obj) (out : NLSOutputs ℝ) (calls : List (NLSIteration ℝ)),
      solve (arcEnv 1) { dp with maxIterations := limit } x0 (mkObj _) = .ok (o', out, calls) ∧ out.iterations ≠ [] ∧
      (∀ it ∈ out.iterations, it.penalty ≤ max 1 (19291 / 4050 * C) ∧ it.errorsInitial.equality ≤ C) ∧
      out.iterations.length ≤ B ∧ (out.termination = .maxIterations → limit ≤ B) := by
  have hM : startMerit (arcEnv 1).p dp x0 = C := by
    unfold startMerit
    rw [arc_cost, arc_violation, hC, one_mul]
    have : dp.equalityPenaltyInitial = 1 := by simp [dp, NLSParams.default, real_lit]
    rw [this, div_one]
  have hpi : dp.equalityPenaltyInitial = 1 := by simp [dp, NLSParams.default, real_lit]
  obtain ⟨t1, t2, t3, t4⟩ := dp_tolerances
  obtain ⟨B, hB⟩ := C124_terminates (arcEnv 1).p (arc_ok 1) rfl (arc_eqs 1) dp dp_penalty x0 1 (1 / 1)
    (arc_qualified 1 one_pos _) t1 t4 t3 (by simp only [dp, NLSParams.default, real_lit]; norm_num) (by
      rw [hM, arc_bound, hpi]
      have h1 : max 1 (max 1 (19291 / 4050 * C)) ≤ 10 ^ 9 :=
        max_le (by norm_num) (max_le (by norm_num) (by linarith))
      have h2 : (1 / 10 ^ 6 : ℝ) ≤ dp.absoluteFirstDerivativeTol := by simp only [dp, NLSParams.default, real_lit]; norm_num
      have h3 : (1 / 2 ^ 52 : ℝ) * max 1 (max 1 (19291 / 4050 * C)) ≤ 1 / 2 ^ 52 * 10 ^ 9 :=
        mul_le_mul_of_nonneg_left h1 (by norm_num)
      have h4 : (1 / 2 ^ 52 : ℝ) * 10 ^ 9 ≤ 1 / 10 ^ 6 := by norm_num
      linarith)
  refine ⟨B, fun limit hl => ?_⟩
  have hvalid : NLSParamsValid ({ dp with maxIterations := limit } : NLSParams ℝ) :=
    { (nls_default_valid : NLSParamsValid dp) with maxIterations := by show (0 : Int) ≤ limit; omega }
  obtain ⟨o', out, calls, h, hne⟩ := arc_run 1 one_pos { dp with maxIterations := limit } hvalid dp_penalty hl x0
  obtain ⟨h1, h2⟩ := hB (arcEnv 1) rfl exactNS_contract limit _ o' out calls h
  refine ⟨o', out, calls, h, hne, fun it hit => ?_, h1, h2⟩
  have hb := C124_penalty_bounded (arcEnv 1) exactNS_contract (arc_ok 1) rfl (arc_eqs 1) { dp with maxIterations := limit }
    dp_penalty x0 1 (1 / 1) (arc_qualified 1 one_pos _) _ o' out calls h it hit
  have e1 : penaltyBound { dp with maxIterations := limit } 1 (1 / 1) (startMerit (arcEnv 1).p { dp with maxIterations := limit } x0)
      = 19291 / 4050 * C := by
    rw [← arc_bound C, ← hM]; rfl
  have e2 : startMerit (arcEnv 1).p { dp with maxIterations := limit } x0 = C := hM
  rw [e1, e2] at hb
  exact ⟨by have := hb.1; rwa [show ({ dp with maxIterations := limit } : NLSParams ℝ).equalityPenaltyInitial = 1 from hpi] at this,
    hb.2⟩

/-- `C124_independent` applies: on the curve with `K = 1` the one row `(1, 2 y)` is never shorter than 1. -/
example (x : Fin 2 → ℝ) : RowsIndependentAt (arcEnv 1).p 1 x := by
  intro w
  have key : ∀ s : EqRow (arcEnv 1).p, s = ⟨(0 : Fin 1), (0 : Fin 1)⟩ := by
    rintro ⟨i, k⟩
    have hi : i = (0 : Fin 1) := Subsingleton.elim (α := Fin 1) i 0
    subst hi
    have hk : k = (0 : Fin 1) := Subsingleton.elim (α := Fin 1) k 0
    rw [hk]
  have huniv : (Finset.univ : Finset (EqRow (arcEnv 1).p)) = {⟨(0 : Fin 1), (0 : Fin 1)⟩} := by
    ext s; simp [key s]
  rw [huniv, Finset.sum_singleton, Fin.sum_univ_two]
  simp only [Finset.sum_singleton]
  have e0 : jacAt (arcEq 1) x 2 (0 : Fin 1) 0 = 1 := by unfold arcEq; rw [res2_jac]; simp
  have h0 : jacAt ((arcEnv 1).p.eqs.get (0 : Fin 1)) x 2 (0 : Fin 1) 0 = 1 := e0
  rw [h0, one_mul, one_pow, one_mul]
  have := sq_nonneg (jacAt ((arcEnv 1).p.eqs.get (0 : Fin 1)) x 2 (0 : Fin 1) 1 * w ⟨(0 : Fin 1), (0 : Fin 1)⟩)
  linarith

/-- C124, the sum of the removed violations: from `(0, 1)` on the curve problem. -/
example : ∃ (o' : (arcEnv 1).Obj) (out : NLSOutputs ℝ) (calls : List (NLSIteration ℝ)),
    solve (arcEnv 1) dp (fun i => if i = 0 then 0 else 1) (mkObj _) = .ok (o', out, calls) ∧ out.iterations ≠ [] ∧
    1 / 10 * (out.iterations.map violationRemoved).sum + 10 ^ 4 * violationAt (arcEnv 1).p o'.vars ≤ 10 ^ 4 * (3 / 2) := by
  obtain ⟨o', out, calls, h, hne⟩ := arc_run 1 one_pos dp nls_default_valid dp_penalty
    (by simp [dp, NLSParams.default]) (fun i => if i = 0 then 0 else 1)
  refine ⟨o', out, calls, h, hne, ?_⟩
  have := (C124_violation_sum (arcEnv 1) exactNS_contract (arc_ok 1) rfl (arc_eqs 1) dp dp_penalty _ _ o' out calls h).2
  have hM : startMerit (arcEnv 1).p dp (fun i : Fin 2 => if i = 0 then 0 else 1) = 3 / 2 := by
    unfold startMerit
    rw [arc_cost, arc_violation]
    simp [dp, NLSParams.default, real_lit, distSq]
    norm_num
  rw [hM] at this
  have hr : dp.equalityPenaltyRho = 1 / 10 := by simp only [dp, NLSParams.default, real_lit]; norm_num
  rwa [hr] at this

end MiniOpt.Props
