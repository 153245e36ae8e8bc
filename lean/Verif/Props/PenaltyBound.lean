import Verif.Spec.PenaltySpec
import Verif.Props.Termination
import Verif.Props.NLSNullSpace

/-!
# C124: with equality constraints the penalty stays bounded and the solver stops by itself (exact arithmetic)
-/

set_option autoImplicit false

namespace MiniOpt.Props

open MiniOpt.Spec MiniOpt.NLS

variable {n D : Nat}

/-- The derivative of the cost along `v`, by the inequality of arithmetic and geometric mean. -/
theorem slope_le (p : Problem D ℝ) (x : Fin n → ℝ) (v : Fin D → ℝ) (t : ℝ) (ht : 0 < t) :
    (p.costs.map fun r => ∑ k, valueAt r x k * slopeAt r x v k).sum
      ≤ 1 / t * costAt p x + t / 2 * (p.costs.map fun r => ∑ k, slopeAt r x v k ^ 2).sum := by
  rw [costAt_real, ← List.sum_map_mul_left, ← List.sum_map_mul_left, ← List.sum_map_add]
  refine List.sum_le_sum fun r _ => ?_
  have e : 1 / t * (1 / 2 * ∑ k, valueAt r x k ^ 2) + t / 2 * ∑ k, slopeAt r x v k ^ 2
      = ∑ k, (1 / (2 * t) * valueAt r x k ^ 2 + t / 2 * slopeAt r x v k ^ 2) := by
    rw [Finset.sum_add_distrib, ← Finset.mul_sum, ← Finset.mul_sum]
    field_simp
  rw [e]
  refine Finset.sum_le_sum fun k _ => ?_
  have h := sq_nonneg (valueAt r x k - t * slopeAt r x v k)
  have e2 : 1 / (2 * t) * valueAt r x k ^ 2 + t / 2 * slopeAt r x v k ^ 2
      = valueAt r x k * slopeAt r x v k + 1 / (2 * t) * (valueAt r x k - t * slopeAt r x v k) ^ 2 := by
    field_simp; ring
  rw [e2]
  have : 0 ≤ 1 / (2 * t) * (valueAt r x k - t * slopeAt r x v k) ^ 2 := by positivity
  linarith

theorem linearized_rows {p : Problem D ℝ} {x : Fin n → ℝ} {v : Fin D → ℝ} {qp : QPData D p.M p.K ℝ}
    (hA : ∀ dx : Fin D → ℝ, (List.ofFn fun k => (∑ j, qp.A k j * dx j) + qp.b k) = stackedModel x dx p.eqs)
    (hb : List.ofFn qp.b = stackedValues x p.eqs) (hv : ∀ r ∈ p.eqs, ∀ k, linAt r x v k = 0) :
    ∀ k, (∑ j, qp.A k j * v j) + qp.b k = 0 := by
  have h := sum_rows (fun _ m => |m|) x v qp.b (fun k => (∑ j, qp.A k j * v j) + qp.b k) p.eqs hb (hA v)
  have h0 : (p.eqs.map fun r => ∑ k, |linAt r x v k|).sum = 0 := by
    refine List.sum_eq_zero fun a ha => ?_
    obtain ⟨r, hr, rfl⟩ := List.mem_map.mp ha
    exact Finset.sum_eq_zero fun k _ => by rw [hv r hr k, abs_zero]
  rw [h0] at h
  intro k
  exact abs_eq_zero.mp ((Finset.sum_eq_zero_iff_of_nonneg fun k _ => abs_nonneg _).mp h k (Finset.mem_univ k))

/-- What one iteration of the null-space path asks of the penalty. -/
theorem model_le (env : Env n D ℝ) (hE : NSContract env.NE) (hp : WellPosed env.p n) (hi : env.p.ineq = [])
    (he : env.p.eqs ≠ []) (prm : NLSParams ℝ) (x0 : Fin n → ℝ) (o o' : env.Obj) (out : NLSOutputs ℝ)
    (calls : List (NLSIteration ℝ)) (h : solve env prm x0 o = .ok (o', out, calls))
    (k : Nat) (it : NLSIteration ℝ) (hk : out.iterations[k]? = some it) (a b : env.Obj) (ha : After env prm x0 o k a)
    (hb : After env prm x0 o (k + 1) b) (L κ : ℝ) (hL : CostRateAt env.p L a.vars) (hκ : CorrectionAt env.p κ a.vars)
    (t : ℝ) (ht : 0 < t) :
    (∑ i, b.qp.c i * b.dx i) + 1 / 2 * max 0 (∑ i, ∑ j, b.dx i * b.qp.G (max i j) (min i j) * b.dx j)
      ≤ 1 / t * it.errorsInitial.f + (t * L ^ 2 + L ^ 2 + max it.lambda 0) / 2 * (κ * it.errorsInitial.equality) ^ 2 := by
  have hit := List.mem_of_getElem? hk
  have hns := (C45_which_solver env prm x0 o o' out calls h it hit).1 ⟨hi, he⟩
  obtain ⟨h1, h2, h3⟩ := C38_direction env prm x0 o o' out calls h k it hk a b ha hb
  obtain ⟨f1, f2, f3, f4, f5, f6⟩ := linearize_facts hp h1
  have hf : it.errorsInitial.f = costAt env.p a.vars := by rw [f1]; rfl
  have hv : it.errorsInitial.equality = violationAt env.p a.vars := by rw [f1]; rfl
  obtain ⟨v, v1, v2⟩ := hκ
  have hrow := linearized_rows f3 f4 v1
  rcases h3 with ⟨_, _, _, q, _, h4, _⟩ | ⟨s, s', h4, -, h5⟩
  · rw [hns] at h4; cases h4
  · have hmin := (C26_null_space_minimiser env.NE hE _ s _ h4 rfl).2 v hrow
    have hquad : ∀ d : Fin D → ℝ, 0 ≤ ∑ i, ∑ j, d i * b.qp.G (max i j) (min i j) * d j := by
      intro d
      rw [f6]
      refine add_nonneg (List.sum_nonneg ?_) (mul_nonneg (le_max_right _ _) (Finset.sum_nonneg fun i _ => sq_nonneg _))
      intro a ha
      obtain ⟨r, _, rfl⟩ := List.mem_map.mp ha
      exact Finset.sum_nonneg fun k _ => sq_nonneg _
    rw [max_eq_right (hquad b.dx)]
    have hobj : objective (⟨b.qp.G, b.qp.c, b.qp.A, b.qp.b, Fin.elim0⟩ : QP D 0 env.p.K ℝ) b.dx
        ≤ objective (⟨b.qp.G, b.qp.c, b.qp.A, b.qp.b, Fin.elim0⟩ : QP D 0 env.p.K ℝ) v := by
      rw [h5]
      by_cases hne : v = s'.x
      · rw [hne]
      · exact (hmin hne).le
    unfold objective Gsym at hobj
    simp only at hobj
    have e2 := f2 v
    have e6 := f6 v
    have hs := slope_le env.p a.vars v t ht
    have hr := hL v
    have hsq : 0 ≤ ∑ j, v j ^ 2 := Finset.sum_nonneg fun j _ => sq_nonneg _
    rw [hf, hv]
    have hlam : max it.lambda 0 * ∑ i, v i ^ 2 ≤ max it.lambda 0 * (κ * violationAt env.p a.vars) ^ 2 :=
      mul_le_mul_of_nonneg_left v2 (le_max_right _ _)
    have hL2 : L ^ 2 * ∑ j, v j ^ 2 ≤ L ^ 2 * (κ * violationAt env.p a.vars) ^ 2 := mul_le_mul_of_nonneg_left v2 (sq_nonneg L)
    have hmul : t / 2 * (env.p.costs.map fun r => ∑ k, slopeAt r a.vars v k ^ 2).sum
        ≤ t / 2 * (L ^ 2 * (κ * violationAt env.p a.vars) ^ 2) :=
      mul_le_mul_of_nonneg_left (hr.trans hL2) (by positivity)
    have hend := hr.trans hL2
    linarith

theorem selectPenalty_null {p : Problem D ℝ} (qp : QPData D p.M p.K ℝ) (dx : Fin D → ℝ) (rho : ℝ) :
    selectPenalty qp dx none rho
      = ((∑ i, qp.c i * dx i) + 1 / 2 * max 0 (∑ i, ∑ j, dx i * qp.G (max i j) (min i j) * dx j))
        / ((1 - rho) * max (∑ k, |qp.b k|) (1 / 2 ^ 52)) := by
  have hquad : dot dx (matVec (symLower qp.G) dx) = ∑ i, ∑ j, dx i * qp.G (max i j) (min i j) * dx j := by
    rw [real_dot]
    refine Finset.sum_congr rfl fun i _ => ?_
    rw [real_matVec, Finset.mul_sum]
    refine Finset.sum_congr rfl fun j _ => ?_
    have : symLower qp.G i j = qp.G (max i j) (min i j) := by
      unfold symLower
      split_ifs with hij
      · rw [max_eq_left hij, min_eq_right hij]
      · rw [max_eq_right (not_le.mp hij).le, min_eq_left (not_le.mp hij).le]
    rw [this]; ring
  simp only [selectPenalty, real_cmax, real_lpNorm1, epsilon, real_lit, Residual.half]
  rw [hquad, real_dot]
  push_cast
  rfl

/-- The penalty of an iteration is the previous one or was raised by this iteration. -/
theorem penalty_cases (env : Env n D ℝ) (prm : NLSParams ℝ) (x0 : Fin n → ℝ) (o o' : env.Obj) (out : NLSOutputs ℝ)
    (calls : List (NLSIteration ℝ)) (h : solve env prm x0 o = .ok (o', out, calls)) (B : ℝ)
    (hB : ∀ (k : Nat) (it : NLSIteration ℝ) (b : env.Obj), out.iterations[k]? = some it → After env prm x0 o (k + 1) b →
      it.penalty = selectPenalty b.qp b.dx (multipliers it.qpOutputs) prm.equalityPenaltyRho * prm.equalityPenaltyScaleFactor →
      it.penalty ≤ B) :
    ∀ it ∈ out.iterations, it.penalty ≤ max prm.equalityPenaltyInitial B := by
  obtain ⟨hex, _, _⟩ := C38_after env prm x0 o o' out calls h
  have main : ∀ (k : Nat) (it : NLSIteration ℝ), out.iterations[k]? = some it →
      it.penalty ≤ max prm.equalityPenaltyInitial B := by
    intro k
    induction k with
    | zero =>
      intro it hit
      obtain ⟨b, hb, _⟩ := hex 1 (by have := lt_of_getElem? hit; omega)
      have e := (C44_penalty_update env prm x0 o o' out calls h 0 it hit b hb).1
      simp only [if_true] at e
      split_ifs at e with hc
      · exact le_max_of_le_right (hB 0 it b hit hb e)
      · exact le_max_of_le_left e.le
    | succ k ih =>
      intro it hit
      have hk := lt_of_getElem? hit
      obtain ⟨itp, hitp⟩ : ∃ itp, out.iterations[k]? = some itp := ⟨_, List.getElem?_eq_getElem (by omega)⟩
      obtain ⟨b, hb, _⟩ := hex (k + 2) (by omega)
      have e := (C44_penalty_update env prm x0 o o' out calls h (k + 1) it hit b hb).1
      simp only [Nat.add_sub_cancel, hitp, Option.map_some, Option.getD_some, Nat.succ_ne_zero, if_false] at e
      split_ifs at e with hc
      · exact le_max_of_le_right (hB (k + 1) it b hit hb e)
      · rw [e]; exact ih itp hitp
  intro it hit
  obtain ⟨k, hk⟩ := List.mem_iff_getElem?.mp hit
  exact main k it hk

/-- The merit function divided by the penalty never exceeds its first value. -/
theorem scaled_merit_le (env : Env n D ℝ) (hc : ConsistentP env.p) (prm : NLSParams ℝ) (x0 : Fin n → ℝ)
    (o o' : env.Obj) (out : NLSOutputs ℝ) (calls : List (NLSIteration ℝ))
    (h : solve env prm x0 o = .ok (o', out, calls)) (hpen : 0 < prm.equalityPenaltyInitial)
    (it : NLSIteration ℝ) (hit : it ∈ out.iterations) :
    it.errorsInitial.f / it.penalty + it.errorsInitial.equality ≤ startMerit env.p prm x0 := by
  obtain ⟨k, hk⟩ := List.mem_iff_getElem?.mp hit
  have hlt := lt_of_getElem? hk
  obtain ⟨first, hfirst⟩ : ∃ it, out.iterations[0]? = some it := ⟨_, List.getElem?_eq_getElem (by omega)⟩
  obtain ⟨m1, -⟩ := C76_accepted_steps env hc prm x0 o o' out calls h first it k hfirst hk
  obtain ⟨hpos, -, -⟩ := C44_penalty env prm x0 o o' out calls h
  obtain ⟨q1, q2, -⟩ := hpos first (List.mem_of_getElem? hfirst)
  obtain ⟨S, T, W, hv⟩ := solve_view h
  have hr := hv.prmOk.relativeExitTol
  have h1 : (1 - prm.relativeExitTol) ^ successesBefore out.iterations k ≤ 1 :=
    pow_le_one₀ (by linarith [hr.2]) (by linarith [hr.1])
  have h2 : costAt env.p x0 / first.penalty ≤ costAt env.p x0 / prm.equalityPenaltyInitial :=
    div_le_div_of_nonneg_left (costAt_nonneg _ _) hpen q2
  have h3 : 0 ≤ costAt env.p x0 / first.penalty + violationAt env.p x0 :=
    add_nonneg (div_nonneg (costAt_nonneg _ _) q1.le) (violationAt_nonneg _ _)
  have h4 := mul_le_mul_of_nonneg_left h1 h3
  unfold startMerit
  linarith

/-- **C124** (the penalty stays bounded). Equality constraints but no inequality constraints; wherever the constraints are
violated by at most `C`, the merit function at the start divided by the initial penalty, the Jacobian of the costs is bounded
and the linearized constraints can be satisfied by a displacement proportional to their violation. Then no logged penalty exceeds
the initial one or `penaltyBound`, however long the solve runs; and at every iteration the violation is at most `C`. Any
retraction, damping, callback and line search strategy. -/
theorem C124_penalty_bounded (env : Env n D ℝ) (hE : NSContract env.NE) (hp : WellPosed env.p n) (hi : env.p.ineq = [])
    (he : env.p.eqs ≠ []) (prm : NLSParams ℝ) (hpen : 0 < prm.equalityPenaltyInitial) (x0 : Fin n → ℝ) (L κ : ℝ)
    (hq : Qualified env.p n L κ (startMerit env.p prm x0)) (o o' : env.Obj) (out : NLSOutputs ℝ)
    (calls : List (NLSIteration ℝ)) (h : solve env prm x0 o = .ok (o', out, calls)) :
    ∀ it ∈ out.iterations,
      it.penalty ≤ max prm.equalityPenaltyInitial (penaltyBound prm L κ (startMerit env.p prm x0)) ∧
      it.errorsInitial.equality ≤ startMerit env.p prm x0 := by
  have hcon : ConsistentP env.p := hp.consistent
  obtain ⟨hpos, -, -⟩ := C44_penalty env prm x0 o o' out calls h
  obtain ⟨hex, _, _⟩ := C38_after env prm x0 o o' out calls h
  have hprm : NLSParamsValid prm := by
    obtain ⟨S, T, W, hv⟩ := solve_view h
    exact hv.prmOk
  have hmer := scaled_merit_le env hcon prm x0 o o' out calls h hpen
  have hviol : ∀ it ∈ out.iterations, it.errorsInitial.equality ≤ startMerit env.p prm x0 := by
    intro it hit
    obtain ⟨k, hk⟩ := List.mem_iff_getElem?.mp hit
    have h1 := (errorsInitial_nonneg env hcon prm x0 o o' out calls h k it hk).1
    have h2 := div_nonneg h1 (hpos it hit).1.le
    linarith [hmer it hit]
  intro it hit
  refine ⟨?_, hviol it hit⟩
  refine penalty_cases env prm x0 o o' out calls h _ ?_ it hit
  clear hit it
  intro k it b hk hb e
  have hit := List.mem_of_getElem? hk
  obtain ⟨a, ha, _⟩ := hex k (by have := lt_of_getElem? hk; omega)
  have hns := (C45_which_solver env prm x0 o o' out calls h it hit).1 ⟨hi, he⟩
  obtain ⟨h1, -, -⟩ := C38_direction env prm x0 o o' out calls h k it hk a b ha hb
  obtain ⟨f1, f2, f3, f4, f5, f6⟩ := linearize_facts hp h1
  have hv : it.errorsInitial.equality = violationAt env.p a.vars := by rw [f1]; rfl
  have hva : violationAt env.p a.vars ≤ startMerit env.p prm x0 := hv ▸ hviol it hit
  have hM := hmer it hit
  obtain ⟨n1, n2, -⟩ := errorsInitial_nonneg env hcon prm x0 o o' out calls h k it hk
  have hP := (hpos it hit).1
  have hlam := (C43_lambda_limits env prm x0 o o' out calls h).1 it hit
  have hs := hprm.equalityPenaltyScaleFactor
  have hrho := hprm.equalityPenaltyRho
  rw [hns] at e
  have e' : it.penalty = selectPenalty b.qp b.dx none prm.equalityPenaltyRho * prm.equalityPenaltyScaleFactor := e
  rw [selectPenalty_null, sum_abs_b f3 f4, ← hv] at e'
  have hmodel := model_le env hE hp hi he prm x0 o o' out calls h k it hk a b ha hb L κ (hq.rate a.vars hva)
    (hq.correction a.vars hva)
  generalize (∑ i, b.qp.c i * b.dx i) + 1 / 2 * max 0 (∑ i, ∑ j, b.dx i * b.qp.G (max i j) (min i j) * b.dx j) = Q at e' hmodel
  unfold penaltyBound
  generalize startMerit env.p prm x0 = C at hM hviol hva ⊢
  generalize it.errorsInitial.equality = v at *
  generalize it.errorsInitial.f = f at *
  generalize it.penalty = P at *
  generalize prm.equalityPenaltyScaleFactor = s at *
  generalize prm.equalityPenaltyRho = rho at *
  have hlm : max it.lambda 0 ≤ max prm.maxLambda 0 := max_le_max_right 0 hlam.2
  have hl0 : 0 ≤ max it.lambda 0 := le_max_right _ _
  generalize max it.lambda 0 = lam at *
  generalize max prm.maxLambda 0 = lamM at *
  have hr1 : 0 < 1 - rho := by linarith
  have hm : 0 < max v (1 / 2 ^ 52) := lt_of_lt_of_le (by norm_num) (le_max_right _ _)
  have hs0 : 0 < s := by linarith
  have hfP : f ≤ C * P := by
    have : f / P ≤ C := by linarith
    rwa [div_le_iff₀ hP] at this
  have hQ : P * ((1 - rho) * max v (1 / 2 ^ 52)) = Q * s := by
    rw [e']; field_simp
  have hQv : P * ((1 - rho) * v) ≤ Q * s := by
    rw [← hQ]
    exact mul_le_mul_of_nonneg_left (mul_le_mul_of_nonneg_left (le_max_left _ _) hr1.le) hP.le
  have hQpos : 0 < Q * s := by rw [← hQ]; positivity
  rcases n2.eq_or_lt with hz | hvpos
  · -- no violation: the model cannot increase
    exfalso
    have hQ0 : Q ≤ 0 := by
      by_contra hc
      have hc : 0 < Q := not_le.mp hc
      have hf1 : 0 < f + 1 := by linarith
      have := hmodel (2 * (f + 1) / Q) (by positivity)
      rw [← hz, mul_zero] at this
      simp only [ne_eq, OfNat.ofNat_ne_zero, not_false_eq_true, zero_pow, mul_zero, add_zero] at this
      have e1 : 1 / (2 * (f + 1) / Q) * f = Q * f / (2 * (f + 1)) := by field_simp
      rw [e1, le_div_iff₀ (by positivity)] at this
      nlinarith
    nlinarith
  · have hCpos : 0 < C := lt_of_lt_of_le hvpos (by
      have := div_nonneg n1 hP.le
      linarith)
    have hvC : v ≤ C := by
      have := div_nonneg n1 hP.le
      linarith
    have ht : 0 < 2 * s * C / (v * (1 - rho)) := by positivity
    have hm2 := hmodel _ ht
    -- multiply by s and divide by (1 - rho) v
    have hA : 1 / (2 * s * C / (v * (1 - rho))) * f ≤ v * (1 - rho) / (2 * s) * P := by
      have e1 : 1 / (2 * s * C / (v * (1 - rho))) * f = v * (1 - rho) / (2 * s * C) * f := by field_simp
      have e2 : v * (1 - rho) / (2 * s) * P = v * (1 - rho) / (2 * s * C) * (C * P) := by field_simp
      rw [e1, e2]
      exact mul_le_mul_of_nonneg_left hfP (by positivity)
    have hB : (2 * s * C / (v * (1 - rho)) * L ^ 2 + L ^ 2 + lam) / 2 * (κ * v) ^ 2
        ≤ v * κ ^ 2 * C / 2 * (2 * s / (1 - rho) * L ^ 2 + L ^ 2 + lamM) := by
      have e1 : (2 * s * C / (v * (1 - rho)) * L ^ 2 + L ^ 2 + lam) / 2 * (κ * v) ^ 2
          = v * κ ^ 2 * C / 2 * (2 * s / (1 - rho) * L ^ 2) + v * κ ^ 2 * v / 2 * (L ^ 2 + lam) := by
        field_simp
        ring
      have e2 : v * κ ^ 2 * C / 2 * (2 * s / (1 - rho) * L ^ 2 + L ^ 2 + lamM)
          = v * κ ^ 2 * C / 2 * (2 * s / (1 - rho) * L ^ 2) + v * κ ^ 2 * C / 2 * (L ^ 2 + lamM) := by ring
      rw [e1, e2]
      have h2 : v * κ ^ 2 * v / 2 * (L ^ 2 + lam) ≤ v * κ ^ 2 * C / 2 * (L ^ 2 + lamM) := by
        refine mul_le_mul ?_ (by linarith) (by positivity) (by positivity)
        have : v * κ ^ 2 * v ≤ v * κ ^ 2 * C := mul_le_mul_of_nonneg_left hvC (by positivity)
        linarith
      linarith
    have hall : P * ((1 - rho) * v) ≤ (v * (1 - rho) / (2 * s) * P + v * κ ^ 2 * C / 2 * (2 * s / (1 - rho) * L ^ 2 + L ^ 2 + lamM)) * s :=
      hQv.trans (mul_le_mul_of_nonneg_right (by linarith) hs0.le)
    generalize hX : 2 * s / (1 - rho) * L ^ 2 + L ^ 2 + lamM = X at *
    have e3 : (v * (1 - rho) / (2 * s) * P + v * κ ^ 2 * C / 2 * X) * s = P * ((1 - rho) * v) / 2 + s * κ ^ 2 * C * X / 2 * v := by
      field_simp
    rw [e3] at hall
    have h5 : P * (1 - rho) * v ≤ s * κ ^ 2 * C * X * v := by linarith
    have h6 := le_of_mul_le_mul_right h5 hvpos
    have e4 : s / (1 - rho) * κ ^ 2 * C * X = s * κ ^ 2 * C * X / (1 - rho) := by field_simp
    rw [e4, le_div_iff₀ hr1]
    exact h6

/-- A gain `w` of each iteration that is paid for by the decrease of the merit function adds up to at most the merit function at
the start, all divided by the penalty. -/
theorem scaled_sum (env : Env n D ℝ) (prm : NLSParams ℝ) (hpen : 0 < prm.equalityPenaltyInitial) (x0 : Fin n → ℝ)
    (o o' : env.Obj) (out : NLSOutputs ℝ) (calls : List (NLSIteration ℝ))
    (h : solve env prm x0 o = .ok (o', out, calls)) (w : NLSIteration ℝ → ℝ)
    (hstep : ∀ (k : Nat) (it : NLSIteration ℝ), out.iterations[k]? = some it → ∀ a b : env.Obj, After env prm x0 o k a →
      After env prm x0 o (k + 1) b →
      w it * it.penalty ≤ 10 ^ 4 * (merit env.p it.penalty a.vars - merit env.p it.penalty b.vars)) :
    (out.iterations.map w).sum + 10 ^ 4 * violationAt env.p o'.vars ≤ 10 ^ 4 * startMerit env.p prm x0 := by
  obtain ⟨hex, hfirst, hlast⟩ := C38_after env prm x0 o o' out calls h
  obtain ⟨hpos, hmono, -⟩ := C44_penalty env prm x0 o o' out calls h
  have hsum : ∀ k, k ≤ out.iterations.length → ∀ a : env.Obj, After env prm x0 o k a → ∀ P : ℝ,
      prm.equalityPenaltyInitial ≤ P → (∀ (j : Nat) (it : NLSIteration ℝ), j < k → out.iterations[j]? = some it → it.penalty ≤ P) →
      ((out.iterations.take k).map w).sum
        + 10 ^ 4 * (costAt env.p a.vars / P + violationAt env.p a.vars) ≤ 10 ^ 4 * startMerit env.p prm x0 := by
    intro k
    induction k with
    | zero =>
      intro _ a ha P hP _
      rw [hfirst a ha]
      have : costAt env.p x0 / P ≤ costAt env.p x0 / prm.equalityPenaltyInitial :=
        div_le_div_of_nonneg_left (costAt_nonneg _ _) hpen hP
      unfold startMerit
      simp only [List.take_zero, List.map_nil, List.sum_nil, zero_add]
      linarith
    | succ k ih =>
      intro hk b hb P hP hle
      obtain ⟨a, ha, -⟩ := hex k (by omega)
      obtain ⟨it, hit⟩ : ∃ it, out.iterations[k]? = some it := ⟨_, List.getElem?_eq_getElem (by omega)⟩
      obtain ⟨q1, q2, -⟩ := hpos it (List.mem_of_getElem? hit)
      have h1 := ih (by omega) a ha it.penalty q2 fun j it' hj hit' => hmono j k it' it (by omega) hit' hit
      have h2 := hstep k it hit a b ha hb
      have h3 : costAt env.p b.vars / P ≤ costAt env.p b.vars / it.penalty :=
        div_le_div_of_nonneg_left (costAt_nonneg _ _) q1 (hle k it (by omega) hit)
      have h4 : w it
          ≤ 10 ^ 4 * ((costAt env.p a.vars / it.penalty + violationAt env.p a.vars)
            - (costAt env.p b.vars / it.penalty + violationAt env.p b.vars)) := by
        have e : 10 ^ 4 * ((costAt env.p a.vars / it.penalty + violationAt env.p a.vars)
            - (costAt env.p b.vars / it.penalty + violationAt env.p b.vars))
            = 10 ^ 4 * (merit env.p it.penalty a.vars - merit env.p it.penalty b.vars) / it.penalty := by
          unfold merit; field_simp
        rw [e, le_div_iff₀ q1]
        exact h2
      rw [List.take_add_one, hit, List.map_append, List.sum_append]
      simp only [Option.toList_some, List.map_cons, List.map_nil, List.sum_cons, List.sum_nil, add_zero]
      linarith
  obtain ⟨z, hz, -⟩ := hex out.iterations.length le_rfl
  obtain ⟨P, hP1, hP2⟩ : ∃ P : ℝ, prm.equalityPenaltyInitial ≤ P ∧ ∀ it ∈ out.iterations, it.penalty ≤ P := by
    rcases Nat.eq_zero_or_pos out.iterations.length with h0 | h0
    · refine ⟨_, le_rfl, fun it hit => ?_⟩
      rw [List.length_eq_zero_iff.mp h0] at hit
      cases hit
    · obtain ⟨itl, hitl⟩ : ∃ it, out.iterations[out.iterations.length - 1]? = some it :=
        ⟨_, List.getElem?_eq_getElem (by omega)⟩
      refine ⟨itl.penalty, (hpos itl (List.mem_of_getElem? hitl)).2.1, fun it hit => ?_⟩
      obtain ⟨k, hk⟩ := List.mem_iff_getElem?.mp hit
      exact hmono k _ it itl (by have := lt_of_getElem? hk; omega) hk hitl
  have hfin := hsum _ le_rfl z hz P hP1 fun j it _ hit => hP2 it (List.mem_of_getElem? hit)
  rw [List.take_length, hlast z hz] at hfin
  have : 0 ≤ costAt env.p o'.vars / P := div_nonneg (costAt_nonneg _ _) (by linarith)
  linarith

/-- **C124** (feasibility). Under no assumption but well-posedness: the accepted step lengths, each times the violation it started
from, add up to at most `10^4 / rho` times the merit function at the start divided by the initial penalty - however the penalty
evolves. So the violation cannot stay large unless the steps become short. -/
theorem C124_violation_sum (env : Env n D ℝ) (hE : NSContract env.NE) (hp : WellPosed env.p n) (hi : env.p.ineq = [])
    (he : env.p.eqs ≠ []) (prm : NLSParams ℝ) (hpen : 0 < prm.equalityPenaltyInitial) (x0 : Fin n → ℝ) (o o' : env.Obj)
    (out : NLSOutputs ℝ) (calls : List (NLSIteration ℝ)) (h : solve env prm x0 o = .ok (o', out, calls)) :
    (∀ it ∈ out.iterations, 0 ≤ violationRemoved it) ∧
    prm.equalityPenaltyRho * (out.iterations.map violationRemoved).sum + 10 ^ 4 * violationAt env.p o'.vars
      ≤ 10 ^ 4 * startMerit env.p prm x0 := by
  have hcon : ConsistentP env.p := hp.consistent
  obtain ⟨hex, hfirst, hlast⟩ := C38_after env prm x0 o o' out calls h
  obtain ⟨hpos, hmono, -⟩ := C44_penalty env prm x0 o o' out calls h
  have hrho : 0 ≤ prm.equalityPenaltyRho ∧ prm.equalityPenaltyRho < 1 := by
    obtain ⟨S, T, W, hv⟩ := solve_view h
    exact hv.prmOk.equalityPenaltyRho
  have hstep : ∀ (k : Nat) (it : NLSIteration ℝ), out.iterations[k]? = some it → ∀ a b : env.Obj, After env prm x0 o k a →
      After env prm x0 o (k + 1) b → 0 ≤ violationRemoved it ∧
      prm.equalityPenaltyRho * violationRemoved it * it.penalty
        ≤ 10 ^ 4 * (merit env.p it.penalty a.vars - merit env.p it.penalty b.vars) := by
    intro k it hit a b ha hb
    have hmem := List.mem_of_getElem? hit
    have hP := (hpos it hmem).1
    by_cases hs : it.stepResult = .success
    · obtain ⟨st, hst, h0, h1, hd, hm, hm'⟩ := C36_sufficient_decrease env hcon prm x0 o o' out calls h k it hit hs a b ha hb
      unfold violationRemoved
      rw [hst]
      simp only [hs, true_and, Option.map_some, Option.getD_some]
      split_ifs with hv
      · have hvv : 0 ≤ it.errorsInitial.equality := le_trans (by norm_num) hv
        refine ⟨mul_nonneg h0.le hvv, ?_⟩
        obtain ⟨-, c2, -⟩ := C45_descent env hE hp hi he prm x0 o o' out calls h it hmem
        obtain ⟨c3, -, -⟩ := c2 (Or.inl hv)
        have c4 : it.directionalDerivatives.dF + it.penalty * it.directionalDerivatives.dEquality
            ≤ - (prm.equalityPenaltyRho * it.penalty * it.errorsInitial.equality) := c3
        have c5 := mul_le_mul_of_nonneg_left c4 h0.le
        linarith
      · refine ⟨le_rfl, ?_⟩
        rw [mul_zero, zero_mul]
        linarith
    · have e : violationRemoved it = 0 := by
        unfold violationRemoved
        rw [if_neg fun hh => hs hh.1]
      rw [e, (C38_variables_move env prm x0 o o' out calls h k it hit a b ha hb).2 hs]
      exact ⟨le_rfl, by rw [sub_self, mul_zero, mul_zero, zero_mul]⟩
  refine ⟨?_, ?_⟩
  · intro it hit
    obtain ⟨k, hk⟩ := List.mem_iff_getElem?.mp hit
    have := lt_of_getElem? hk
    obtain ⟨a, ha, -⟩ := hex k (by omega)
    obtain ⟨b, hb, -⟩ := hex (k + 1) (by omega)
    exact (hstep k it hk a b ha hb).1
  · rw [← List.sum_map_mul_left]
    exact scaled_sum env prm hpen x0 o o' out calls h _ fun k it hit a b ha hb => (hstep k it hit a b ha hb).2

/-- With equality constraints, a positive `rho` and a first-order tolerance above machine epsilon (times the penalty), no line
search of the null-space path ends with an invalid `alpha`. -/
theorem never_invalid_eq (env : Env n D ℝ) (hE : NSContract env.NE) (hp : WellPosed env.p n) (hi : env.p.ineq = [])
    (he : env.p.eqs ≠ []) (prm : NLSParams ℝ) (x0 : Fin n → ℝ) (o o' : env.Obj) (out : NLSOutputs ℝ)
    (calls : List (NLSIteration ℝ)) (h : solve env prm x0 o = .ok (o', out, calls)) (hrho : 0 < prm.equalityPenaltyRho)
    (it : NLSIteration ℝ) (hit : it ∈ out.iterations)
    (ht : 1 / 2 ^ 52 * max 1 it.penalty ≤ prm.absoluteFirstDerivativeTol) : it.stepResult ≠ .failureInvalidAlpha := by
  intro hr
  obtain ⟨-, hz, hl⟩ := C42_invalid_alpha_cause env prm x0 o o' out calls h it hit hr
  obtain ⟨c1, c2, -⟩ := C45_descent env hE hp hi he prm x0 o o' out calls h it hit
  have hP := ((C44_penalty env prm x0 o o' out calls h).1 it hit).1
  have hdF : it.directionalDerivatives.dF = it.penalty * it.errorsInitial.equality := by
    unfold DirectionalDerivatives.total at hz
    rw [c1] at hz
    linarith
  obtain ⟨k, hk⟩ := List.mem_iff_getElem?.mp hit
  have hv0 := (errorsInitial_nonneg env hp.consistent prm x0 o o' out calls h k it hk).2.1
  have hsmall : it.errorsInitial.equality < 1 / 2 ^ 52 := by
    by_contra hc
    have hc := not_lt.mp hc
    have := (c2 (Or.inl hc)).1
    rw [hz] at this
    have h2 : 0 < it.errorsInitial.equality := lt_of_lt_of_le (by norm_num) hc
    have : 0 < prm.equalityPenaltyRho * it.penalty * it.errorsInitial.equality := by positivity
    linarith
  have hbound : max |it.directionalDerivatives.dF| |it.directionalDerivatives.dEquality| < prm.absoluteFirstDerivativeTol := by
    refine lt_of_lt_of_le ?_ ht
    rw [hdF, c1, abs_neg, abs_of_nonneg hv0, abs_of_nonneg (mul_nonneg hP.le hv0)]
    have hm1 : it.penalty ≤ max 1 it.penalty := le_max_right _ _
    have hm2 : 1 ≤ max 1 it.penalty := le_max_left _ _
    have hm0 : 0 < max 1 it.penalty := lt_of_lt_of_le one_pos hm2
    have h1 := mul_lt_mul_of_pos_right hsmall hm0
    refine max_lt ?_ ?_
    · refine lt_of_le_of_lt ?_ h1
      rw [mul_comm]
      exact mul_le_mul_of_nonneg_left hm1 hv0
    · refine lt_of_le_of_lt ?_ h1
      exact le_mul_of_one_le_right hv0 hm2
  obtain ⟨S, T, W, hv⟩ := solve_view h
  obtain ⟨hlt, rfl, hpass⟩ := view_info hv hk
  obtain ⟨-, hout, -⟩ := lsLoop_start _ _ _ _ _ _ _ _ _ _ _ _ hpass.ls
  rw [hpass.ires] at hr
  rw [hpass.isteps] at hl
  obtain ⟨-, hrej, -⟩ := hout.facts.invalidAlpha hr
  obtain ⟨st, hst⟩ : ∃ st, st ∈ (W k).steps := List.exists_mem_of_length_pos (by omega)
  have hnl := (hrej st hst).notFirstOrder
  apply hnl
  unfold DirectionalDerivatives.lInfinity
  rw [real_cmax]
  rw [hpass.ideriv] at hbound
  exact hbound

/-- **C124** (termination). Under the assumptions of `C124_penalty_bounded`, with positive `relative_exit_tol`,
`absolute_exit_tol`, `lambda_failure_init` and `equality_penalty_rho`, and a first-order tolerance above the machine epsilon times
the penalty bound: there is a number of iterations `B` that no solve exceeds, whatever its `max_iterations`, callback, retraction,
null-space solver meeting its contract and earlier use of the solver object; and `MAX_ITERATIONS` is reported only if
`max_iterations ≤ B`. -/
theorem C124_terminates (p : Problem D ℝ) (hp : WellPosed p n) (hi : p.ineq = []) (he : p.eqs ≠ [])
    (prm : NLSParams ℝ) (hpen : 0 < prm.equalityPenaltyInitial) (x0 : Fin n → ℝ) (L κ : ℝ)
    (hq : Qualified p n L κ (startMerit p prm x0))
    (hrel : 0 < prm.relativeExitTol) (habs : 0 < prm.absoluteExitTol) (hfail : 0 < prm.lambdaFailureInit)
    (hrho : 0 < prm.equalityPenaltyRho)
    (htol : 1 / 2 ^ 52 * max 1 (max prm.equalityPenaltyInitial (penaltyBound prm L κ (startMerit p prm x0)))
      ≤ prm.absoluteFirstDerivativeTol) :
    ∃ B : Nat, ∀ env : Env n D ℝ, env.p = p → NSContract env.NE → ∀ (limit : Int) (o o' : env.Obj) (out : NLSOutputs ℝ)
      (calls : List (NLSIteration ℝ)), solve env { prm with maxIterations := limit } x0 o = .ok (o', out, calls) →
      out.iterations.length ≤ B ∧ (out.termination = .maxIterations → limit ≤ B) := by
  obtain ⟨R, hR⟩ : ∃ R : Nat, prm.maxLambda < prm.lambdaFailureInit * 10 ^ R := by
    obtain ⟨R, hR⟩ := pow_unbounded_of_one_lt (prm.maxLambda / prm.lambdaFailureInit) (by norm_num : (1 : ℝ) < 10)
    refine ⟨R, ?_⟩
    rw [div_lt_iff₀ hfail] at hR
    linarith
  by_cases hle : prm.relativeExitTol ≤ 1
  · set pm := max prm.equalityPenaltyInitial (penaltyBound prm L κ (startMerit p prm x0)) with hpm
    have hpm0 : 0 < pm := lt_of_lt_of_le hpen (le_max_left _ _)
    have hCn : 0 ≤ startMerit p prm x0 :=
      add_nonneg (div_nonneg (costAt_nonneg _ _) hpen.le) (violationAt_nonneg _ _)
    have htgt : 0 < prm.absoluteExitTol * min 1 (1 / pm) := mul_pos habs (lt_min one_pos (by positivity))
    obtain ⟨S, hS1, hS⟩ : ∃ S : Nat, 0 < S ∧
        startMerit p prm x0 * (1 - prm.relativeExitTol) ^ S < prm.absoluteExitTol * min 1 (1 / pm) := by
      have hcpos : 0 < startMerit p prm x0 + 1 := by linarith
      obtain ⟨S, hS⟩ := exists_pow_lt_of_lt_one (div_pos htgt hcpos) (by linarith : 1 - prm.relativeExitTol < 1)
      refine ⟨S + 1, by omega, ?_⟩
      rw [lt_div_iff₀ hcpos] at hS
      have h1 : (1 - prm.relativeExitTol) ^ (S + 1) ≤ (1 - prm.relativeExitTol) ^ S :=
        pow_le_pow_of_le_one (by linarith) (by linarith) (by omega)
      have h0 : 0 ≤ (1 - prm.relativeExitTol) ^ S := pow_nonneg (by linarith) _
      have h2 := mul_le_mul_of_nonneg_left h1 hCn
      linarith
    refine ⟨S * (R + 1), ?_⟩
    rintro env rfl hE limit o o' out calls h
    have hb := C124_penalty_bounded env hE hp hi he { prm with maxIterations := limit } hpen x0 L κ hq o o' out calls h
    have hbound : out.iterations.length ≤ S * (R + 1) := by
      refine C78_iteration_bound env hp.consistent _ x0 o o' out calls h S R pm (fun it hit => (hb it hit).1) ?_ hS1 hR ?_
      · intro first hfirst
        obtain ⟨q1, q2, -⟩ := (C44_penalty env _ x0 o o' out calls h).1 first (List.mem_of_getElem? hfirst)
        refine lt_of_le_of_lt ?_ hS
        refine mul_le_mul_of_nonneg_right ?_ (pow_nonneg (by linarith) _)
        have : costAt env.p x0 / first.penalty ≤ costAt env.p x0 / prm.equalityPenaltyInitial :=
          div_le_div_of_nonneg_left (costAt_nonneg _ _) hpen q2
        unfold startMerit
        linarith
      · intro it hit
        refine never_invalid_eq env hE hp hi he _ x0 o o' out calls h hrho it hit (le_trans ?_ htol)
        exact mul_le_mul_of_nonneg_left (max_le_max_left _ (hb it hit).1) (by norm_num)
    refine ⟨hbound, fun ht => ?_⟩
    have := C46_termination env _ x0 o o' out calls h
    rw [ht] at this
    have h2 : (out.iterations.length : Int) = limit := this
    rw [← h2]
    exact_mod_cast hbound
  · refine ⟨0, ?_⟩
    rintro env rfl hE limit o o' out calls h
    obtain ⟨V, T, W, hv⟩ := solve_view h
    exact absurd hv.prmOk.relativeExitTol.2 hle

end MiniOpt.Props
