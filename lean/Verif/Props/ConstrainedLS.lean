import Verif.Props.FirstOrder
import Verif.Props.LinearLS
import Verif.Props.NLSDescent
import Verif.Spec.ConstrainedSpec

/-!
# C98: linear least squares with linear equality constraints (exact arithmetic)

Concrete runs meeting the hypotheses of the theorems below: `Props/ConstrainedLSExamples.lean`.
-/

set_option autoImplicit false

namespace MiniOpt.Props

open MiniOpt.Spec MiniOpt.NLS

variable {n D : Nat}

theorem mem_stackedModel {x : Fin n → ℝ} {d : Fin D → ℝ} : ∀ {l : List (Residual ℝ)} {v : ℝ},
    v ∈ stackedModel x d l ↔ ∃ r ∈ l, ∃ k, v = linAt r x d k
  | [], v => by simp [stackedModel]
  | r :: rs, v => by
    have e : stackedModel x d (r :: rs) = List.ofFn (linAt r x d) ++ stackedModel x d rs := rfl
    rw [e, List.mem_append, mem_stackedModel]
    constructor
    · rintro (h | ⟨r', hr', k, rfl⟩)
      · obtain ⟨k, rfl⟩ := List.mem_ofFn.mp h
        exact ⟨r, by simp, k, rfl⟩
      · exact ⟨r', by simp [hr'], k, rfl⟩
    · rintro ⟨r', hr', k, rfl⟩
      rcases List.mem_cons.mp hr' with rfl | hr'
      · exact Or.inl (List.mem_ofFn.mpr ⟨k, rfl⟩)
      · exact Or.inr ⟨r', hr', k, rfl⟩

theorem satisfies_violation {p : Problem D ℝ} {x : Fin D → ℝ} : violationAt p x = 0 ↔ SatisfiesEqs p x := by
  rw [violationAt_real]
  constructor
  · intro h r hr k
    have hnn : ∀ v ∈ p.eqs.map fun r => ∑ k, |valueAt r x k|, 0 ≤ v := by
      intro v hv
      obtain ⟨r, _, rfl⟩ := List.mem_map.mp hv
      exact Finset.sum_nonneg fun k _ => abs_nonneg _
    have h1 := List.single_le_sum hnn _ (List.mem_map_of_mem hr)
    rw [h] at h1
    have h2 : |valueAt r x k| ≤ ∑ k, |valueAt r x k| :=
      Finset.single_le_sum (f := fun k => |valueAt r x k|) (fun i (_ : i ∈ Finset.univ) => abs_nonneg _) (Finset.mem_univ k)
    exact abs_eq_zero.mp (le_antisymm (h2.trans h1) (abs_nonneg _))
  · intro h
    refine List.sum_eq_zero ?_
    intro v hv
    obtain ⟨r, hr, rfl⟩ := List.mem_map.mp hv
    exact Finset.sum_eq_zero fun k _ => by rw [h r hr k, abs_zero]

theorem bestFeasible_unique {p : Problem D ℝ} {x y : Fin D → ℝ} (hx : BestFeasible p x) (hy : BestFeasible p y) : x = y := by
  by_contra hne
  have h1 := hx.2 y hy.1 (Ne.symm hne)
  have h2 := hy.2 x hx.1 hne
  linarith

/-- What an iteration without damping knows of a linear problem. -/
structure LinearStep (p : Problem D ℝ) (x dx : Fin D → ℝ) (dF Q : ℝ) : Prop where
  best : BestFeasible p (fun i => x i + dx i)
  nonneg : 0 ≤ Q
  line : ∀ t : ℝ, costAt p (fun i => x i + t * dx i) = costAt p x + t * dF + t ^ 2 / 2 * Q
  violation : ∀ t : ℝ, 0 ≤ t → t ≤ 1 → violationAt p (fun i => x i + t * dx i) = (1 - t) * violationAt p x
  feasible : violationAt p x = 0 → dF = - Q

theorem linear_step (env : Env D D ℝ) (hE : NSContract env.NE) (hp : WellPosed env.p D)
    (haff : AffineCosts env.p) (heq : AffineEqs env.p) (hi : env.p.ineq = []) (he : env.p.eqs ≠ [])
    (prm : NLSParams ℝ) (x0 : Fin D → ℝ) (o o' : env.Obj) (out : NLSOutputs ℝ) (calls : List (NLSIteration ℝ))
    (h : solve env prm x0 o = .ok (o', out, calls)) (k : Nat) (it : NLSIteration ℝ) (hit : out.iterations[k]? = some it)
    (hlam : it.lambda ≤ 0) (a b : env.Obj) (ha : After env prm x0 o k a) (hb : After env prm x0 o (k + 1) b) :
    LinearStep env.p a.vars b.dx it.directionalDerivatives.dF (curvature env.p a.vars it.lambda b.dx) ∧
    it.directionalDerivatives.dF + 1 / 2 * curvature env.p a.vars it.lambda b.dx
      ≤ it.penalty * ((1 - prm.equalityPenaltyRho) * max (violationAt env.p a.vars) (1 / 2 ^ 52)) := by
  have hmem := List.mem_of_getElem? hit
  have hns := (C45_which_solver env prm x0 o o' out calls h it hmem).1 ⟨hi, he⟩
  obtain ⟨h1, h2, h3⟩ := C38_direction env prm x0 o o' out calls h k it hit a b ha hb
  obtain ⟨f1, f2, f3, f4, f5, f6⟩ := linearize_facts hp h1
  obtain ⟨qp', pre', h', g1, g2, -⟩ := C34_gauss_newton env.p hp a.vars (linearize_quiet h1) it.lambda a.qp
  rw [h1] at h'
  cases h'
  have hmax : max it.lambda 0 = 0 := max_eq_right hlam
  obtain ⟨-, -, hdom⟩ := C44_penalty env prm x0 o o' out calls h
  have hdom := (hdom k it b hit he hb).2 hns
  rw [sum_abs_b f3 f4] at hdom
  have hdF : it.directionalDerivatives.dF = ∑ i, b.qp.c i * b.dx i := by
    rw [h2]; exact (costDerivative_real b.qp b.dx).1
  have hc0 := curvature_nonneg env.p a.vars it.lambda b.dx
  have hcurv : (∑ i, ∑ j, b.dx i * b.qp.G (max i j) (min i j) * b.dx j) = curvature env.p a.vars it.lambda b.dx := f6 _
  rw [hcurv, max_eq_right hc0, ← hdF] at hdom
  refine ⟨?_, hdom⟩
  have hcost : ∀ dx : Fin D → ℝ, costAt env.p (fun i => a.vars i + dx i) = costAt env.p a.vars + (∑ i, b.qp.c i * dx i)
      + 1 / 2 * ∑ i, ∑ j, dx i * b.qp.G (max i j) (min i j) * dx j := by
    intro dx
    have := g2 dx
    rw [hmax, g1] at this
    rw [affine_cost haff]
    simp only [zero_div, zero_mul, add_zero] at this
    rw [← this]
    rfl
  set p : QP D 0 env.p.K ℝ := ⟨b.qp.G, b.qp.c, b.qp.A, b.qp.b, Fin.elim0⟩ with hpdef
  rcases h3 with ⟨_, _, _, q, _, h4, _⟩ | ⟨s, s', h4, -, h5⟩
  · rw [hns] at h4; cases h4
  obtain ⟨hfeas, hmin⟩ := C26_null_space_minimiser env.NE hE _ s _ h4 rfl
  have hlin : ∀ r ∈ env.p.eqs, ∀ k, linAt r a.vars b.dx k = 0 := by
    intro r hr k
    have hm : linAt r a.vars b.dx k ∈ stackedModel a.vars b.dx env.p.eqs := mem_stackedModel.mpr ⟨r, hr, k, rfl⟩
    rw [← f3 b.dx] at hm
    obtain ⟨j, hj⟩ := List.mem_ofFn.mp hm
    rw [← hj]
    have := hfeas j
    rw [h5]
    exact this
  have hsat : ∀ y : Fin D → ℝ, SatisfiesEqs env.p y → ∀ j, eqVal p (fun i => y i - a.vars i) j = 0 := by
    intro y hy j
    have hm : (∑ l, b.qp.A j l * (y l - a.vars l)) + b.qp.b j ∈ stackedModel a.vars (fun i => y i - a.vars i) env.p.eqs := by
      rw [← f3]; exact List.mem_ofFn.mpr ⟨j, rfl⟩
    obtain ⟨r, hr, k, e⟩ := mem_stackedModel.mp hm
    rw [← heq r hr] at e
    have e2 : (fun i => a.vars i + (y i - a.vars i)) = y := by funext i; ring
    rw [e2, hy r hr k] at e
    exact e
  have hobj : ∀ d, objective p d = costAt env.p (fun i => a.vars i + d i) - costAt env.p a.vars := by
    intro d
    rw [hcost]
    have : objective p d = (1 / 2) * (∑ i, ∑ j, d i * b.qp.G (max i j) (min i j) * d j) + ∑ i, b.qp.c i * d i := rfl
    rw [this]; ring
  constructor
  · refine ⟨fun r hr k => by rw [heq r hr]; exact hlin r hr k, fun y hy hne => ?_⟩
    have := hmin (fun i => y i - a.vars i) (hsat y hy) (by
      intro hc
      apply hne
      rw [h5, ← hc]; funext i; ring)
    rw [← h5, hobj, hobj] at this
    have e2 : (fun i => a.vars i + (y i - a.vars i)) = y := by funext i; ring
    rw [e2] at this
    linarith
  · exact hc0
  · intro t
    rw [hcost fun i => t * b.dx i, hdF, ← hcurv]
    have e1 : ∑ i, b.qp.c i * (t * b.dx i) = t * ∑ i, b.qp.c i * b.dx i := by
      rw [Finset.mul_sum]; exact Finset.sum_congr rfl fun i _ => by ring
    have e2 : (∑ i, ∑ j, (t * b.dx i) * b.qp.G (max i j) (min i j) * (t * b.dx j))
        = t ^ 2 * ∑ i, ∑ j, b.dx i * b.qp.G (max i j) (min i j) * b.dx j := by
      simp only [Finset.mul_sum]
      exact Finset.sum_congr rfl fun i _ => Finset.sum_congr rfl fun j _ => by ring
    rw [e1, e2]; ring
  · intro t ht0 ht1
    rw [violationAt_real, violationAt_real, ← List.sum_map_mul_left]
    congr 1
    refine List.map_congr_left fun r hr => ?_
    rw [Finset.mul_sum]
    refine Finset.sum_congr rfl fun k _ => ?_
    rw [heq r hr]
    have e := hlin r hr k
    unfold linAt at e ⊢
    have e2 : ∑ j, jacAt r a.vars D k j * (t * b.dx j) = t * ∑ j, jacAt r a.vars D k j * b.dx j := by
      rw [Finset.mul_sum]; exact Finset.sum_congr rfl fun i _ => by ring
    rw [e2, show ∑ j, jacAt r a.vars D k j * b.dx j = - valueAt r a.vars k by linarith,
      show valueAt r a.vars k + t * - valueAt r a.vars k = (1 - t) * valueAt r a.vars k by ring, abs_mul,
      abs_of_nonneg (by linarith)]
  · intro hv
    have hsa := satisfies_violation.mp hv
    have hA : ∀ k, ∑ j, p.A k j * b.dx j = 0 := by
      intro j
      have e1 := hsat a.vars hsa j
      have e2 := hfeas j
      rw [← h5] at e2
      unfold eqVal at e1 e2
      simp only [sub_self, mul_zero, Finset.sum_const_zero, zero_add] at e1
      rw [e1] at e2
      linarith
    have hst := qp_stationary p b.dx b.dx (fun t => by
      by_cases hne : (fun i => b.dx i + t * b.dx i) = b.dx
      · rw [hne]
      · rw [h5] at hne ⊢
        refine (hmin _ (fun k => ?_) hne).le
        have e := hfeas k
        unfold eqVal at e ⊢
        have e2 : ∑ j, p.A k j * (s'.x j + t * s'.x j) = (∑ j, p.A k j * s'.x j) + t * ∑ j, p.A k j * s'.x j := by
          rw [Finset.mul_sum, ← Finset.sum_add_distrib]; exact Finset.sum_congr rfl fun i _ => by ring
        rw [e2, ← h5, show ∑ j, p.A k j * b.dx j = 0 from hA k]
        rw [← h5, show ∑ j, p.A k j * b.dx j = 0 from hA k] at e
        linarith)
    rw [hdF]
    have e3 : bil p b.dx b.dx = curvature env.p a.vars it.lambda b.dx := f6 _
    rw [e3] at hst
    have e4 : ∑ i, p.c i * b.dx i = ∑ i, b.qp.c i * b.dx i := rfl
    linarith

/-- How a line search whose slope is not positive can end, in exact arithmetic. -/
theorem search_outcomes (env : Env n D ℝ) (prm : NLSParams ℝ) (x0 : Fin n → ℝ) (o o' : env.Obj)
    (out : NLSOutputs ℝ) (calls : List (NLSIteration ℝ)) (h : solve env prm x0 o = .ok (o', out, calls))
    (it : NLSIteration ℝ) (hit : it ∈ out.iterations) (hneg : it.directionalDerivatives.total it.penalty ≤ 0) :
    (it.stepResult = .success) ∨
    (it.stepResult = .firstOrderSatisfied ∧ it.directionalDerivatives.lInfinity < prm.absoluteFirstDerivativeTol) ∨
    ((∀ st ∈ it.lineSearchSteps, ¬ st.errors.total it.penalty ≤ it.errorsInitial.total it.penalty
          + it.directionalDerivatives.total it.penalty * st.alpha * armijoC1) ∧
      ((it.lineSearchSteps.length : Int) = prm.maxLineSearchIterations + 1 ∨
        prm.lineSearchStrategy = .polynomialApproximation ∧ it.stepResult = .failureInvalidAlpha)) := by
  obtain ⟨S, T, W, hv⟩ := solve_view h
  obtain ⟨k, hk⟩ := List.mem_iff_getElem?.mp hit
  obtain ⟨_, rfl, hp⟩ := view_info hv hk
  obtain ⟨htr, hout, _⟩ := lsLoop_start _ _ _ _ _ _ _ _ _ _ _ _ hp.ls
  have hf := hout.facts
  have hls := hv.prmOk.maxLineSearchIterations
  rw [hp.ideriv, hp.ipenalty] at hneg
  rw [hp.isteps, hp.ipre, hp.ideriv, hp.ipenalty, hp.ires]
  cases hr : (W k).res with
  | success => exact Or.inl rfl
  | firstOrderSatisfied =>
    obtain ⟨_, _, _, hlt⟩ := hf.firstOrder hr
    exact Or.inr (Or.inl ⟨rfl, hlt⟩)
  | maxIterations =>
    obtain ⟨h1, h2⟩ := hf.maxIter hr
    exact Or.inr (Or.inr ⟨fun st hst => (h2 st hst).notArmijo, Or.inl (by omega)⟩)
  | positiveDerivative =>
    obtain ⟨_, _, _, _, hp⟩ := hf.positive hr
    exact absurd hp (not_lt.mpr hneg)
  | failureNonFiniteCost =>
    obtain ⟨_, _, hn⟩ := hf.nonFinite hr
    exact absurd hn (real_valid _)
  | failureInvalidAlpha =>
    obtain ⟨h1, h2, h3⟩ := hf.invalidAlpha hr
    refine Or.inr (Or.inr ⟨fun st hst => (h2 st hst).notArmijo, Or.inr ⟨?_, rfl⟩⟩)
    cases hs : prm.lineSearchStrategy with
    | polynomialApproximation => rfl
    | armijoBacktrack =>
      rw [hs] at h3
      unfold nextAlpha at h3
      simp only at h3
      split_ifs at h3 <;> cases h3

/-- **C98** (one iteration). Affine costs and affine equality constraints, no inequality constraints: every iteration
without damping aims at the one point of least cost among those that satisfy the constraints; the constraint violation
of each trial point is exactly `1 - alpha` times the violation at the start of the iteration, and its cost is the
parabola with the logged slope; an accepted step goes the fraction `alpha` of the way to the target. -/
theorem C98_iteration (env : Env D D ℝ) (hE : NSContract env.NE) (hr : env.retraction = none) (hp : WellPosed env.p D)
    (haff : AffineCosts env.p) (heq : AffineEqs env.p) (hi : env.p.ineq = []) (he : env.p.eqs ≠ [])
    (prm : NLSParams ℝ) (x0 : Fin D → ℝ) (o o' : env.Obj) (out : NLSOutputs ℝ) (calls : List (NLSIteration ℝ))
    (h : solve env prm x0 o = .ok (o', out, calls)) (k : Nat) (it : NLSIteration ℝ) (hit : out.iterations[k]? = some it)
    (hlam : it.lambda ≤ 0) (a b : env.Obj) (ha : After env prm x0 o k a) (hb : After env prm x0 o (k + 1) b) :
    ∃ best, BestFeasible env.p best ∧
      (∀ st ∈ it.lineSearchSteps,
        st.errors.equality = (1 - st.alpha) * violationAt env.p a.vars ∧
        st.errors.f = costAt env.p a.vars + st.alpha * it.directionalDerivatives.dF
          + st.alpha ^ 2 * (costAt env.p best - costAt env.p a.vars - it.directionalDerivatives.dF)) ∧
      (it.stepResult = .success → ∃ st, it.lineSearchSteps.getLast? = some st ∧
        b.vars = between best a.vars (1 - st.alpha)) ∧
      (it.stepResult ≠ .success → b.vars = a.vars) := by
  have hmem := List.mem_of_getElem? hit
  obtain ⟨L, -⟩ := linear_step env hE hp haff heq hi he prm x0 o o' out calls h k it hit hlam a b ha hb
  obtain ⟨-, e2, -⟩ := C39_logged_errors env hp.consistent prm x0 o o' out calls h k it hit a b ha hb
  obtain ⟨-, -, hpos, -⟩ := C40_alphas env prm x0 o o' out calls h it hmem
  obtain ⟨hm1, hm2⟩ := C38_variables_move env prm x0 o o' out calls h k it hit a b ha hb
  refine ⟨_, L.best, ?_, ?_, hm2⟩
  · intro st hst
    obtain ⟨c, hc1, hc2⟩ := e2 st hst
    unfold Moves at hc1
    rw [hr] at hc1
    obtain ⟨_, hc⟩ := hc1
    have hc' : c = fun i => a.vars i + st.alpha * b.dx i := by rw [hc]; funext i; simp [mul_comm]
    have hα := hpos st hst
    rw [hc2, hc']
    refine ⟨L.violation _ hα.1.le hα.2, ?_⟩
    have e1 := L.line 1
    simp only [one_mul] at e1
    show costAt env.p _ = _
    rw [L.line, e1]; ring
  · intro hs
    obtain ⟨st, hst, hmv⟩ := hm1 hs
    refine ⟨st, hst, ?_⟩
    unfold Moves at hmv
    rw [hr] at hmv
    obtain ⟨_, hvars⟩ := hmv
    rw [hvars]; funext i
    simp only [between, Fin.cast_eq_self]
    ring

/-- The quantities of the acceptance test of a linear problem. -/
theorem linear_trial (env : Env D D ℝ) (hE : NSContract env.NE) (hr : env.retraction = none) (hp : WellPosed env.p D)
    (haff : AffineCosts env.p) (heq : AffineEqs env.p) (hi : env.p.ineq = []) (he : env.p.eqs ≠ [])
    (prm : NLSParams ℝ) (x0 : Fin D → ℝ) (o o' : env.Obj) (out : NLSOutputs ℝ) (calls : List (NLSIteration ℝ))
    (h : solve env prm x0 o = .ok (o', out, calls)) (k : Nat) (it : NLSIteration ℝ) (hit : out.iterations[k]? = some it)
    (hlam : it.lambda ≤ 0) (a b : env.Obj) (ha : After env prm x0 o k a) (hb : After env prm x0 o (k + 1) b)
    (hv : violationAt env.p a.vars = 0 ∨ 1 / 2 ^ 52 ≤ violationAt env.p a.vars) :
    it.directionalDerivatives.total it.penalty
      ≤ - (1 / 2 * curvature env.p a.vars it.lambda b.dx)
        - prm.equalityPenaltyRho * it.penalty * violationAt env.p a.vars ∧
    (violationAt env.p a.vars = 0 →
      it.directionalDerivatives.total it.penalty = - curvature env.p a.vars it.lambda b.dx) ∧
    (∀ st ∈ it.lineSearchSteps, st.errors.total it.penalty = it.errorsInitial.total it.penalty
      + st.alpha * it.directionalDerivatives.total it.penalty
      + st.alpha ^ 2 / 2 * curvature env.p a.vars it.lambda b.dx) ∧
    0 ≤ prm.equalityPenaltyRho * it.penalty * violationAt env.p a.vars ∧
    it.directionalDerivatives.dEquality = - violationAt env.p a.vars := by
  have hmem := List.mem_of_getElem? hit
  obtain ⟨L, hdom⟩ := linear_step env hE hp haff heq hi he prm x0 o o' out calls h k it hit hlam a b ha hb
  obtain ⟨e1, e2, -⟩ := C39_logged_errors env hp.consistent prm x0 o o' out calls h k it hit a b ha hb
  obtain ⟨-, -, hpos, -⟩ := C40_alphas env prm x0 o o' out calls h it hmem
  have hdE := (C45_descent env hE hp hi he prm x0 o o' out calls h it hmem).1
  have hinit : it.errorsInitial = errorsAt env.p a.vars := e1
  have hve : it.errorsInitial.equality = violationAt env.p a.vars := by rw [hinit]; rfl
  rw [hve] at hdE
  have htot : it.directionalDerivatives.total it.penalty
      = it.directionalDerivatives.dF - it.penalty * violationAt env.p a.vars := by
    unfold DirectionalDerivatives.total; rw [hdE]; ring
  have hpen := ((C44_penalty env prm x0 o o' out calls h).1 it hmem).1
  have hrho : 0 ≤ prm.equalityPenaltyRho ∧ prm.equalityPenaltyRho < 1 := by
    obtain ⟨S, T, W, hv⟩ := solve_view h
    exact hv.prmOk.equalityPenaltyRho
  have hv0 : 0 ≤ violationAt env.p a.vars := by
    rcases hv with h0 | h0
    · exact h0.ge
    · exact le_trans (by positivity) h0
  refine ⟨?_, ?_, ?_, mul_nonneg (mul_nonneg hrho.1 hpen.le) hv0, hdE⟩
  · rcases hv with h0 | h0
    · rw [htot, h0, L.feasible h0]
      have := L.nonneg
      linarith
    · rw [max_eq_left h0] at hdom
      rw [htot]
      linarith
  · intro h0
    rw [htot, h0, L.feasible h0]; ring
  · intro st hst
    obtain ⟨c, hc1, hc2⟩ := e2 st hst
    unfold Moves at hc1
    rw [hr] at hc1
    obtain ⟨_, hc⟩ := hc1
    have hc' : c = fun i => a.vars i + st.alpha * b.dx i := by rw [hc]; funext i; simp [mul_comm]
    have hα := hpos st hst
    rw [hc2, hc', hinit, htot]
    unfold Errors.total errorsAt
    simp only
    rw [L.violation _ hα.1.le hα.2, L.line]; ring

/-- **C98** (full steps). If the constraints hold at the start of the iteration, or are violated by at least machine
epsilon and the curvature along the step is at most `19998 rho penalty` times the violation, the full step is the only one tried;
it is accepted and reaches the target, unless the slopes are below the first-derivative tolerance. -/
theorem C98_full_step (env : Env D D ℝ) (hE : NSContract env.NE) (hr : env.retraction = none) (hp : WellPosed env.p D)
    (haff : AffineCosts env.p) (heq : AffineEqs env.p) (hi : env.p.ineq = []) (he : env.p.eqs ≠ [])
    (prm : NLSParams ℝ) (x0 : Fin D → ℝ) (o o' : env.Obj) (out : NLSOutputs ℝ) (calls : List (NLSIteration ℝ))
    (h : solve env prm x0 o = .ok (o', out, calls)) (k : Nat) (it : NLSIteration ℝ) (hit : out.iterations[k]? = some it)
    (hlam : it.lambda ≤ 0) (a b : env.Obj) (ha : After env prm x0 o k a) (hb : After env prm x0 o (k + 1) b)
    (hv : violationAt env.p a.vars = 0 ∨ 1 / 2 ^ 52 ≤ violationAt env.p a.vars ∧
      curvature env.p a.vars it.lambda b.dx ≤ 19998 * (prm.equalityPenaltyRho * it.penalty * violationAt env.p a.vars)) :
    it.lineSearchSteps.length = 1 ∧
    ((it.stepResult = .success ∧ BestFeasible env.p b.vars) ∨
      (it.stepResult = .firstOrderSatisfied ∧ b.vars = a.vars ∧
        violationAt env.p a.vars < prm.absoluteFirstDerivativeTol)) := by
  have hmem := List.mem_of_getElem? hit
  obtain ⟨hD, hDz, htr, hρ, hdE⟩ := linear_trial env hE hr hp haff heq hi he prm x0 o o' out calls h k it hit hlam a b ha hb
    (hv.imp id And.left)
  obtain ⟨L, -⟩ := linear_step env hE hp haff heq hi he prm x0 o o' out calls h k it hit hlam a b ha hb
  have hQ := L.nonneg
  obtain ⟨hlen, -, hfirst, -⟩ := C40_alphas_any env prm x0 o o' out calls h it hmem
  obtain ⟨hrejected, -⟩ := C40_only_last_accepted env prm x0 o o' out calls h it hmem
  obtain ⟨st, hst⟩ : ∃ st, it.lineSearchSteps[0]? = some st := ⟨_, List.getElem?_eq_getElem hlen⟩
  have hα := hfirst st hst
  have harm : st.errors.total it.penalty ≤ it.errorsInitial.total it.penalty
      + it.directionalDerivatives.total it.penalty * st.alpha * armijoC1 := by
    rw [htr st (List.mem_of_getElem? hst), hα]
    have hc : (armijoC1 : ℝ) = 1 / 10 ^ 4 := by unfold armijoC1; simp
    rw [hc]
    rcases hv with h0 | ⟨h0, h1⟩
    · rw [hDz h0]; linarith
    · linarith
  have h1 : it.lineSearchSteps.length = 1 := by
    by_contra hne
    exact (hrejected 0 st (by omega) hst).2 harm
  refine ⟨h1, ?_⟩
  obtain ⟨best, hbest, -, hm1, hm2⟩ :=
    C98_iteration env hE hr hp haff heq hi he prm x0 o o' out calls h k it hit hlam a b ha hb
  rcases search_outcomes env prm x0 o o' out calls h it hmem (by linarith) with hs | ⟨hs, hd⟩ | ⟨hs, -⟩
  · left
    obtain ⟨st', hl, hbv⟩ := hm1 hs
    rw [List.getLast?_eq_getElem?, h1] at hl
    have : st' = st := by
      have h2 : it.lineSearchSteps[0]? = some st' := hl
      rw [hst] at h2; exact (Option.some.inj h2).symm
    subst this
    have e : b.vars = best := by
      rw [hbv, hα]; funext i; simp [between]
    rw [e]; exact ⟨hs, hbest⟩
  · right
    refine ⟨hs, hm2 (by rw [hs]; simp), ?_⟩
    unfold DirectionalDerivatives.lInfinity at hd
    rw [hdE] at hd
    simp only [real_cmax, real_abs, abs_neg] at hd
    exact (le_abs_self _).trans_lt ((le_max_right _ _).trans_lt hd)
  · exact absurd harm (hs st (List.mem_of_getElem? hst))

/-- **C98** (progress). Unless the constraints are violated by less than machine epsilon, every iteration accepts its first or second
step, at least `secondStep` of the way to the target, or stops with `FIRST_ORDER_SATISFIED`. -/
theorem C98_progress (env : Env D D ℝ) (hE : NSContract env.NE) (hr : env.retraction = none) (hp : WellPosed env.p D)
    (haff : AffineCosts env.p) (heq : AffineEqs env.p) (hi : env.p.ineq = []) (he : env.p.eqs ≠ [])
    (prm : NLSParams ℝ) (hls : 1 ≤ prm.maxLineSearchIterations)
    (htau : prm.lineSearchStrategy = .armijoBacktrack → prm.armijoSearchTau ≤ 9999 / 10000)
    (x0 : Fin D → ℝ) (o o' : env.Obj) (out : NLSOutputs ℝ) (calls : List (NLSIteration ℝ))
    (h : solve env prm x0 o = .ok (o', out, calls)) (k : Nat) (it : NLSIteration ℝ) (hit : out.iterations[k]? = some it)
    (hlam : it.lambda ≤ 0) (a b : env.Obj) (ha : After env prm x0 o k a) (hb : After env prm x0 o (k + 1) b)
    (hv : violationAt env.p a.vars = 0 ∨ 1 / 2 ^ 52 ≤ violationAt env.p a.vars) :
    it.lineSearchSteps.length ≤ 2 ∧
    ((it.stepResult = .success ∧ ∃ best c, BestFeasible env.p best ∧ 0 ≤ c ∧ c ≤ 1 - secondStep prm ∧
        b.vars = between best a.vars c) ∨
      (it.stepResult = .firstOrderSatisfied ∧ b.vars = a.vars ∧
        violationAt env.p a.vars < prm.absoluteFirstDerivativeTol)) := by
  have hmem := List.mem_of_getElem? hit
  obtain ⟨hD, hDz, htr, hρ, hdE⟩ := linear_trial env hE hr hp haff heq hi he prm x0 o o' out calls h k it hit hlam a b ha hb hv
  obtain ⟨L, -⟩ := linear_step env hE hp haff heq hi he prm x0 o o' out calls h k it hit hlam a b ha hb
  have hQ := L.nonneg
  set Q := curvature env.p a.vars it.lambda b.dx with hQd
  set D0 := it.directionalDerivatives.total it.penalty with hD0
  have hc1 : (armijoC1 : ℝ) = 1 / 10 ^ 4 := by unfold armijoC1; simp
  obtain ⟨hlen, -, hfirst, hnext⟩ := C40_alphas_any env prm x0 o o' out calls h it hmem
  obtain ⟨-, -, hpos, -⟩ := C40_alphas env prm x0 o o' out calls h it hmem
  obtain ⟨hrejected, -⟩ := C40_only_last_accepted env prm x0 o o' out calls h it hmem
  obtain ⟨st, hst⟩ : ∃ st, it.lineSearchSteps[0]? = some st := ⟨_, List.getElem?_eq_getElem hlen⟩
  have hα := hfirst st hst
  -- a trial that is not longer than this is accepted
  have hacc : ∀ st ∈ it.lineSearchSteps, st.alpha ≤ 9999 / 10000 →
      st.errors.total it.penalty ≤ it.errorsInitial.total it.penalty + D0 * st.alpha * armijoC1 := by
    intro st hst hle
    rw [htr st hst, hc1]
    have hp := (hpos st hst).1
    have h1 : 9999 / 10000 * D0 + st.alpha / 2 * Q ≤ 0 := by nlinarith
    nlinarith
  -- the second trial
  have hsecond : ∀ st1, it.lineSearchSteps[1]? = some st1 → secondStep prm ≤ st1.alpha ∧ st1.alpha ≤ 9999 / 10000 := by
    intro st1 hst1
    have hn := hnext 0 st st1 hst hst1
    have hl2 : 1 < it.lineSearchSteps.length := lt_of_getElem? hst1
    have hrej := (hrejected 0 st (by omega) hst).2
    cases hs : prm.lineSearchStrategy with
    | armijoBacktrack =>
      rw [hs] at hn
      simp only at hn
      rw [hn, hα, one_mul]
      refine ⟨?_, htau hs⟩
      unfold secondStep
      rw [hs]
    | polynomialApproximation =>
      have hneg : D0 < 0 := by
        refine lt_of_le_of_ne (by linarith) fun h0 => hrej ?_
        have : Q = 0 := by rw [h0] at hD; linarith
        rw [htr st (List.mem_of_getElem? hst), hα, this, ← hD0, h0]; simp
      obtain ⟨-, hpar⟩ := C41_first_interpolation env prm x0 o o' out calls h hs it hmem hneg
      obtain ⟨hlt, κ, hκ, hκ1, hκm⟩ := hpar st st1 hst hst1
      rw [htr st (List.mem_of_getElem? hst), hα, ← hD0] at hκ1
      unfold parabola at hκ1 hκm
      have hκQ : κ = 1 / 2 * Q := by linarith
      have hm := hκm (- D0 / (2 * κ))
      rw [← hD0] at hm
      have e : D0 * (- D0 / (2 * κ)) + κ * (- D0 / (2 * κ)) ^ 2 = - D0 ^ 2 / (4 * κ) := by field_simp; ring
      have e2 : κ * (st1.alpha + D0 / (2 * κ)) ^ 2 ≤ 0 := by
        have e3 : κ * (st1.alpha + D0 / (2 * κ)) ^ 2 = D0 * st1.alpha + κ * st1.alpha ^ 2 + D0 ^ 2 / (4 * κ) := by
          field_simp; ring
        rw [e3]
        have e4 : - D0 ^ 2 / (4 * κ) = - (D0 ^ 2 / (4 * κ)) := by ring
        linarith
      have e5 : st1.alpha + D0 / (2 * κ) = 0 := by
        have := nonpos_of_mul_nonpos_right e2 hκ
        exact pow_eq_zero_iff (two_ne_zero) |>.mp (le_antisymm this (sq_nonneg _))
      have e6 : st1.alpha * (2 * κ) = - D0 := by
        have : st1.alpha = - (D0 / (2 * κ)) := by linarith
        rw [this]; field_simp
      have hss : secondStep prm = 1 / 2 := by unfold secondStep; rw [hs]
      rw [hss]
      constructor
      · by_contra hc
        push Not at hc
        nlinarith
      · refine hlt.le.trans ?_
        norm_num
  have hlen2 : it.lineSearchSteps.length ≤ 2 := by
    by_contra hc
    push Not at hc
    obtain ⟨st1, hst1⟩ : ∃ st1, it.lineSearchSteps[1]? = some st1 := ⟨_, List.getElem?_eq_getElem (by omega)⟩
    exact (hrejected 1 st1 (by omega) hst1).2 (hacc st1 (List.mem_of_getElem? hst1) (hsecond st1 hst1).2)
  refine ⟨hlen2, ?_⟩
  obtain ⟨best, hbest, -, hm1, hm2⟩ :=
    C98_iteration env hE hr hp haff heq hi he prm x0 o o' out calls h k it hit hlam a b ha hb
  have hss1 : secondStep prm ≤ 1 := by
    unfold secondStep
    cases hs : prm.lineSearchStrategy with
    | armijoBacktrack => exact (htau hs).trans (by norm_num)
    | polynomialApproximation => norm_num
  rcases search_outcomes env prm x0 o o' out calls h it hmem (by linarith) with hs | ⟨hs, hd⟩ | ⟨hs, hor⟩
  · left
    obtain ⟨st', hl, hbv⟩ := hm1 hs
    have hm := List.mem_of_getLast? hl
    have hp' := hpos st' hm
    refine ⟨hs, best, 1 - st'.alpha, hbest, by linarith, ?_, hbv⟩
    rw [List.getLast?_eq_getElem?] at hl
    have hcase : it.lineSearchSteps.length = 1 ∨ it.lineSearchSteps.length = 2 := by omega
    rcases hcase with e | e
    · rw [e] at hl
      have h2 := hfirst st' hl
      linarith
    · rw [e] at hl
      linarith [(hsecond st' hl).1]
  · right
    refine ⟨hs, hm2 (by rw [hs]; simp), ?_⟩
    unfold DirectionalDerivatives.lInfinity at hd
    rw [hdE] at hd
    simp only [real_cmax, real_abs, abs_neg] at hd
    exact (le_abs_self _).trans_lt ((le_max_right _ _).trans_lt hd)
  · exfalso
    rcases hor with hor | ⟨hpoly, hinv⟩
    · obtain ⟨st1, hst1⟩ : ∃ st1, it.lineSearchSteps[1]? = some st1 := ⟨_, List.getElem?_eq_getElem (by omega)⟩
      exact hs st1 (List.mem_of_getElem? hst1) (hacc st1 (List.mem_of_getElem? hst1) (hsecond st1 hst1).2)
    · have hneg : D0 < 0 := by
        refine lt_of_le_of_ne (by linarith) fun h0 => hs st (List.mem_of_getElem? hst) ?_
        have : Q = 0 := by rw [h0] at hD; linarith
        rw [htr st (List.mem_of_getElem? hst), hα, this, ← hD0, h0]; simp
      exact (C42_never_fails env prm x0 o o' out calls h hpoly it hmem hneg).1 hinv

theorem between_violation {p : Problem D ℝ} (heq : AffineEqs p) {best : Fin D → ℝ} (hb : SatisfiesEqs p best) (x0 : Fin D → ℝ)
    {c : ℝ} (hc : 0 ≤ c) : violationAt p (between best x0 c) = c * violationAt p x0 := by
  rw [violationAt_real, violationAt_real, ← List.sum_map_mul_left]
  congr 1
  refine List.map_congr_left fun r hr => ?_
  rw [Finset.mul_sum]
  refine Finset.sum_congr rfl fun k _ => ?_
  have e1 := heq r hr best (fun i => c * (x0 i - best i)) k
  have e2 := heq r hr best (fun i => x0 i - best i) k
  have e3 : (fun i => best i + (x0 i - best i)) = x0 := by funext i; ring
  rw [e3] at e2
  unfold linAt at e1 e2
  rw [hb r hr k] at e1 e2
  have e4 : ∑ j, jacAt r best D k j * (c * (x0 j - best j)) = c * ∑ j, jacAt r best D k j * (x0 j - best j) := by
    rw [Finset.mul_sum]; exact Finset.sum_congr rfl fun i _ => by ring
  have e5 : valueAt r (between best x0 c) k = c * valueAt r x0 k := by
    show valueAt r (fun i => best i + c * (x0 i - best i)) k = _
    rw [e1, e2, e4]; ring
  rw [e5, abs_mul, abs_of_nonneg hc]

theorem between_between (best x0 : Fin D → ℝ) (c c' : ℝ) : between best (between best x0 c) c' = between best x0 (c' * c) := by
  funext i; unfold between; ring

theorem between_one (best x0 : Fin D → ℝ) : between best x0 1 = x0 := by
  funext i; unfold between; ring

/-- The iterates of a solve each of whose iterations goes at least `σ` of the way to its target or stops. -/
theorem run_between (env : Env D D ℝ) (hE : NSContract env.NE) (hr : env.retraction = none) (hp : WellPosed env.p D)
    (haff : AffineCosts env.p) (heq : AffineEqs env.p) (hi : env.p.ineq = []) (he : env.p.eqs ≠ [])
    (prm : NLSParams ℝ) (hlam : prm.lambdaInitial ≤ 0) (x0 : Fin D → ℝ) (o o' : env.Obj) (out : NLSOutputs ℝ)
    (calls : List (NLSIteration ℝ)) (h : solve env prm x0 o = .ok (o', out, calls)) (hne : out.iterations ≠ [])
    (good : ℝ → Prop) (σ : ℝ) (hσ0 : 0 ≤ σ) (hσ : σ ≤ 1)
    (hstep : ∀ (k : Nat) (it : NLSIteration ℝ) (a b : env.Obj), out.iterations[k]? = some it → it.lambda ≤ 0 →
      After env prm x0 o k a → After env prm x0 o (k + 1) b → good (violationAt env.p a.vars) →
      (it.stepResult = .success ∧ ∃ best c, BestFeasible env.p best ∧ 0 ≤ c ∧ c ≤ 1 - σ ∧ b.vars = between best a.vars c) ∨
      (it.stepResult = .firstOrderSatisfied ∧ b.vars = a.vars)) :
    ∃ best, BestFeasible env.p best ∧ ∀ k, k ≤ out.iterations.length →
      (∀ j, j < k → ∀ ob, After env prm x0 o j ob → good (violationAt env.p ob.vars)) →
      (∀ it, out.iterations[k]? = some it → it.lambda ≤ 0) ∧
      ∀ ob, After env prm x0 o k ob → ∃ c, 0 ≤ c ∧ c ≤ 1 ∧ ob.vars = between best x0 c ∧
        (c ≤ (1 - σ) ^ k ∨ k = out.iterations.length ∧ out.termination = .satisfiedFirstOrderTol) := by
  obtain ⟨hex, hfirst, hlast⟩ := C38_after env prm x0 o o' out calls h
  obtain ⟨hl0, hlk⟩ := C43_state_machine env prm x0 o o' out calls h
  obtain ⟨S, T, W, hv⟩ := solve_view h
  have hv' := hv.prmOk
  have hlen : 0 < out.iterations.length := List.length_pos_iff.mpr hne
  have hmlam : prm.minLambda ≤ 0 := le_trans hv'.lambdaInitial.1 hlam
  have hbest : ∃ best, BestFeasible env.p best := by
    obtain ⟨it0, hit0⟩ : ∃ it, out.iterations[0]? = some it := ⟨_, List.getElem?_eq_getElem hlen⟩
    obtain ⟨a0, ha0, _⟩ := hex 0 (by omega)
    obtain ⟨b0, hb0, _⟩ := hex 1 (by omega)
    obtain ⟨best, hb, -⟩ := C98_iteration env hE hr hp haff heq hi he prm x0 o o' out calls h 0 it0 hit0
      (by rw [hl0 it0 hit0]; exact hlam) a0 b0 ha0 hb0
    exact ⟨best, hb⟩
  obtain ⟨best, hbest⟩ := hbest
  refine ⟨best, hbest, ?_⟩
  intro k
  induction k with
  | zero =>
    intro _ _
    refine ⟨fun it hit => by rw [hl0 it hit]; exact hlam, fun ob hob => ⟨1, zero_le_one, le_rfl, ?_, Or.inl (by simp)⟩⟩
    rw [between_one]; exact hfirst ob hob
  | succ k ih =>
    intro hk hgood
    obtain ⟨ih1, ih2⟩ := ih (by omega) fun j hj => hgood j (by omega)
    obtain ⟨it, hit⟩ : ∃ it, out.iterations[k]? = some it := ⟨_, List.getElem?_eq_getElem (by omega)⟩
    obtain ⟨a, ha, _⟩ := hex k (by omega)
    obtain ⟨b, hb, _⟩ := hex (k + 1) (by omega)
    obtain ⟨c, hc0, hc1, hav, hcase⟩ := ih2 a ha
    have hck : c ≤ (1 - σ) ^ k := by
      rcases hcase with hc | ⟨hc, -⟩
      · exact hc
      · omega
    have hmach := hlk k it hit
    rcases hstep k it a b hit (ih1 it hit) ha hb (hgood k (by omega) a ha) with ⟨hs, best', c', hb', hc0', hc1', hbv⟩ | ⟨hs, hbv⟩
    · constructor
      · intro it' hit'
        rw [hs] at hmach
        rw [hmach.2 it'.lambda (by rw [hit']; rfl)]
        simp only [real_cmax]
        refine max_le (mul_nonpos_of_nonpos_of_nonneg (ih1 it hit) ?_) hmlam
        split
        · exact hv'.lambdaDecreaseOnSuccess.1
        · exact hv'.lambdaDecreaseOnRestore.1
      · intro ob hob
        rw [(hex (k + 1) (by omega)).unique hob hb, hbv, bestFeasible_unique hb' hbest, hav, between_between]
        refine ⟨c' * c, mul_nonneg hc0' hc0, ?_, rfl, Or.inl ?_⟩
        · exact mul_le_one₀ (by linarith) hc0 hc1
        · rw [pow_succ, mul_comm ((1 - σ) ^ k)]
          exact mul_le_mul hc1' hck hc0 (by linarith)
    · constructor
      · intro it' hit'
        rw [hs] at hmach
        rw [hit'] at hmach
        cases hmach.2
      · intro ob hob
        rw [(hex (k + 1) (by omega)).unique hob hb, hbv]
        refine ⟨c, hc0, hc1, hav, Or.inr ?_⟩
        have hd : it.directionalDerivatives.lInfinity < prm.absoluteFirstDerivativeTol := by
          obtain ⟨_, hinfo, hpass⟩ := view_info hv hit
          obtain ⟨_, hout, -⟩ := lsLoop_start _ _ _ _ _ _ _ _ _ _ _ _ hpass.ls
          have hres' : it.stepResult = (W k).res := by rw [hinfo]; exact hpass.ires
          obtain ⟨_, _, _, hlt⟩ := hout.facts.firstOrder (by rw [← hres']; exact hs)
          rw [hinfo, hpass.ideriv]; exact hlt
        obtain ⟨h1, h2⟩ := C46_exits_are_taken env prm x0 o o' out calls h k it hit .satisfiedFirstOrderTol ⟨hs, hd⟩
        exact ⟨by omega, h2⟩

/-- **C98**. Affine costs and affine equality constraints, no inequality constraints, no initial damping, at least one
line-search retry: as long as the constraints hold or are violated by at least machine epsilon, every iterate lies between
the start and the one best feasible point, at most `(1 - secondStep)^k` of the way from the latter after `k` iterations
(unless `Solve` stopped with `SATISFIED_FIRST_ORDER_TOL`), and the violation of the constraints is reduced exactly in proportion. -/
theorem C98_constrained_least_squares (env : Env D D ℝ) (hE : NSContract env.NE) (hr : env.retraction = none)
    (hp : WellPosed env.p D) (haff : AffineCosts env.p) (heq : AffineEqs env.p) (hi : env.p.ineq = []) (he : env.p.eqs ≠ [])
    (prm : NLSParams ℝ) (hls : 1 ≤ prm.maxLineSearchIterations)
    (htau : prm.lineSearchStrategy = .armijoBacktrack → prm.armijoSearchTau ≤ 9999 / 10000)
    (hlam : prm.lambdaInitial ≤ 0) (x0 : Fin D → ℝ) (o o' : env.Obj) (out : NLSOutputs ℝ)
    (calls : List (NLSIteration ℝ)) (h : solve env prm x0 o = .ok (o', out, calls)) (hne : out.iterations ≠ []) :
    ∃ best, BestFeasible env.p best ∧ ∀ k, k ≤ out.iterations.length →
      (∀ j, j < k → ∀ ob, After env prm x0 o j ob →
        violationAt env.p ob.vars = 0 ∨ 1 / 2 ^ 52 ≤ violationAt env.p ob.vars) →
      ∀ ob, After env prm x0 o k ob → ∃ c, 0 ≤ c ∧ c ≤ 1 ∧ ob.vars = between best x0 c ∧
        violationAt env.p ob.vars = c * violationAt env.p x0 ∧
        (c ≤ (1 - secondStep prm) ^ k ∨ k = out.iterations.length ∧ out.termination = .satisfiedFirstOrderTol) := by
  obtain ⟨S, T, W, hv⟩ := solve_view h
  have hv' := hv.prmOk
  have hσ : 0 ≤ secondStep prm ∧ secondStep prm ≤ 1 := by
    unfold secondStep
    cases hs : prm.lineSearchStrategy with
    | armijoBacktrack => exact ⟨hv'.armijoSearchTau.1.le, hv'.armijoSearchTau.2.le⟩
    | polynomialApproximation => norm_num
  obtain ⟨best, hb, H⟩ := run_between env hE hr hp haff heq hi he prm hlam x0 o o' out calls h hne
    (fun v => v = 0 ∨ 1 / 2 ^ 52 ≤ v) (secondStep prm) hσ.1 hσ.2 (by
      intro k it a b hit hl ha hb hg
      rcases (C98_progress env hE hr hp haff heq hi he prm hls htau x0 o o' out calls h k it hit hl a b ha hb hg).2 with
        hs | ⟨hs, hv, -⟩
      · exact Or.inl hs
      · exact Or.inr ⟨hs, hv⟩)
  refine ⟨best, hb, fun k hk hg ob hob => ?_⟩
  obtain ⟨c, hc0, hc1, hv, hcase⟩ := (H k hk hg).2 ob hob
  exact ⟨c, hc0, hc1, hv, by rw [hv, between_violation heq hb.1 x0 hc0], hcase⟩

/-- **C98** (feasible start). If the start satisfies the equality constraints, the first iteration reaches the one best feasible
point, and `Solve` returns it, or it stops where it started with `SATISFIED_FIRST_ORDER_TOL`. -/
theorem C98_feasible_start (env : Env D D ℝ) (hE : NSContract env.NE) (hr : env.retraction = none)
    (hp : WellPosed env.p D) (haff : AffineCosts env.p) (heq : AffineEqs env.p) (hi : env.p.ineq = []) (he : env.p.eqs ≠ [])
    (prm : NLSParams ℝ) (hlam : prm.lambdaInitial ≤ 0) (x0 : Fin D → ℝ) (hx0 : SatisfiesEqs env.p x0) (o o' : env.Obj)
    (out : NLSOutputs ℝ) (calls : List (NLSIteration ℝ)) (h : solve env prm x0 o = .ok (o', out, calls))
    (hne : out.iterations ≠ []) :
    (BestFeasible env.p o'.vars ∧ ∀ k, 1 ≤ k → k ≤ out.iterations.length → ∀ ob, After env prm x0 o k ob → ob.vars = o'.vars) ∨
    (out.termination = .satisfiedFirstOrderTol ∧ out.iterations.length = 1 ∧ o'.vars = x0) := by
  obtain ⟨hex, hfirst, hlast⟩ := C38_after env prm x0 o o' out calls h
  have hlen : 0 < out.iterations.length := List.length_pos_iff.mpr hne
  obtain ⟨best, hb, H⟩ := run_between env hE hr hp haff heq hi he prm hlam x0 o o' out calls h hne
    (fun v => v = 0) 1 zero_le_one le_rfl (by
      intro k it a b hit hl ha hb hg
      rcases (C98_full_step env hE hr hp haff heq hi he prm x0 o o' out calls h k it hit hl a b ha hb (Or.inl hg)).2 with
        ⟨hs, hB⟩ | ⟨hs, hv, -⟩
      · exact Or.inl ⟨hs, b.vars, 0, hB, le_rfl, by norm_num, by funext i; simp [between]⟩
      · exact Or.inr ⟨hs, hv⟩)
  have hall : ∀ k, k ≤ out.iterations.length → ∀ ob, After env prm x0 o k ob → violationAt env.p ob.vars = 0 := by
    intro k
    induction k using Nat.strong_induction_on with
    | _ k ih =>
      intro hk ob hob
      obtain ⟨c, hc0, -, hv, -⟩ := (H k hk (fun j hj => ih j hj (by omega))).2 ob hob
      rw [hv, between_violation heq hb.1 x0 hc0, satisfies_violation.mpr hx0, mul_zero]
  have hpt : ∀ k, k ≤ out.iterations.length → ∀ ob, After env prm x0 o k ob → 1 ≤ k →
      ob.vars = best ∨ k = out.iterations.length ∧ out.termination = .satisfiedFirstOrderTol := by
    intro k hk ob hob h1
    obtain ⟨c, hc0, -, hv, hcase⟩ := (H k hk (fun j hj => hall j (by omega))).2 ob hob
    refine hcase.imp (fun hc => ?_) id
    rw [sub_self, zero_pow (by omega)] at hc
    have : c = 0 := le_antisymm hc hc0
    rw [hv, this]; funext i; simp [between]
  obtain ⟨e, he', _⟩ := hex _ le_rfl
  have hoe := hlast e he'
  -- the exit SATISFIED_FIRST_ORDER_TOL leaves the variables of the iteration before
  by_cases hfo : out.termination = .satisfiedFirstOrderTol
  · obtain ⟨k, it, a, b, hk, hit, ha, hb', hav, -⟩ := first_order_last env prm x0 o o' out calls h hfo
    by_cases hk0 : k = 0
    · right
      subst hk0
      exact ⟨hfo, hk.symm, by rw [← hav]; exact hfirst a ha⟩
    · left
      have hka : a.vars = best := by
        rcases hpt k (by omega) a ha (by omega) with h1 | ⟨h1, -⟩
        · exact h1
        · omega
      have hob : o'.vars = best := by rw [← hav]; exact hka
      refine ⟨by rw [hob]; exact hb, fun j h1 hj ob hob' => ?_⟩
      rcases hpt j hj ob hob' h1 with h2 | ⟨h2, -⟩
      · rw [h2, hob]
      · rw [(hex j hj).unique hob' (h2 ▸ he'), hoe]
  · left
    have hob : o'.vars = best := by
      rw [← hoe]
      rcases hpt _ le_rfl e he' hlen with h1 | ⟨-, h1⟩
      · exact h1
      · exact absurd h1 hfo
    refine ⟨by rw [hob]; exact hb, fun j h1 hj ob hob' => ?_⟩
    rcases hpt j hj ob hob' h1 with h2 | ⟨-, h2⟩
    · rw [h2, hob]
    · exact absurd h2 hfo

end MiniOpt.Props
