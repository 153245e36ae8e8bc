import Verif.Props.ConstrainedLS

/-!
# C110: which full steps a curved equality constraint costs (exact arithmetic)

Concrete runs meeting the hypotheses, and the example showing both sides: `Props/MaratosExamples.lean`.
-/

set_option autoImplicit false

namespace MiniOpt.Props

open MiniOpt.Spec MiniOpt.NLS

variable {D : Nat}

/-- An iteration of a problem with affine costs that starts where the equality constraints hold. -/
structure FeasibleStep (p : Problem D ℝ) (x dx : Fin D → ℝ) (dF Q : ℝ) : Prop where
  tangent : ∀ r ∈ p.eqs, ∀ k, linAt r x dx k = 0
  best : ∀ d : Fin D → ℝ, (∀ r ∈ p.eqs, ∀ k, linAt r x d k = 0) → d ≠ dx →
    costAt p (fun i => x i + dx i) < costAt p (fun i => x i + d i)
  nonneg : 0 ≤ Q
  slope : dF = - Q
  line : ∀ t : ℝ, costAt p (fun i => x i + t * dx i) = costAt p x - t * Q + t ^ 2 / 2 * Q

theorem feasible_step (env : Env D D ℝ) (hE : NSContract env.NE) (hp : WellPosed env.p D)
    (haff : AffineCosts env.p) (hi : env.p.ineq = []) (he : env.p.eqs ≠ [])
    (prm : NLSParams ℝ) (x0 : Fin D → ℝ) (o o' : env.Obj) (out : NLSOutputs ℝ) (calls : List (NLSIteration ℝ))
    (h : solve env prm x0 o = .ok (o', out, calls)) (k : Nat) (it : NLSIteration ℝ) (hit : out.iterations[k]? = some it)
    (hlam : it.lambda ≤ 0) (a b : env.Obj) (ha : After env prm x0 o k a) (hb : After env prm x0 o (k + 1) b)
    (hsa : SatisfiesEqs env.p a.vars) :
    FeasibleStep env.p a.vars b.dx it.directionalDerivatives.dF (curvature env.p a.vars it.lambda b.dx) := by
  have hmem := List.mem_of_getElem? hit
  have hns := (C45_which_solver env prm x0 o o' out calls h it hmem).1 ⟨hi, he⟩
  obtain ⟨h1, h2, h3⟩ := C38_direction env prm x0 o o' out calls h k it hit a b ha hb
  obtain ⟨f1, f2, f3, f4, f5, f6⟩ := linearize_facts hp h1
  obtain ⟨qp', pre', h', g1, g2, -⟩ := C34_gauss_newton env.p hp a.vars (linearize_quiet h1) it.lambda a.qp
  rw [h1] at h'
  cases h'
  have hmax : max it.lambda 0 = 0 := max_eq_right hlam
  have hdF : it.directionalDerivatives.dF = ∑ i, b.qp.c i * b.dx i := by
    rw [h2]; exact (costDerivative_real b.qp b.dx).1
  have hcurv : (∑ i, ∑ j, b.dx i * b.qp.G (max i j) (min i j) * b.dx j) = curvature env.p a.vars it.lambda b.dx := f6 _
  have hcost : ∀ dx : Fin D → ℝ, costAt env.p (fun i => a.vars i + dx i) = costAt env.p a.vars + (∑ i, b.qp.c i * dx i)
      + 1 / 2 * ∑ i, ∑ j, dx i * b.qp.G (max i j) (min i j) * dx j := by
    intro dx
    have := g2 dx
    rw [hmax, g1] at this
    rw [affine_cost haff]
    simp only [zero_div, zero_mul, add_zero] at this
    rw [← this]
    rfl
  set p : QP D 0 env.p.K ℝ := ⟨b.qp.G, b.qp.c, b.qp.A, b.qp.b, Fin.elim0⟩ with hpdef
  rcases h3 with ⟨_, _, _, q, _, h4, _⟩ | ⟨s, s', h4, -, h5⟩
  · rw [hns] at h4; cases h4
  obtain ⟨hfeas, hmin⟩ := C26_null_space_minimiser env.NE hE _ s _ h4 rfl
  have hlin : ∀ r ∈ env.p.eqs, ∀ k, linAt r a.vars b.dx k = 0 := by
    intro r hr k
    have hm : linAt r a.vars b.dx k ∈ stackedModel a.vars b.dx env.p.eqs := mem_stackedModel.mpr ⟨r, hr, k, rfl⟩
    rw [← f3 b.dx] at hm
    obtain ⟨j, hj⟩ := List.mem_ofFn.mp hm
    rw [← hj]
    have := hfeas j
    rw [h5]
    exact this
  have hsat : ∀ d : Fin D → ℝ, (∀ r ∈ env.p.eqs, ∀ k, linAt r a.vars d k = 0) → ∀ j, eqVal p d j = 0 := by
    intro d hd j
    have hm : (∑ l, b.qp.A j l * d l) + b.qp.b j ∈ stackedModel a.vars d env.p.eqs := by
      rw [← f3]; exact List.mem_ofFn.mpr ⟨j, rfl⟩
    obtain ⟨r, hr, k, e⟩ := mem_stackedModel.mp hm
    rw [hd r hr k] at e
    exact e
  have hobj : ∀ d, objective p d = costAt env.p (fun i => a.vars i + d i) - costAt env.p a.vars := by
    intro d
    rw [hcost]
    have : objective p d = (1 / 2) * (∑ i, ∑ j, d i * b.qp.G (max i j) (min i j) * d j) + ∑ i, b.qp.c i * d i := rfl
    rw [this]; ring
  have hslope : it.directionalDerivatives.dF = - curvature env.p a.vars it.lambda b.dx := by
    have hzero : ∀ j, eqVal p (fun _ => 0) j = 0 := hsat _ (fun r hr k => by
      have : linAt r a.vars (fun _ : Fin D => (0 : ℝ)) k = valueAt r a.vars k + ∑ j, jacAt r a.vars D k j * 0 := rfl
      rw [this, hsa r hr k]; simp)
    have hA : ∀ k, ∑ j, p.A k j * b.dx j = 0 := by
      intro j
      have e1 := hzero j
      have e2 := hfeas j
      rw [← h5] at e2
      unfold eqVal at e1 e2
      simp only [mul_zero, Finset.sum_const_zero, zero_add] at e1
      rw [e1] at e2
      linarith
    have hst := qp_stationary p b.dx b.dx (fun t => by
      by_cases hne : (fun i => b.dx i + t * b.dx i) = b.dx
      · rw [hne]
      · rw [h5] at hne ⊢
        refine (hmin _ (fun k => ?_) hne).le
        have e := hfeas k
        unfold eqVal at e ⊢
        have e2 : ∑ j, p.A k j * (s'.x j + t * s'.x j) = (∑ j, p.A k j * s'.x j) + t * ∑ j, p.A k j * s'.x j := by
          rw [Finset.mul_sum, ← Finset.sum_add_distrib]; exact Finset.sum_congr rfl fun i _ => by ring
        rw [e2, ← h5, show ∑ j, p.A k j * b.dx j = 0 from hA k]
        rw [← h5, show ∑ j, p.A k j * b.dx j = 0 from hA k] at e
        linarith)
    rw [hdF]
    have e3 : bil p b.dx b.dx = curvature env.p a.vars it.lambda b.dx := f6 _
    rw [e3] at hst
    have e4 : ∑ i, p.c i * b.dx i = ∑ i, b.qp.c i * b.dx i := rfl
    linarith
  refine ⟨hlin, ?_, curvature_nonneg _ _ _ _, hslope, ?_⟩
  · intro d hd hne
    have := hmin d (hsat d hd) (fun hc => hne (by rw [h5]; exact hc))
    rw [← h5, hobj, hobj] at this
    linarith
  · intro t
    rw [hcost fun i => t * b.dx i]
    have e1 : ∑ i, b.qp.c i * (t * b.dx i) = t * ∑ i, b.qp.c i * b.dx i := by
      rw [Finset.mul_sum]; exact Finset.sum_congr rfl fun i _ => by ring
    have e2 : (∑ i, ∑ j, (t * b.dx i) * b.qp.G (max i j) (min i j) * (t * b.dx j))
        = t ^ 2 * ∑ i, ∑ j, b.dx i * b.qp.G (max i j) (min i j) * b.dx j := by
      simp only [Finset.mul_sum]
      exact Finset.sum_congr rfl fun i _ => Finset.sum_congr rfl fun j _ => by ring
    rw [e1, e2, ← hdF, hcurv, hslope]; ring

/-- What the line search of such an iteration sees. -/
theorem feasible_trials (env : Env D D ℝ) (hE : NSContract env.NE) (hr : env.retraction = none) (hp : WellPosed env.p D)
    (haff : AffineCosts env.p) (hi : env.p.ineq = []) (he : env.p.eqs ≠ [])
    (prm : NLSParams ℝ) (x0 : Fin D → ℝ) (o o' : env.Obj) (out : NLSOutputs ℝ) (calls : List (NLSIteration ℝ))
    (h : solve env prm x0 o = .ok (o', out, calls)) (k : Nat) (it : NLSIteration ℝ) (hit : out.iterations[k]? = some it)
    (hlam : it.lambda ≤ 0) (a b : env.Obj) (ha : After env prm x0 o k a) (hb : After env prm x0 o (k + 1) b)
    (hsa : SatisfiesEqs env.p a.vars) :
    it.directionalDerivatives.dEquality = 0 ∧
    it.directionalDerivatives.total it.penalty = - curvature env.p a.vars it.lambda b.dx ∧
    it.errorsInitial.total it.penalty = costAt env.p a.vars ∧
    ∀ st ∈ it.lineSearchSteps, st.errors.total it.penalty
      = costAt env.p a.vars - st.alpha * curvature env.p a.vars it.lambda b.dx
        + st.alpha ^ 2 / 2 * curvature env.p a.vars it.lambda b.dx
        + it.penalty * violationAt env.p (fun i => a.vars i + st.alpha * b.dx i) := by
  have hmem := List.mem_of_getElem? hit
  have F := feasible_step env hE hp haff hi he prm x0 o o' out calls h k it hit hlam a b ha hb hsa
  obtain ⟨e1, e2, -⟩ := C39_logged_errors env hp.consistent prm x0 o o' out calls h k it hit a b ha hb
  have hdE := (C45_descent env hE hp hi he prm x0 o o' out calls h it hmem).1
  have hinit : it.errorsInitial = errorsAt env.p a.vars := e1
  have hv0 : violationAt env.p a.vars = 0 := satisfies_violation.mpr hsa
  have hve : it.errorsInitial.equality = 0 := by rw [hinit]; exact hv0
  rw [hve, neg_zero] at hdE
  refine ⟨hdE, ?_, ?_, ?_⟩
  · unfold DirectionalDerivatives.total; rw [hdE, F.slope]; ring
  · rw [hinit]; unfold Errors.total errorsAt; simp only; rw [hv0]; ring
  · intro st hst
    obtain ⟨c, hc1, hc2⟩ := e2 st hst
    unfold Moves at hc1
    rw [hr] at hc1
    obtain ⟨_, hc⟩ := hc1
    have hc' : c = fun i => a.vars i + st.alpha * b.dx i := by rw [hc]; funext i; simp [mul_comm]
    rw [hc2, hc']
    unfold Errors.total errorsAt
    simp only
    rw [F.line]

/-- **C110** (one iteration). Affine costs, equality constraints of any shape, no inequality constraints, no damping: an
iteration that starts where the constraints hold and is not stopped by the first-derivative tolerance aims at the one point of
least cost among those satisfying the linearized constraints, and its full step is accepted exactly if the penalty times the
constraint violation at that point is at most `1 - 2 * 10⁻⁴` times the decrease of the cost. -/
theorem C110_full_step (env : Env D D ℝ) (hE : NSContract env.NE) (hr : env.retraction = none) (hp : WellPosed env.p D)
    (haff : AffineCosts env.p) (hi : env.p.ineq = []) (he : env.p.eqs ≠ [])
    (prm : NLSParams ℝ) (x0 : Fin D → ℝ) (o o' : env.Obj) (out : NLSOutputs ℝ) (calls : List (NLSIteration ℝ))
    (h : solve env prm x0 o = .ok (o', out, calls)) (k : Nat) (it : NLSIteration ℝ) (hit : out.iterations[k]? = some it)
    (hlam : it.lambda ≤ 0) (a b : env.Obj) (ha : After env prm x0 o k a) (hb : After env prm x0 o (k + 1) b)
    (hsa : SatisfiesEqs env.p a.vars) (hfo : it.stepResult ≠ .firstOrderSatisfied) :
    ∃ target : Fin D → ℝ,
      (∀ r ∈ env.p.eqs, ∀ k, linAt r a.vars (fun i => target i - a.vars i) k = 0) ∧
      (∀ y : Fin D → ℝ, (∀ r ∈ env.p.eqs, ∀ k, linAt r a.vars (fun i => y i - a.vars i) k = 0) → y ≠ target →
        costAt env.p target < costAt env.p y) ∧
      (it.stepResult = .success ∧ it.lineSearchSteps.length = 1 ↔
        it.penalty * violationAt env.p target ≤ (1 - 2 / 10 ^ 4) * (costAt env.p a.vars - costAt env.p target)) ∧
      (it.stepResult = .success ∧ it.lineSearchSteps.length = 1 → b.vars = target) := by
  have hmem := List.mem_of_getElem? hit
  have F := feasible_step env hE hp haff hi he prm x0 o o' out calls h k it hit hlam a b ha hb hsa
  obtain ⟨hdE, htot, hpre, htr⟩ :=
    feasible_trials env hE hr hp haff hi he prm x0 o o' out calls h k it hit hlam a b ha hb hsa
  set Q := curvature env.p a.vars it.lambda b.dx with hQ
  have hQ0 := F.nonneg
  have hsub : ∀ y : Fin D → ℝ, (fun i => a.vars i + (y i - a.vars i)) = y := fun y => by funext i; ring
  have hdx : (fun i => (a.vars i + b.dx i) - a.vars i) = b.dx := by funext i; ring
  have hc1 : (armijoC1 : ℝ) = 1 / 10 ^ 4 := by unfold armijoC1; simp
  have hgain : costAt env.p a.vars - costAt env.p (fun i => a.vars i + b.dx i) = 1 / 2 * Q := by
    have := F.line 1
    simp only [one_mul] at this
    rw [this]; ring
  obtain ⟨hlen, -, hfirst, -⟩ := C40_alphas_any env prm x0 o o' out calls h it hmem
  obtain ⟨hrejected, hsucc⟩ := C40_only_last_accepted env prm x0 o o' out calls h it hmem
  obtain ⟨st, hst⟩ : ∃ st, it.lineSearchSteps[0]? = some st := ⟨_, List.getElem?_eq_getElem hlen⟩
  have hα := hfirst st hst
  have harm : (st.errors.total it.penalty ≤ it.errorsInitial.total it.penalty
      + it.directionalDerivatives.total it.penalty * st.alpha * armijoC1) ↔
      it.penalty * violationAt env.p (fun i => a.vars i + b.dx i)
        ≤ (1 - 2 / 10 ^ 4) * (costAt env.p a.vars - costAt env.p fun i => a.vars i + b.dx i) := by
    rw [htr st (List.mem_of_getElem? hst), hα, hpre, htot, hc1, hgain]
    simp only [one_mul]
    constructor <;> intro h <;> linarith
  have hlast : it.lineSearchSteps.length = 1 → it.lineSearchSteps.getLast? = some st := by
    intro h1
    rw [List.getLast?_eq_getElem?, h1]
    exact hst
  obtain ⟨hm1, -⟩ := C38_variables_move env prm x0 o o' out calls h k it hit a b ha hb
  refine ⟨fun i => a.vars i + b.dx i, ?_, ?_, ⟨?_, ?_⟩, ?_⟩
  · rw [hdx]; exact F.tangent
  · intro y hy hne
    have := F.best _ hy (fun hc => hne (by rw [← hc, hsub]))
    rwa [hsub] at this
  · rintro ⟨hs, h1⟩
    obtain ⟨st', hl, -, -, -, hA⟩ := hsucc.mp hs
    rw [hlast h1] at hl
    cases Option.some.inj hl
    exact harm.mp hA
  · intro hle
    have hA := harm.mpr hle
    have h1 : it.lineSearchSteps.length = 1 := by
      by_contra hne
      exact (hrejected 0 st (by omega) hst).2 hA
    refine ⟨?_, h1⟩
    rcases search_outcomes env prm x0 o o' out calls h it hmem (by rw [htot]; linarith) with hs | ⟨hs, -⟩ | ⟨hs, -⟩
    · exact hs
    · exact absurd hs hfo
    · exact absurd hA (hs st (List.mem_of_getElem? hst))
  · rintro ⟨hs, h1⟩
    obtain ⟨st', hl, hmv⟩ := hm1 hs
    rw [hlast h1] at hl
    cases Option.some.inj hl
    unfold Moves at hmv
    rw [hr] at hmv
    obtain ⟨_, hvars⟩ := hmv
    rw [hvars]; funext i
    simp [hα]

end MiniOpt.Props
