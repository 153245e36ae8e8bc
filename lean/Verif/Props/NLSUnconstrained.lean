import Verif.Props.NLSState
import Verif.Props.QPMore
import Verif.Props.LinearLS

/-!
# C67: steps of unconstrained problems

Exact arithmetic, under the contract of Eigen's `LDLT`.

Concrete runs meeting the hypotheses of the theorems below: `Props/NLSExamples.lean` (and the examples
beside each theorem).
-/

set_option autoImplicit false

namespace MiniOpt.Props

open MiniOpt MiniOpt.Spec MiniOpt.NLS

variable {n D : Nat}

/-- The damped Gauss-Newton model of the cost around `x`: `½ Σ ‖h + J dx‖² + ½ λ ‖dx‖²`, with a negative damping
treated as none. -/
noncomputable def dampedModel (p : Problem D ℝ) (x : Fin n → ℝ) (lam : ℝ) (dx : Fin D → ℝ) : ℝ :=
  (p.costs.map fun r => (1 / 2) * ∑ k, linAt r x dx k ^ 2).sum + max lam 0 / 2 * ∑ i, dx i ^ 2

/-- **C67**. Without constraints, if the damping is positive or the stacked Jacobian is injective at the current point, the
direction of an iteration is the Levenberg-Marquardt step: the unique minimiser of the damped Gauss-Newton model. The logged
derivative is minus its quadratic form, so it is negative unless the step is zero, the step is zero only at stationary
points, and the line search never fails with `FAILURE_POSITIVE_DERIVATIVE`. -/
theorem C67_levenberg_marquardt (env : Env n D ℝ) (hE : LDLTContract env.E) (hp : WellPosed env.p n)
    (hi : env.p.ineq = []) (he : env.p.eqs = [])
    (prm : NLSParams ℝ) (x0 : Fin n → ℝ) (o o' : env.Obj) (out : NLSOutputs ℝ) (calls : List (NLSIteration ℝ))
    (h : solve env prm x0 o = .ok (o', out, calls)) (k : Nat) (it : NLSIteration ℝ) (hit : out.iterations[k]? = some it)
    (a b : env.Obj) (ha : After env prm x0 o k a) (hb : After env prm x0 o (k + 1) b)
    (hpd : 0 < it.lambda ∨ ∀ dx : Fin D → ℝ, (∀ r ∈ env.p.costs, ∀ k, slopeAt r a.vars dx k = 0) → dx = 0) :
    (∀ dx, dx ≠ b.dx → dampedModel env.p a.vars it.lambda b.dx < dampedModel env.p a.vars it.lambda dx) ∧
    (∀ pen, it.directionalDerivatives.total pen
      = - ((env.p.costs.map fun r => ∑ k, slopeAt r a.vars b.dx k ^ 2).sum + max it.lambda 0 * ∑ i, b.dx i ^ 2)) ∧
    (∀ pen, it.directionalDerivatives.total pen ≤ 0 ∧ (it.directionalDerivatives.total pen = 0 ↔ b.dx = 0)) ∧
    (b.dx = 0 ↔ ∀ d : Fin D → ℝ, (env.p.costs.map fun r => ∑ k, valueAt r a.vars k * slopeAt r a.vars d k).sum = 0) ∧
    it.stepResult ≠ .positiveDerivative := by
  have hmem := List.mem_of_getElem? hit
  obtain ⟨h1, h2, h3⟩ := C38_direction env prm x0 o o' out calls h k it hit a b ha hb
  obtain ⟨f1, f2, f3, f4, f5, f6⟩ := linearize_facts hp h1
  obtain ⟨qp', pre', h', g1, g2, -⟩ := C34_gauss_newton env.p hp a.vars (linearize_quiet h1) it.lambda a.qp
  rw [h1] at h'
  cases h'
  have hM : env.p.M = 0 := by simp [Problem.M, hi]
  have hK : env.p.K = 0 := by simp [Problem.K, he]
  have noK : ∀ {P : Prop}, Fin env.p.K → P := fun k => absurd (lt_of_lt_of_eq k.isLt hK) (Nat.not_lt_zero _)
  have noM : ∀ {P : Prop}, Fin env.p.M → P := fun m => absurd (lt_of_lt_of_eq m.isLt hM) (Nat.not_lt_zero _)
  -- the quadratic form is positive definite
  have hsum0 : ∀ dx : Fin D → ℝ, 0 ≤ (env.p.costs.map fun r => ∑ k, slopeAt r a.vars dx k ^ 2).sum := by
    intro dx
    refine List.sum_nonneg ?_
    intro v hv
    obtain ⟨r, _, rfl⟩ := List.mem_map.mp hv
    exact Finset.sum_nonneg fun k _ => sq_nonneg _
  have hquad : ∀ dx : Fin D → ℝ, dx ≠ 0 → 0 < ∑ i, ∑ j, dx i * b.qp.G (max i j) (min i j) * dx j := by
    intro dx hdx
    rw [f6]
    have hn0 : 0 ≤ ∑ i, dx i ^ 2 := Finset.sum_nonneg fun i _ => sq_nonneg _
    rcases hpd with hl | hinj
    · have hn : 0 < ∑ i, dx i ^ 2 := by
        obtain ⟨i, hdi⟩ := Function.ne_iff.mp hdx
        have hdi' : dx i ≠ 0 := hdi
        exact Finset.sum_pos' (fun i _ => sq_nonneg _) ⟨i, Finset.mem_univ _, by positivity⟩
      have := mul_pos (lt_max_of_lt_left hl : 0 < max it.lambda 0) hn
      linarith [hsum0 dx]
    · have hm := mul_nonneg (le_max_right it.lambda 0) hn0
      rcases (hsum0 dx).lt_or_eq with hlt | heq
      · linarith
      · exfalso
        apply hdx
        apply hinj
        intro r hr k
        have hle : ∑ k, slopeAt r a.vars dx k ^ 2 ≤ (env.p.costs.map fun r => ∑ k, slopeAt r a.vars dx k ^ 2).sum :=
          List.single_le_sum (by
            intro v hv
            obtain ⟨r, _, rfl⟩ := List.mem_map.mp hv
            exact Finset.sum_nonneg fun k _ => sq_nonneg _) _ (List.mem_map.mpr ⟨r, hr, rfl⟩)
        rw [← heq] at hle
        have h1 := Finset.single_le_sum (f := fun k => slopeAt r a.vars dx k ^ 2) (fun i _ => sq_nonneg _) (Finset.mem_univ k)
        have : slopeAt r a.vars dx k ^ 2 = 0 := le_antisymm (le_trans h1 hle) (sq_nonneg _)
        exact pow_eq_zero_iff (two_ne_zero) |>.mp this
  have hmodel : ∀ dx : Fin D → ℝ, dampedModel env.p a.vars it.lambda dx = it.errorsInitial.f + (∑ i, b.qp.c i * dx i)
      + 1 / 2 * ∑ i, ∑ j, dx i * b.qp.G (max i j) (min i j) * dx j := fun dx => (g2 dx).symm
  -- the direction
  have hdir : (∀ dx : Fin D → ℝ, dx ≠ b.dx → dampedModel env.p a.vars it.lambda b.dx < dampedModel env.p a.vars it.lambda dx) ∧
      ∀ i, (∑ j, b.qp.G (max i j) (min i j) * b.dx j) + b.qp.c i = 0 := by
    rcases h3 with ⟨hcon, s, s', q, hs, -, hdx⟩ | ⟨s, s', hs, -⟩
    · have hpd : PosDefG (b.qp.typed hcon) := by
        intro x hx
        exact hquad x hx
      have hind : IndependentRows (b.qp.typed hcon) := by
        intro y _
        funext k
        exact noK k
      obtain ⟨-, hgrad, hmin⟩ := one_iteration_of_zero hM env.E hE _ hpd hind (qpParams env.p prm)
        (by simp only [qpParams, QPParams.default, real_lit]; norm_num) _ (setupState_WF s) _ hs
      constructor
      · intro dx hne
        have hfeas : Feasible (b.qp.typed hcon) dx := by
          constructor
          · intro m
            exact noM m
          · intro k
            exact noK k
        have hlt := hmin dx hfeas (by rw [← hdx]; exact hne)
        have hlt' : objective (b.qp.typed hcon) b.dx < objective (b.qp.typed hcon) dx := by rw [hdx]; exact hlt
        unfold objective Gsym at hlt'
        have hlt'' : (1 / 2) * (∑ i, ∑ j, b.dx i * b.qp.G (max i j) (min i j) * b.dx j) + ∑ i, b.qp.c i * b.dx i
          < (1 / 2) * (∑ i, ∑ j, dx i * b.qp.G (max i j) (min i j) * dx j) + ∑ i, b.qp.c i * dx i := hlt'
        rw [hmodel, hmodel]
        linarith
      · intro i
        have := hgrad i
        unfold gradLagrangian Gsym at this
        rw [Fintype.sum_eq_zero _ (fun k : Fin env.p.K => noK k), Fintype.sum_eq_zero _ (fun m : Fin env.p.M => noM m)] at this
        rw [hdx]
        have this' : (∑ j, b.qp.G (max i j) (min i j) * s'.v.x j) + b.qp.c i - 0 - 0 = 0 := this
        linarith
    · exfalso
      unfold NS.solve at hs
      rw [if_pos (by rw [hK]; simp)] at hs
      cases hs
  obtain ⟨hmin, hg⟩ := hdir
  have hdF : (∑ i, b.qp.c i * b.dx i) = - ∑ i, ∑ j, b.dx i * b.qp.G (max i j) (min i j) * b.dx j := by
    have : ∀ i, b.qp.c i * b.dx i = - ∑ j, b.dx i * b.qp.G (max i j) (min i j) * b.dx j := by
      intro i
      have := hg i
      have e : (∑ j, b.dx i * b.qp.G (max i j) (min i j) * b.dx j)
          = b.dx i * ∑ j, b.qp.G (max i j) (min i j) * b.dx j := by
        rw [Finset.mul_sum]; exact Finset.sum_congr rfl fun j _ => by ring
      rw [e, show (∑ j, b.qp.G (max i j) (min i j) * b.dx j) = - b.qp.c i by linarith]
      ring
    rw [Finset.sum_congr rfl fun i _ => this i, Finset.sum_neg_distrib]
  have hd := costDerivative_real b.qp b.dx
  rw [← h2] at hd
  have htot : ∀ pen, it.directionalDerivatives.total pen
      = - ∑ i, ∑ j, b.dx i * b.qp.G (max i j) (min i j) * b.dx j := by
    intro pen
    have hdE : it.directionalDerivatives.dEquality = 0 := by
      rw [hd.2]
      exact Finset.sum_eq_zero fun k _ => noK k
    unfold DirectionalDerivatives.total
    rw [hdE, hd.1, hdF]; ring
  have hsign : ∀ pen, it.directionalDerivatives.total pen ≤ 0 ∧ (it.directionalDerivatives.total pen = 0 ↔ b.dx = 0) := by
    intro pen
    rw [htot]
    by_cases hz : b.dx = 0
    · rw [hz]; simp
    · have := hquad _ hz
      exact ⟨by linarith, ⟨fun e => by linarith, fun e => absurd e hz⟩⟩
  refine ⟨hmin, fun pen => by rw [htot, f6], hsign, ?_, ?_⟩
  · constructor
    · intro hz d
      rw [← f2]
      refine Finset.sum_eq_zero fun i _ => ?_
      have := hg i
      rw [hz] at this
      simp only [Pi.zero_apply, mul_zero, Finset.sum_const_zero, zero_add] at this
      rw [this, zero_mul]
    · intro hst
      by_contra hz
      have h1 := hquad _ hz
      have h2 := hst b.dx
      rw [← f2, hdF] at h2
      linarith
  · intro hres
    obtain ⟨S, T, W, hv⟩ := solve_view h
    obtain ⟨_, rfl, hp'⟩ := view_info hv hit
    obtain ⟨-, hout, -⟩ := lsLoop_start _ _ _ _ _ _ _ _ _ _ _ _ hp'.ls
    rw [hp'.ires] at hres
    obtain ⟨_, _, _, _, hpos⟩ := hout.facts.positive hres
    have := (hsign (S (k + 1)).penalty).1
    rw [hp'.ideriv] at this
    linarith

end MiniOpt.Props
