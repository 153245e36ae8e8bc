import Verif.Props.NLSState
import Verif.Props.QPMore

/-!
# C50: linear least squares problems (exact arithmetic)

Concrete runs meeting the hypotheses of the theorems below: `Props/NLSExamples.lean` (and the examples
beside each theorem).
-/

set_option autoImplicit false

namespace MiniOpt.Props

open MiniOpt.Spec MiniOpt.NLS

variable {D : Nat}

/-- Every cost is an affine function of the variables, equal to its linear model everywhere. -/
def AffineCosts (p : Problem D ℝ) : Prop :=
  ∀ r ∈ p.costs, ∀ (x dx : Fin D → ℝ) k, valueAt r (fun i => x i + dx i) k = linAt r x dx k

/-- The stacked Jacobian of the costs is injective, i.e. `JᵀJ` is positive definite. -/
def FullRankCosts (p : Problem D ℝ) : Prop :=
  ∀ (x dx : Fin D → ℝ), dx ≠ 0 → 0 < (p.costs.map fun r => ∑ k, slopeAt r x dx k ^ 2).sum

/-- `C15_one_iteration` for a number of constraints known to be zero. -/
theorem one_iteration_of_zero {N M K : Nat} (hM : M = 0) (E : Eigen N K ℝ) (hE : LDLTContract E) (p : QP N M K ℝ)
    (hG : PosDefG p) (hA : IndependentRows p) (prm : QPParams ℝ) (hctol : 0 < prm.terminationComplementarityTol)
    (st : IPState N M K ℝ) (hwf : IP.WF st) (r : IPState N M K ℝ × QPOutputs ℝ) (h : IP.solve E p prm st = .ok r) :
    Feasible p r.1.v.x ∧ (∀ i, gradLagrangian p r.1.v i = 0) ∧
    ∀ x', Feasible p x' → x' ≠ r.1.v.x → objective p r.1.v.x < objective p x' := by
  subst hM
  exact (C15_one_iteration E hE p hG.onNull hA prm hctol st hwf r h).2.2

theorem affine_cost {p : Problem D ℝ} (haff : AffineCosts p) (x dx : Fin D → ℝ) :
    costAt p (fun i => x i + dx i) = (p.costs.map fun r => (1 / 2) * ∑ k, linAt r x dx k ^ 2).sum := by
  rw [costAt_real]
  congr 1
  refine List.map_congr_left fun r hr => ?_
  congr 1
  exact Finset.sum_congr rfl fun k _ => by rw [haff r hr x dx k]

/-- **C50** (one iteration). For affine costs with injective Jacobian and no constraints, every iteration without
damping makes exactly one line-search step, with `alpha = 1`; its target is the unique global minimiser; and the outcome is
`SUCCESS`, or `FIRST_ORDER_SATISFIED` if the derivative - twice the distance of the cost from its minimum - is below the tolerance. -/
theorem C50_iteration (env : Env D D ℝ) (hE : LDLTContract env.E) (hr : env.retraction = none) (hp : WellPosed env.p D)
    (haff : AffineCosts env.p) (hrank : FullRankCosts env.p) (hi : env.p.ineq = []) (he : env.p.eqs = [])
    (prm : NLSParams ℝ) (x0 : Fin D → ℝ) (o o' : env.Obj) (out : NLSOutputs ℝ) (calls : List (NLSIteration ℝ))
    (h : solve env prm x0 o = .ok (o', out, calls)) (k : Nat) (it : NLSIteration ℝ) (hit : out.iterations[k]? = some it)
    (hlam : it.lambda ≤ 0) (a b : env.Obj) (ha : After env prm x0 o k a) (hb : After env prm x0 o (k + 1) b) :
    (∀ y, y ≠ (fun i => a.vars i + b.dx i) → costAt env.p (fun i => a.vars i + b.dx i) < costAt env.p y) ∧
    (∃ st, it.lineSearchSteps = [st] ∧ st.alpha = 1) ∧
    it.directionalDerivatives.dF = - 2 * (costAt env.p a.vars - costAt env.p (fun i => a.vars i + b.dx i)) ∧
    ((it.stepResult = .success ∧ b.vars = fun i => a.vars i + b.dx i) ∨
      (it.stepResult = .firstOrderSatisfied ∧ b.vars = a.vars ∧
        2 * (costAt env.p a.vars - costAt env.p (fun i => a.vars i + b.dx i)) < prm.absoluteFirstDerivativeTol)) := by
  have hmem := List.mem_of_getElem? hit
  obtain ⟨h1, h2, h3⟩ := C38_direction env prm x0 o o' out calls h k it hit a b ha hb
  obtain ⟨f1, f2, f3, f4, f5, f6⟩ := linearize_facts hp h1
  obtain ⟨qp', pre', h', g1, g2, -⟩ := C34_gauss_newton env.p hp a.vars (linearize_quiet h1) it.lambda a.qp
  rw [h1] at h'
  cases h'
  have hM : env.p.M = 0 := by simp [Problem.M, hi]
  have hK : env.p.K = 0 := by simp [Problem.K, he]
  have noK : ∀ {P : Prop}, Fin env.p.K → P := fun k => absurd (lt_of_lt_of_eq k.isLt hK) (Nat.not_lt_zero _)
  have noM : ∀ {P : Prop}, Fin env.p.M → P := fun m => absurd (lt_of_lt_of_eq m.isLt hM) (Nat.not_lt_zero _)
  have hmax : max it.lambda 0 = 0 := max_eq_right hlam
  -- the cost is the model
  have hcost : ∀ dx : Fin D → ℝ, costAt env.p (fun i => a.vars i + dx i) = costAt env.p a.vars + (∑ i, b.qp.c i * dx i)
      + 1 / 2 * ∑ i, ∑ j, dx i * b.qp.G (max i j) (min i j) * dx j := by
    intro dx
    have := g2 dx
    rw [hmax, g1] at this
    rw [affine_cost haff]
    simp only [zero_div, zero_mul, add_zero] at this
    rw [← this]
    rfl
  have hquad : ∀ dx : Fin D → ℝ, (∑ i, ∑ j, dx i * b.qp.G (max i j) (min i j) * dx j)
      = (env.p.costs.map fun r => ∑ k, slopeAt r a.vars dx k ^ 2).sum := by
    intro dx; rw [f6, hmax]; simp
  -- the direction
  have hdir : (∀ dx : Fin D → ℝ, dx ≠ b.dx → costAt env.p (fun i => a.vars i + b.dx i) < costAt env.p (fun i => a.vars i + dx i)) ∧
      (∑ i, b.qp.c i * b.dx i) = - ∑ i, ∑ j, b.dx i * b.qp.G (max i j) (min i j) * b.dx j := by
    rcases h3 with ⟨hcon, s, s', q, hs, -, hdx⟩ | ⟨s, s', hs, -⟩
    · have hpd : PosDefG (b.qp.typed hcon) := by
        intro x hx
        have : ∑ i, ∑ j, x i * Gsym (b.qp.typed hcon) i j * x j
            = ∑ i, ∑ j, x i * b.qp.G (max i j) (min i j) * x j := rfl
        rw [this, hquad]
        exact hrank _ _ hx
      have hind : IndependentRows (b.qp.typed hcon) := by
        intro y _
        funext k
        exact noK k
      obtain ⟨-, hgrad, hmin⟩ := one_iteration_of_zero hM env.E hE _ hpd hind (qpParams env.p prm)
        (by simp only [qpParams, QPParams.default, real_lit]; norm_num) _ (setupState_WF s) _ hs
      constructor
      · intro dx hne
        have hfeas : Feasible (b.qp.typed hcon) dx := by
          constructor
          · intro m
            exact noM m
          · intro k
            exact noK k
        have hlt := hmin dx hfeas (by rw [← hdx]; exact hne)
        have hlt' : objective (b.qp.typed hcon) b.dx < objective (b.qp.typed hcon) dx := by rw [hdx]; exact hlt
        unfold objective Gsym at hlt'
        have hlt'' : (1 / 2) * (∑ i, ∑ j, b.dx i * b.qp.G (max i j) (min i j) * b.dx j) + ∑ i, b.qp.c i * b.dx i
          < (1 / 2) * (∑ i, ∑ j, dx i * b.qp.G (max i j) (min i j) * dx j) + ∑ i, b.qp.c i * dx i := hlt'
        rw [hcost, hcost]
        linarith
      · have hg : ∀ i, (∑ j, b.qp.G (max i j) (min i j) * b.dx j) + b.qp.c i = 0 := by
          intro i
          have := hgrad i
          unfold gradLagrangian Gsym at this
          rw [Fintype.sum_eq_zero _ (fun k : Fin env.p.K => noK k), Fintype.sum_eq_zero _ (fun m : Fin env.p.M => noM m)] at this
          rw [hdx]
          have this' : (∑ j, b.qp.G (max i j) (min i j) * s'.v.x j) + b.qp.c i - 0 - 0 = 0 := this
          linarith
        have : ∀ i, b.qp.c i * b.dx i = - ∑ j, b.dx i * b.qp.G (max i j) (min i j) * b.dx j := by
          intro i
          have := hg i
          have e : (∑ j, b.dx i * b.qp.G (max i j) (min i j) * b.dx j)
              = b.dx i * ∑ j, b.qp.G (max i j) (min i j) * b.dx j := by
            rw [Finset.mul_sum]; exact Finset.sum_congr rfl fun j _ => by ring
          rw [e, show (∑ j, b.qp.G (max i j) (min i j) * b.dx j) = - b.qp.c i by linarith]
          ring
        rw [Finset.sum_congr rfl fun i _ => this i, Finset.sum_neg_distrib]
    · exfalso
      unfold NS.solve at hs
      rw [if_pos (by rw [hK]; simp)] at hs
      cases hs
  obtain ⟨hmin, hdF⟩ := hdir
  have hq0 : 0 ≤ ∑ i, ∑ j, b.dx i * b.qp.G (max i j) (min i j) * b.dx j := by
    rw [hquad]
    refine List.sum_nonneg ?_
    intro v hv
    obtain ⟨r, _, rfl⟩ := List.mem_map.mp hv
    exact Finset.sum_nonneg fun k _ => sq_nonneg _
  have hd := costDerivative_real b.qp b.dx
  rw [← h2] at hd
  have hdE : it.directionalDerivatives.dEquality = 0 := by
    rw [hd.2]
    refine Finset.sum_eq_zero fun k _ => ?_
    exact noK k
  have hnew := hcost b.dx
  have hdF' : it.directionalDerivatives.dF
      = - 2 * (costAt env.p a.vars - costAt env.p (fun i => a.vars i + b.dx i)) := by
    rw [hd.1, hnew, hdF]; ring
  have hle0 : it.directionalDerivatives.dF ≤ 0 := by rw [hd.1, hdF]; linarith
  have htot : ∀ pen, it.directionalDerivatives.total pen = it.directionalDerivatives.dF := by
    intro pen; unfold DirectionalDerivatives.total; rw [hdE]; ring
  have hviol : ∀ x : Fin D → ℝ, violationAt env.p x = 0 := by
    intro x; unfold violationAt; rw [he]; rfl
  -- the first line search step
  obtain ⟨hne, -, hfirst, -⟩ := C40_alphas_any env prm x0 o o' out calls h it hmem
  obtain ⟨hrejected, hsucc⟩ := C40_only_last_accepted env prm x0 o o' out calls h it hmem
  obtain ⟨S, T, W, hv⟩ := solve_view h
  obtain ⟨hlt, hinfo, hpass⟩ := view_info hv hit
  obtain ⟨htr, hout, -⟩ := lsLoop_start _ _ _ _ _ _ _ _ _ _ _ _ hpass.ls
  have hsteps : it.lineSearchSteps = (W k).steps := by rw [hinfo]; exact hpass.isteps
  obtain ⟨st, hst⟩ : ∃ st, it.lineSearchSteps[0]? = some st :=
    ⟨_, List.getElem?_eq_getElem hne⟩
  have hst1 := hfirst st hst
  have hax : (S k).obj = a := ((hv.after k (by omega) a).mp ha).symm
  have hbx : (S (k + 1)).obj = b := ((hv.after (k + 1) (by omega) b).mp hb).symm
  have hret : ∃ c, retract env a.vars b.dx 1 = .ok c ∧ evalErrors env.p c = .ok st.errors := by
    obtain ⟨c, hc1, hc2⟩ := htr.entry st (by rw [← hsteps]; exact List.mem_of_getElem? hst)
    rw [hst1, ← hpass.dx, hax, hbx] at hc1
    exact ⟨c, hc1, hc2⟩
  obtain ⟨c, hc1, hc2⟩ := hret
  have hmv := retract_moves hc1
  unfold Moves at hmv
  rw [hr] at hmv
  obtain ⟨_, hc⟩ := hmv
  have hc' : c = fun i => a.vars i + b.dx i := by rw [hc]; funext i; simp
  have herr : st.errors = errorsAt env.p (fun i => a.vars i + b.dx i) := by
    rw [← hc']; exact ((evalErrors_ok_iff env.p c _).mp hc2).2
  have harm : st.errors.total it.penalty ≤ it.errorsInitial.total it.penalty
      + it.directionalDerivatives.total it.penalty * st.alpha * armijoC1 := by
    rw [htot, hst1, herr, f1]
    unfold Errors.total errorsAt armijoC1
    simp only [hviol, real_lit]
    push_cast
    linarith
  have hlen : it.lineSearchSteps = [st] := by
    have hl1 : ¬ 1 < it.lineSearchSteps.length := by
      intro hl
      exact (hrejected 0 st hl hst).2 harm
    cases hL : it.lineSearchSteps with
    | nil => rw [hL] at hst; cases hst
    | cons s0 rest =>
      rw [hL] at hst hl1
      simp only [List.length_cons] at hl1
      have : rest = [] := List.length_eq_zero_iff.mp (by omega)
      subst this
      simp at hst
      rw [hst]
  have hlast : it.lineSearchSteps.getLast? = some st := by rw [hlen]; rfl
  obtain ⟨hm1, hm2⟩ := C38_variables_move env prm x0 o o' out calls h k it hit a b ha hb
  refine ⟨?_, ⟨st, hlen, hst1⟩, hdF', ?_⟩
  · intro y hy
    have := hmin (fun i => y i - a.vars i) (by
      intro hne
      apply hy
      rw [← hne]; funext i; ring)
    have e : (fun i => a.vars i + (y i - a.vars i)) = y := by funext i; ring
    rwa [e] at this
  · by_cases hsmall : it.directionalDerivatives.lInfinity < prm.absoluteFirstDerivativeTol
    · right
      have hgap : 2 * (costAt env.p a.vars - costAt env.p (fun i => a.vars i + b.dx i)) < prm.absoluteFirstDerivativeTol := by
        unfold DirectionalDerivatives.lInfinity at hsmall
        rw [hdE] at hsmall
        simp only [real_cmax, real_abs, abs_zero] at hsmall
        have h0 := le_max_left |it.directionalDerivatives.dF| 0
        have h1 := neg_le_abs it.directionalDerivatives.dF
        linarith
      have hres : it.stepResult = .firstOrderSatisfied := by
        have hf := hout.facts
        have hres' : it.stepResult = (W k).res := by rw [hinfo]; exact hpass.ires
        have hd' : costDerivative (W k).qp (W k).dx = it.directionalDerivatives := by rw [hinfo]; exact hpass.ideriv.symm
        have hmem' : st ∈ (W k).steps := by rw [← hsteps, hlen]; simp
        rw [hd'] at hf
        rw [hres']
        cases hr' : (W k).res with
        | firstOrderSatisfied => rfl
        | success =>
          obtain ⟨_, _, _, hn, _⟩ := hf.success hr'
          exact absurd hsmall hn
        | maxIterations => exact absurd hsmall ((hf.maxIter hr').2 st hmem').notFirstOrder
        | positiveDerivative =>
          obtain ⟨_, _, _, hn, _⟩ := hf.positive hr'
          exact absurd hsmall hn
        | failureNonFiniteCost =>
          obtain ⟨_, _, hn⟩ := hf.nonFinite hr'
          exact absurd hn (real_valid _)
        | failureInvalidAlpha => exact absurd hsmall ((hf.invalidAlpha hr').2.1 st hmem').notFirstOrder
      exact ⟨hres, hm2 (by rw [hres]; simp), hgap⟩
    · left
      have hs : it.stepResult = .success :=
        hsucc.mpr ⟨st, hlast, real_valid _, hsmall, by rw [htot]; exact not_lt.mpr hle0, harm⟩
      refine ⟨hs, ?_⟩
      obtain ⟨st', hst', hmv⟩ := hm1 hs
      rw [hlast] at hst'
      cases hst'
      unfold Moves at hmv
      rw [hr, hst1] at hmv
      obtain ⟨_, hvars⟩ := hmv
      rw [hvars]; funext i; simp

/-- **C50**. For affine costs with injective Jacobian, no constraints and no initial damping, the first iteration makes
one line-search step with `alpha = 1`. Either its derivative - twice the distance of the cost from its minimum - is below
`absolute_first_derivative_tol` and `Solve` stops where it started, or the variables become the unique global minimiser in
the first iteration and stay there; in both cases the returned variables are known. -/
theorem C50_linear_least_squares (env : Env D D ℝ) (hE : LDLTContract env.E) (hr : env.retraction = none)
    (hp : WellPosed env.p D) (haff : AffineCosts env.p) (hrank : FullRankCosts env.p) (hi : env.p.ineq = [])
    (he : env.p.eqs = []) (prm : NLSParams ℝ) (hlam : prm.lambdaInitial ≤ 0) (x0 : Fin D → ℝ) (o o' : env.Obj)
    (out : NLSOutputs ℝ) (calls : List (NLSIteration ℝ)) (h : solve env prm x0 o = .ok (o', out, calls))
    (hne : out.iterations ≠ []) :
    ∃ best : Fin D → ℝ, (∀ y, y ≠ best → costAt env.p best < costAt env.p y) ∧
      (∃ it, out.iterations[0]? = some it ∧ ∃ st, it.lineSearchSteps = [st] ∧ st.alpha = 1) ∧
      ((out.termination = .satisfiedFirstOrderTol ∧ out.iterations.length = 1 ∧ o'.vars = x0 ∧
          2 * (costAt env.p x0 - costAt env.p best) < prm.absoluteFirstDerivativeTol) ∨
        ((∃ it, out.iterations[0]? = some it ∧ it.stepResult = .success) ∧
          (∀ k, 1 ≤ k → k ≤ out.iterations.length → ∀ ob, After env prm x0 o k ob → ob.vars = best) ∧ o'.vars = best)) := by
  obtain ⟨hex, hfirst, hlast⟩ := C38_after env prm x0 o o' out calls h
  obtain ⟨hl0, hlk⟩ := C43_state_machine env prm x0 o o' out calls h
  obtain ⟨S, T, W, hv⟩ := solve_view h
  have hv' := hv.prmOk
  have hlen : 0 < out.iterations.length := List.length_pos_iff.mpr hne
  have hmlam : prm.minLambda ≤ 0 := le_trans hv'.lambdaInitial.1 hlam
  obtain ⟨it0, hit0⟩ : ∃ it, out.iterations[0]? = some it := ⟨_, List.getElem?_eq_getElem hlen⟩
  obtain ⟨a0, ha0, _⟩ := hex 0 (by omega)
  obtain ⟨b0, hb0, _⟩ := hex 1 (by omega)
  have hx0 := hfirst a0 ha0
  have I := fun k it hit hlam a b ha hb => C50_iteration env hE hr hp haff hrank hi he prm x0 o o' out calls h k it hit hlam a b ha hb
  obtain ⟨hbest, hone, -, hcase⟩ := I 0 it0 hit0 (by rw [hl0 it0 hit0]; exact hlam) a0 b0 ha0 hb0
  rw [hx0] at hbest hcase
  refine ⟨_, hbest, ⟨it0, hit0, hone⟩, ?_⟩
  rcases hcase with ⟨hs, hb0v⟩ | ⟨hs, hb0v, hgap⟩
  · right
    refine ⟨⟨it0, hit0, hs⟩, ?_⟩
    have key : ∀ k, k + 1 ≤ out.iterations.length → (∀ it, out.iterations[k + 1]? = some it → it.lambda ≤ 0) ∧
        ∀ ob, After env prm x0 o (k + 1) ob → ob.vars = fun i => x0 i + b0.dx i := by
      intro k
      induction k with
      | zero =>
        intro _
        constructor
        · intro it hit
          have := hlk 0 it0 hit0
          rw [hs] at this
          rw [this.2 it.lambda (by rw [hit]; rfl), hl0 it0 hit0]
          simp only [stateBefore, real_cmax]
          exact max_le (mul_nonpos_of_nonpos_of_nonneg hlam hv'.lambdaDecreaseOnSuccess.1) hmlam
        · intro ob hob
          rw [(hex 1 (by omega)).unique hob hb0]; exact hb0v
      | succ k ih =>
        intro hk
        obtain ⟨ih1, ih2⟩ := ih (by omega)
        obtain ⟨it, hit⟩ : ∃ it, out.iterations[k + 1]? = some it := ⟨_, List.getElem?_eq_getElem (by omega)⟩
        obtain ⟨a, ha, _⟩ := hex (k + 1) (by omega)
        obtain ⟨b, hb, _⟩ := hex (k + 1 + 1) (by omega)
        obtain ⟨hbk, -, -, hck⟩ := I (k + 1) it hit (ih1 it hit) a b ha hb
        have hav := ih2 a ha
        have hsame : (fun i => a.vars i + b.dx i) = fun i => x0 i + b0.dx i := by
          by_contra hne
          have h1 := hbest _ hne
          have h2 := hbk _ (Ne.symm hne)
          linarith
        constructor
        · intro it' hit'
          have := hlk (k + 1) it hit
          rcases hck with ⟨hs', -⟩ | ⟨hs', -⟩
          · rw [hs'] at this
            rw [this.2 it'.lambda (by rw [hit']; rfl)]
            simp only [real_cmax]
            refine max_le (mul_nonpos_of_nonpos_of_nonneg (ih1 it hit) ?_) hmlam
            split
            · exact hv'.lambdaDecreaseOnSuccess.1
            · exact hv'.lambdaDecreaseOnRestore.1
          · rw [hs'] at this
            rw [hit'] at this
            cases this.2
        · intro ob hob
          rw [(hex (k + 1 + 1) (by omega)).unique hob hb]
          rcases hck with ⟨-, hv2⟩ | ⟨-, hv2, -⟩
          · rw [hv2]; exact hsame
          · rw [hv2]; exact hav
    have hall : ∀ k, 1 ≤ k → k ≤ out.iterations.length → ∀ ob, After env prm x0 o k ob →
        ob.vars = fun i => x0 i + b0.dx i := by
      intro k h1 hk ob hob
      obtain ⟨j, rfl⟩ : ∃ j, k = j + 1 := ⟨k - 1, by omega⟩
      exact (key j hk).2 ob hob
    refine ⟨hall, ?_⟩
    obtain ⟨e, he', _⟩ := hex _ le_rfl
    rw [← hlast e he']
    exact hall _ hlen le_rfl e he'
  · left
    have hd : it0.directionalDerivatives.lInfinity < prm.absoluteFirstDerivativeTol := by
      obtain ⟨_, hinfo, hpass⟩ := view_info hv hit0
      obtain ⟨_, hout, -⟩ := lsLoop_start _ _ _ _ _ _ _ _ _ _ _ _ hpass.ls
      have hres' : it0.stepResult = (W 0).res := by rw [hinfo]; exact hpass.ires
      obtain ⟨_, _, _, hlt⟩ := hout.facts.firstOrder (by rw [← hres']; exact hs)
      rw [hinfo, hpass.ideriv]; exact hlt
    obtain ⟨h1, h2⟩ := C46_exits_are_taken env prm x0 o o' out calls h 0 it0 hit0 .satisfiedFirstOrderTol ⟨hs, hd⟩
    refine ⟨h2, h1.symm, ?_, hgap⟩
    obtain ⟨e, he', _⟩ := hex _ le_rfl
    rw [← hlast e he', (hex _ le_rfl).unique he' (by rw [← h1]; exact hb0), hb0v]

end MiniOpt.Props
