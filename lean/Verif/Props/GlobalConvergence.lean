import Verif.Spec.SmoothSpec
import Verif.Props.Termination
import Verif.Props.FirstOrder

/-!
# C96: what smoothness of the cost guarantees
-/

set_option autoImplicit false

namespace MiniOpt.Props

open MiniOpt.Spec MiniOpt.NLS

variable {D : Nat}

/-- What is used about one logged iteration of a problem with costs only. -/
structure FreeStep (env : Env D D ℝ) (x dx : Fin D → ℝ) (it : NLSIteration ℝ) : Prop where
  slope : ∀ pen, it.directionalDerivatives.total pen = costSlope env.p x dx
  dF : it.directionalDerivatives.dF = costSlope env.p x dx
  linf : it.directionalDerivatives.lInfinity = |costSlope env.p x dx|
  newton : costSlope env.p x dx = - curvature env.p x it.lambda dx
  gradient : ∀ d, costSlope env.p x d ^ 2 ≤ curvature env.p x it.lambda dx * curvature env.p x it.lambda d
  initial : ∀ pen, it.errorsInitial.total pen = costAt env.p x
  trial : ∀ st ∈ it.lineSearchSteps, ∀ pen, st.errors.total pen = costAt env.p (fun i => x i + st.alpha * dx i)

theorem free_step (env : Env D D ℝ) (hE : LDLTContract env.E) (hr : env.retraction = none) (hp : WellPosed env.p D)
    (hi : env.p.ineq = []) (he : env.p.eqs = []) (prm : NLSParams ℝ) (x0 : Fin D → ℝ) (o o' : env.Obj) (out : NLSOutputs ℝ)
    (calls : List (NLSIteration ℝ)) (h : solve env prm x0 o = .ok (o', out, calls)) (k : Nat) (it : NLSIteration ℝ)
    (hit : out.iterations[k]? = some it) (a b : env.Obj) (ha : After env prm x0 o k a) (hb : After env prm x0 o (k + 1) b)
    (hpd : 0 < it.lambda ∨ ∀ dx : Fin D → ℝ, (∀ r ∈ env.p.costs, ∀ k, slopeAt r a.vars dx k = 0) → dx = 0) :
    FreeStep env a.vars b.dx it := by
  have hmem := List.mem_of_getElem? hit
  obtain ⟨h1, h2, h3⟩ := C38_direction env prm x0 o o' out calls h k it hit a b ha hb
  obtain ⟨f1, f2, f3, f4, f5, f6⟩ := linearize_facts hp h1
  obtain ⟨hmin, g2, -⟩ := C67_levenberg_marquardt env hE hp hi he prm x0 o o' out calls h k it hit a b ha hb hpd
  obtain ⟨-, e2, -⟩ := C39_logged_errors env hp.consistent prm x0 o o' out calls h k it hit a b ha hb
  have hK : env.p.K = 0 := by simp [Problem.K, he]
  have noK : ∀ {P : Prop}, Fin env.p.K → P := fun k => absurd (lt_of_lt_of_eq k.isLt hK) (Nat.not_lt_zero _)
  have hd := costDerivative_real b.qp b.dx
  rw [← h2] at hd
  have hdE : it.directionalDerivatives.dEquality = 0 := by
    rw [hd.2]
    exact Finset.sum_eq_zero fun k _ => noK k
  have hdF : it.directionalDerivatives.dF = costSlope env.p a.vars b.dx := by rw [hd.1, f2]; rfl
  have htot : ∀ pen, it.directionalDerivatives.total pen = costSlope env.p a.vars b.dx := by
    intro pen; unfold DirectionalDerivatives.total; rw [hdE, hdF]; ring
  have hviol : ∀ x : Fin D → ℝ, violationAt env.p x = 0 := by
    intro x; unfold violationAt; rw [he]; rfl
  refine ⟨htot, hdF, ?_, ?_, ?_, ?_, ?_⟩
  · unfold DirectionalDerivatives.lInfinity
    rw [hdE, hdF]
    simp only [real_cmax, real_abs, abs_zero]
    exact max_eq_left (abs_nonneg _)
  · rw [← htot 0]; exact g2 0
  · intro d
    obtain ⟨q, hq⟩ := (C45_which_solver env prm x0 o o' out calls h it hmem).2 (fun hc => hc.2 he)
    obtain ⟨s', hs⟩ := ip_solver env prm x0 o o' out calls h k it hit b hb q hq
    obtain ⟨hcon, s, hsol, hdx⟩ := ip_after env prm x0 o o' out calls h k it hit b hb q hq s' hs
    obtain ⟨-, -, -, -, -, -, g7, g8, -⟩ :=
      ip_facts env hp prm x0 o o' out calls h k it hit a b ha hb q hq s' hs hcon
    obtain ⟨qp', pre', h', r1, r2, -⟩ := C34_gauss_newton env.p hp a.vars (linearize_quiet h1) it.lambda a.qp
    rw [h1] at h'
    cases h'
    have hobj : ∀ u, dampedModel env.p a.vars it.lambda u = it.errorsInitial.f + objective (b.qp.typed hcon) u := by
      intro u
      have e := r2 u
      have e' : objective (b.qp.typed hcon) u
          = 1 / 2 * (∑ i, ∑ j, u i * b.qp.G (max i j) (min i j) * u j) + ∑ i, b.qp.c i * u i := rfl
      rw [e']
      unfold dampedModel
      linarith
    have hst := qp_stationary (b.qp.typed hcon) b.dx d (fun t => by
      by_cases hne : (fun i => b.dx i + t * d i) = b.dx
      · rw [hne]
      · have := hmin _ hne
        rw [hobj, hobj] at this
        linarith)
    rw [g7] at hst
    have hcs := bil_sq_le (b.qp.typed hcon) (fun u => by rw [g8]; exact curvature_nonneg _ _ _ _) b.dx d
    rw [g8, g8] at hcs
    have e : costSlope env.p a.vars d ^ 2 = bil (b.qp.typed hcon) b.dx d ^ 2 := by
      rw [show costSlope env.p a.vars d = - bil (b.qp.typed hcon) b.dx d by linarith]; ring
    rw [e]
    exact hcs
  · intro pen
    rw [f1]; unfold Errors.total errorsAt; simp only [hviol]; ring
  · intro st hst pen
    obtain ⟨y, hmv, herr⟩ := e2 st hst
    unfold Moves at hmv
    rw [hr] at hmv
    obtain ⟨_, hy⟩ := hmv
    have : y = fun i => a.vars i + st.alpha * b.dx i := by rw [hy]; funext i; simp [mul_comm]
    rw [herr, this]; unfold Errors.total errorsAt; simp only [hviol]; ring

/-- Along the direction of a logged iteration the cost lies below a parabola that only depends on the slope. -/
theorem trial_upper {env : Env D D ℝ} {x dx : Fin D → ℝ} {it : NLSIteration ℝ} (hf : FreeStep env x dx it)
    {S : (Fin D → ℝ) → Prop} {L μ : ℝ} (hs : Smooth env.p S L) (hx : S x) (hμ : 0 < μ)
    (hc : μ * ∑ i, dx i ^ 2 ≤ curvature env.p x it.lambda dx) {t : ℝ} (h0 : 0 ≤ t) (h1 : t ≤ 1) :
    costSlope env.p x dx ≤ 0 ∧
    costAt env.p (fun i => x i + t * dx i)
      ≤ costAt env.p x + t * costSlope env.p x dx - L / (2 * μ) * t ^ 2 * costSlope env.p x dx := by
  have hu := hs.upper x hx dx t h0 h1
  have hn : 0 ≤ ∑ i, dx i ^ 2 := Finset.sum_nonneg fun i _ => sq_nonneg _
  have hN := hf.newton
  have key : ∑ i, dx i ^ 2 ≤ -costSlope env.p x dx / μ := by
    rw [le_div_iff₀ hμ]; linarith
  refine ⟨by nlinarith, hu.trans ?_⟩
  have hL : 0 ≤ L / 2 * t ^ 2 := mul_nonneg (by linarith [hs.pos]) (sq_nonneg t)
  have := mul_le_mul_of_nonneg_left key hL
  have e : L / 2 * t ^ 2 * (-costSlope env.p x dx / μ) = -(L / (2 * μ) * t ^ 2 * costSlope env.p x dx) := by
    field_simp
  linarith

/-- The iterates stay where the cost is not above that of the start. -/
theorem stays_below (env : Env D D ℝ) (hc : ConsistentP env.p) (he : env.p.eqs = []) (prm : NLSParams ℝ)
    (x0 : Fin D → ℝ) (o o' : env.Obj) (out : NLSOutputs ℝ) (calls : List (NLSIteration ℝ))
    (h : solve env prm x0 o = .ok (o', out, calls)) (k : Nat) (hk : k ≤ out.iterations.length) (a : env.Obj)
    (ha : After env prm x0 o k a) : Below env.p x0 a.vars := by
  obtain ⟨hex, h0, -⟩ := C38_after env prm x0 o o' out calls h
  obtain ⟨z, hz, -⟩ := hex 0 (Nat.zero_le _)
  have := (C37_cost_never_increases env hc he prm x0 o o' out calls h).2.1 0 k z a (Nat.zero_le _) hk hz ha
  rwa [h0 z hz] at this

/-- The step lengths of a line search lie in `(0, 1]`. -/
theorem alpha_unit (env : Env D D ℝ) (prm : NLSParams ℝ) (x0 : Fin D → ℝ) (o o' : env.Obj)
    (out : NLSOutputs ℝ) (calls : List (NLSIteration ℝ)) (h : solve env prm x0 o = .ok (o', out, calls))
    (it : NLSIteration ℝ) (hit : it ∈ out.iterations) (j : Nat) (st : LineSearchStep ℝ)
    (hst : it.lineSearchSteps[j]? = some st) : 0 < st.alpha ∧ st.alpha ≤ 1 := by
  obtain ⟨-, -, hfirst, hnext⟩ := C40_alphas_any env prm x0 o o' out calls h it hit
  obtain ⟨S, T, W, hv⟩ := solve_view h
  have hτ := hv.prmOk.armijoSearchTau
  induction j generalizing st with
  | zero => rw [hfirst st hst]; exact ⟨one_pos, le_rfl⟩
  | succ j ih =>
    have hj := lt_of_getElem? hst
    obtain ⟨st0, h0⟩ : ∃ s, it.lineSearchSteps[j]? = some s := ⟨_, List.getElem?_eq_getElem (by omega)⟩
    obtain ⟨i0, i1⟩ := ih st0 h0
    have hn := hnext j st0 st h0 hst
    cases hs : prm.lineSearchStrategy with
    | armijoBacktrack =>
      rw [hs] at hn
      have hn : st.alpha = st0.alpha * prm.armijoSearchTau := hn
      rw [hn]
      exact ⟨mul_pos i0 hτ.1, by nlinarith⟩
    | polynomialApproximation =>
      rw [hs] at hn
      exact ⟨not_le.mp hn.2.1, (not_le.mp hn.2.2).le.trans i1⟩

/-- A refused trial step. -/
theorem refused_step (env : Env D D ℝ) (prm : NLSParams ℝ) (x0 : Fin D → ℝ) (o o' : env.Obj)
    (out : NLSOutputs ℝ) (calls : List (NLSIteration ℝ)) (h : solve env prm x0 o = .ok (o', out, calls))
    (it : NLSIteration ℝ) (hit : it ∈ out.iterations) (j : Nat) (st : LineSearchStep ℝ)
    (hst : it.lineSearchSteps[j]? = some st)
    (hj : j + 1 < it.lineSearchSteps.length ∨ it.stepResult = .maxIterations) :
    ¬ it.directionalDerivatives.lInfinity < prm.absoluteFirstDerivativeTol ∧
    it.errorsInitial.total it.penalty + it.directionalDerivatives.total it.penalty * st.alpha * (1 / 10 ^ 4)
      < st.errors.total it.penalty := by
  obtain ⟨S, T, W, hv⟩ := solve_view h
  obtain ⟨k, hk⟩ := List.mem_iff_getElem?.mp hit
  obtain ⟨hlt, rfl, hp⟩ := view_info hv hk
  obtain ⟨-, hout, -⟩ := lsLoop_start _ _ _ _ _ _ _ _ _ _ _ _ hp.ls
  have hf := hout.facts
  have hrej : Rejected prm (W k).pre (costDerivative (W k).qp (W k).dx) (S (k + 1)).penalty st := by
    rw [hp.isteps] at hst hj
    rcases hj with hj | hj
    · have := hf.early j hj
      rwa [(List.getElem?_eq_some_iff.mp hst).2] at this
    · rw [hp.ires] at hj
      exact (hf.maxIter hj).2 st (List.mem_of_getElem? hst)
  have h3 := hrej.notArmijo
  unfold Armijo at h3
  rw [hp.ideriv, hp.ipre, hp.ipenalty]
  refine ⟨hrej.notFirstOrder, ?_⟩
  simpa [armijoC1, real_lit] using h3

/-- The Jacobian is injective where the matrix is at least `μ`, or there is damping. -/
theorem damped_or_injective {env : Env D D ℝ} {x : Fin D → ℝ} {lam μ : ℝ} (hμ : 0 < μ)
    (hc : ∀ d, μ * ∑ i, d i ^ 2 ≤ curvature env.p x lam d) :
    0 < lam ∨ ∀ dx : Fin D → ℝ, (∀ r ∈ env.p.costs, ∀ k, slopeAt r x dx k = 0) → dx = 0 := by
  rcases lt_or_ge 0 lam with hl | hl
  · exact Or.inl hl
  · refine Or.inr fun dx hd => ?_
    have h1 := hc dx
    unfold curvature at h1
    rw [max_eq_right hl, zero_mul, add_zero] at h1
    have h2 : (env.p.costs.map fun r => ∑ k, slopeAt r x dx k ^ 2).sum = 0 := by
      refine List.sum_eq_zero fun v hv => ?_
      obtain ⟨r, hr, rfl⟩ := List.mem_map.mp hv
      exact Finset.sum_eq_zero fun k _ => by rw [hd r hr k]; ring
    rw [h2] at h1
    have h3 : ∑ i, dx i ^ 2 ≤ 0 := by
      by_contra hn
      have := mul_pos hμ (not_le.mp hn)
      linarith
    have h4 := (Finset.sum_eq_zero_iff_of_nonneg (fun i _ => sq_nonneg (dx i))).mp
      (le_antisymm h3 (Finset.sum_nonneg fun i _ => sq_nonneg _))
    funext i
    have := h4 i (Finset.mem_univ _)
    simpa using this

/-- **C96** (one iteration). Costs only, default retraction: let the cost be smooth with constant `L` where it is not above the cost
of the start, and let the damped Gauss-Newton matrix of a logged iteration be at least `μ > 0`. Then every trial step that is refused
is longer than `1.9998 μ / L`; the step is accepted, or the slope is below its tolerance, or all trial steps were refused; and an
accepted step is at least `shortestStep` long. -/
theorem C96_line_search (env : Env D D ℝ) (hE : LDLTContract env.E) (hr : env.retraction = none) (hp : WellPosed env.p D)
    (hi : env.p.ineq = []) (he : env.p.eqs = []) (prm : NLSParams ℝ) (x0 : Fin D → ℝ) (o o' : env.Obj) (out : NLSOutputs ℝ)
    (calls : List (NLSIteration ℝ)) (h : solve env prm x0 o = .ok (o', out, calls)) (L μ : ℝ)
    (hs : Smooth env.p (Below env.p x0) L) (hμ : 0 < μ) (ht : 0 < prm.absoluteFirstDerivativeTol)
    (k : Nat) (it : NLSIteration ℝ) (hit : out.iterations[k]? = some it) (a : env.Obj) (ha : After env prm x0 o k a)
    (hc : ∀ d, μ * ∑ i, d i ^ 2 ≤ curvature env.p a.vars it.lambda d) :
    (∀ (j : Nat) st, it.lineSearchSteps[j]? = some st →
      j + 1 < it.lineSearchSteps.length ∨ it.stepResult = .maxIterations → safeStep L μ < st.alpha) ∧
    (it.stepResult = .success ∨ it.stepResult = .firstOrderSatisfied ∨ it.stepResult = .maxIterations) ∧
    (it.stepResult = .success → ∃ st, it.lineSearchSteps.getLast? = some st ∧ shortestStep prm L μ ≤ st.alpha) := by
  have hmem := List.mem_of_getElem? hit
  have hk := lt_of_getElem? hit
  obtain ⟨hex, -, -⟩ := C38_after env prm x0 o o' out calls h
  obtain ⟨b, hb, -⟩ := hex (k + 1) (by omega)
  have hx := stays_below env hp.consistent he prm x0 o o' out calls h k hk.le a ha
  have hf := free_step env hE hr hp hi he prm x0 o o' out calls h k it hit a b ha hb (damped_or_injective hμ hc)
  have hL := hs.pos
  have hup : ∀ (j : Nat) st, it.lineSearchSteps[j]? = some st → costSlope env.p a.vars b.dx ≤ 0 ∧
      st.errors.total it.penalty ≤ it.errorsInitial.total it.penalty + st.alpha * costSlope env.p a.vars b.dx
        - L / (2 * μ) * st.alpha ^ 2 * costSlope env.p a.vars b.dx := by
    intro j st hst
    obtain ⟨h0, h1⟩ := alpha_unit env prm x0 o o' out calls h it hmem j st hst
    rw [hf.trial st (List.mem_of_getElem? hst), hf.initial]
    exact trial_upper hf hs hx hμ (hc b.dx) h0.le h1
  -- a refused step is long, and the slope is negative then
  have hrefused : ∀ (j : Nat) st, it.lineSearchSteps[j]? = some st →
      j + 1 < it.lineSearchSteps.length ∨ it.stepResult = .maxIterations →
      costSlope env.p a.vars b.dx < 0 ∧ safeStep L μ < st.alpha := by
    intro j st hst hj
    obtain ⟨h0, h1⟩ := alpha_unit env prm x0 o o' out calls h it hmem j st hst
    obtain ⟨r1, r2⟩ := refused_step env prm x0 o o' out calls h it hmem j st hst hj
    obtain ⟨u1, u2⟩ := hup j st hst
    rw [hf.linf] at r1
    rw [hf.slope] at r2
    have hneg : costSlope env.p a.vars b.dx < 0 := by
      refine lt_of_le_of_ne u1 fun h0 => r1 ?_
      rw [h0, abs_zero]; exact ht
    refine ⟨hneg, ?_⟩
    set d := costSlope env.p a.vars b.dx
    have h2 : 0 < (-d) * st.alpha * (L / (2 * μ) * st.alpha - 9999 / 10000) := by nlinarith
    have h3 : 0 < L / (2 * μ) * st.alpha - 9999 / 10000 := by
      by_contra hn
      have := mul_nonpos_of_nonneg_of_nonpos (mul_pos (neg_pos.mpr hneg) h0).le (not_lt.mp hn)
      linarith
    unfold safeStep
    have e : L / (2 * μ) * st.alpha = st.alpha / (μ / L) / 2 := by field_simp
    rw [e] at h3
    have hq : 0 < μ / L := div_pos hμ hL
    have h4 : 9999 / 5000 < st.alpha / (μ / L) := by linarith
    rwa [lt_div_iff₀ hq] at h4
  have hup0 : it.directionalDerivatives.total it.penalty ≤ 0 := by
    obtain ⟨c1, -⟩ := C40_alphas_any env prm x0 o o' out calls h it hmem
    rw [hf.slope]
    exact (hup 0 _ (List.getElem?_eq_getElem (by omega))).1
  refine ⟨fun j st hst hj => (hrefused j st hst hj).2, ?_, ?_⟩
  · have h1 := never_nonfinite env prm x0 o o' out calls h it hmem
    have h2 := never_invalid env he prm x0 o o' out calls h ht it hmem
    have h3 : it.stepResult ≠ .positiveDerivative := by
      obtain ⟨S, T, W, hv⟩ := solve_view h
      obtain ⟨hlt, rfl, hpp⟩ := view_info hv hit
      obtain ⟨-, hout, -⟩ := lsLoop_start _ _ _ _ _ _ _ _ _ _ _ _ hpp.ls
      intro hc'
      rw [hpp.ires] at hc'
      obtain ⟨st, -, -, -, hpos⟩ := hout.facts.positive hc'
      rw [hpp.ideriv, hpp.ipenalty] at hup0
      linarith
    cases hres : it.stepResult <;> simp_all
  · intro hsucc
    obtain ⟨st, hlast, -⟩ := (C40_only_last_accepted env prm x0 o o' out calls h it hmem).2.mp hsucc
    refine ⟨st, hlast, ?_⟩
    obtain ⟨-, -, hfirst, hnext⟩ := C40_alphas_any env prm x0 o o' out calls h it hmem
    rw [List.getLast?_eq_getElem?] at hlast
    have hlen := lt_of_getElem? hlast
    generalize hm : it.lineSearchSteps.length - 1 = m at hlast
    cases m with
    | zero =>
      rw [hfirst st hlast]
      exact min_le_left _ _
    | succ j =>
      obtain ⟨st0, h0⟩ : ∃ s, it.lineSearchSteps[j]? = some s := ⟨_, List.getElem?_eq_getElem (by omega)⟩
      obtain ⟨hneg, hlong⟩ := hrefused j st0 h0 (Or.inl (by omega))
      have hn := hnext j st0 st h0 hlast
      obtain ⟨a0, a1⟩ := alpha_unit env prm x0 o o' out calls h it hmem j st0 h0
      refine (min_le_right _ _).trans ?_
      cases hstr : prm.lineSearchStrategy with
      | armijoBacktrack =>
        rw [hstr] at hn
        have hn : st.alpha = st0.alpha * prm.armijoSearchTau := hn
        obtain ⟨S, T, W, hv⟩ := solve_view h
        have hτ := hv.prmOk.armijoSearchTau.1
        show prm.armijoSearchTau * safeStep L μ ≤ st.alpha
        rw [hn, mul_comm]
        exact mul_le_mul_of_nonneg_right hlong.le hτ.le
      | polynomialApproximation =>
        show 20 / 41 * (μ / L) ≤ st.alpha
        have hd : it.directionalDerivatives.total it.penalty < 0 := by rw [hf.slope]; exact hneg
        obtain ⟨-, hp2⟩ := C42_never_fails env prm x0 o o' out calls h hstr it hmem hd
        have hb2 := (hp2 j st0 st h0 hlast).2
        obtain ⟨-, u2⟩ := hup j st0 h0
        obtain ⟨s0, -⟩ := alpha_unit env prm x0 o o' out calls h it hmem (j + 1) st hlast
        rw [hf.slope] at hb2
        set d := costSlope env.p a.vars b.dx
        have hX : st0.errors.total it.penalty - it.errorsInitial.total it.penalty - d * st0.alpha
            ≤ L / (2 * μ) * st0.alpha ^ 2 * (-d) := by linarith
        have h5 := hb2.trans (mul_le_mul_of_nonneg_left hX (by positivity : 0 ≤ 41 / 10 * st.alpha))
        have h6 : 0 < (-d) * st0.alpha ^ 2 := mul_pos (neg_pos.mpr hneg) (by positivity)
        have h7 : (-d) * st0.alpha ^ 2 * 1 ≤ (-d) * st0.alpha ^ 2 * (41 / 20 * st.alpha * (L / μ)) := by
          have e : 41 / 10 * st.alpha * (L / (2 * μ) * st0.alpha ^ 2 * -d)
              = (-d) * st0.alpha ^ 2 * (41 / 20 * st.alpha * (L / μ)) := by field_simp; ring
          linarith
        have h8 := le_of_mul_le_mul_left h7 h6
        have hq : 0 < μ / L := div_pos hμ hL
        have e : L / μ * (μ / L) = 1 := by field_simp
        have h9 := mul_le_mul_of_nonneg_right h8 hq.le
        rw [mul_assoc, e] at h9
        linarith

/-- Step length `j` is at most `stepRatio ^ j` when the slope is negative. -/
theorem alpha_pow (env : Env D D ℝ) (prm : NLSParams ℝ) (x0 : Fin D → ℝ) (o o' : env.Obj)
    (out : NLSOutputs ℝ) (calls : List (NLSIteration ℝ)) (h : solve env prm x0 o = .ok (o', out, calls))
    (it : NLSIteration ℝ) (hit : it ∈ out.iterations) (hneg : it.directionalDerivatives.total it.penalty < 0)
    (j : Nat) (st : LineSearchStep ℝ) (hst : it.lineSearchSteps[j]? = some st) : st.alpha ≤ stepRatio prm ^ j := by
  obtain ⟨-, -, hfirst, hnext⟩ := C40_alphas_any env prm x0 o o' out calls h it hit
  obtain ⟨S, T, W, hv⟩ := solve_view h
  have hτ := hv.prmOk.armijoSearchTau
  induction j generalizing st with
  | zero => rw [hfirst st hst, pow_zero]
  | succ j ih =>
    have hj := lt_of_getElem? hst
    obtain ⟨st0, h0⟩ : ∃ s, it.lineSearchSteps[j]? = some s := ⟨_, List.getElem?_eq_getElem (by omega)⟩
    have i1 := ih st0 h0
    have hn := hnext j st0 st h0 hst
    cases hs : prm.lineSearchStrategy with
    | armijoBacktrack =>
      rw [hs] at hn
      have hn : st.alpha = st0.alpha * prm.armijoSearchTau := hn
      have e : stepRatio prm = prm.armijoSearchTau := by unfold stepRatio; rw [hs]
      rw [hn, pow_succ, ← e]
      exact mul_le_mul_of_nonneg_right i1 (by rw [e]; exact hτ.1.le)
    | polynomialApproximation =>
      have e : stepRatio prm = 51 / 100 := by unfold stepRatio; rw [hs]
      have := ((C42_never_fails env prm x0 o o' out calls h hs it hit hneg).2 j st0 st h0 hst).1
      rw [e] at i1 ⊢
      rw [pow_succ]
      linarith

/-- **C96** (failures). In the situation of `C96_line_search` an iteration whose line search is exhausted has
`1.9998 μ < L * ratio ^ max_line_search_iterations`. So with enough line search iterations, or enough damping, none is. -/
theorem C96_exhausted (env : Env D D ℝ) (hE : LDLTContract env.E) (hr : env.retraction = none) (hp : WellPosed env.p D)
    (hi : env.p.ineq = []) (he : env.p.eqs = []) (prm : NLSParams ℝ) (x0 : Fin D → ℝ) (o o' : env.Obj) (out : NLSOutputs ℝ)
    (calls : List (NLSIteration ℝ)) (h : solve env prm x0 o = .ok (o', out, calls)) (L μ : ℝ)
    (hs : Smooth env.p (Below env.p x0) L) (hμ : 0 < μ) (ht : 0 < prm.absoluteFirstDerivativeTol)
    (k : Nat) (it : NLSIteration ℝ) (hit : out.iterations[k]? = some it) (a : env.Obj) (ha : After env prm x0 o k a)
    (hc : ∀ d, μ * ∑ i, d i ^ 2 ≤ curvature env.p a.vars it.lambda d) (hf : it.stepResult = .maxIterations) :
    safeStep L μ < stepRatio prm ^ prm.maxLineSearchIterations.toNat ∧ 9999 / 5000 * μ < L := by
  have hmem := List.mem_of_getElem? hit
  obtain ⟨h1, -, -⟩ := C96_line_search env hE hr hp hi he prm x0 o o' out calls h L μ hs hμ ht k it hit a ha hc
  have hk := lt_of_getElem? hit
  obtain ⟨hex, -, -⟩ := C38_after env prm x0 o o' out calls h
  obtain ⟨b, hb, -⟩ := hex (k + 1) (by omega)
  have hfs := free_step env hE hr hp hi he prm x0 o o' out calls h k it hit a b ha hb (damped_or_injective hμ hc)
  obtain ⟨c1, c2, c3, -⟩ := C40_alphas_any env prm x0 o o' out calls h it hmem
  obtain ⟨st0, h0⟩ : ∃ s, it.lineSearchSteps[0]? = some s := ⟨_, List.getElem?_eq_getElem (by omega)⟩
  have hlen : it.lineSearchSteps.length = (prm.maxLineSearchIterations + 1).toNat := by
    obtain ⟨S, T, W, hv⟩ := solve_view h
    obtain ⟨hlt, rfl, hpp⟩ := view_info hv hit
    obtain ⟨-, hout, -⟩ := lsLoop_start _ _ _ _ _ _ _ _ _ _ _ _ hpp.ls
    rw [hpp.ires] at hf
    rw [hpp.isteps]
    exact (hout.facts.maxIter hf).1
  have hneg : it.directionalDerivatives.total it.penalty < 0 := by
    have hr1 := (refused_step env prm x0 o o' out calls h it hmem 0 st0 h0 (Or.inr hf)).1
    rw [hfs.linf] at hr1
    rw [hfs.slope, hfs.newton]
    have hcn := curvature_nonneg env.p a.vars it.lambda b.dx
    rw [hfs.newton] at hr1
    rcases hcn.lt_or_eq with hlt | heq
    · linarith
    · exact absurd (by rw [← heq]; simpa using ht) hr1
  obtain ⟨st, hst⟩ : ∃ s, it.lineSearchSteps[prm.maxLineSearchIterations.toNat]? = some s :=
    ⟨_, List.getElem?_eq_getElem (by omega)⟩
  refine ⟨(h1 _ st hst (Or.inr hf)).trans_le (alpha_pow env prm x0 o o' out calls h it hmem hneg _ st hst), ?_⟩
  have h2 := h1 0 st0 h0 (Or.inr hf)
  rw [c3 st0 h0] at h2
  unfold safeStep at h2
  have hL := hs.pos
  rw [← mul_div_assoc, div_lt_iff₀ hL] at h2
  linarith

/-- The iterates of a run meet the hypothesis of `C96_line_search`. -/
theorem curved_at (env : Env D D ℝ) (hc : ConsistentP env.p) (he : env.p.eqs = []) (prm : NLSParams ℝ)
    (x0 : Fin D → ℝ) (o o' : env.Obj) (out : NLSOutputs ℝ) (calls : List (NLSIteration ℝ))
    (h : solve env prm x0 o = .ok (o', out, calls)) (μ : ℝ) (hcv : Curved env.p (Below env.p x0) prm.minLambda μ)
    (k : Nat) (it : NLSIteration ℝ) (hit : out.iterations[k]? = some it) (a : env.Obj) (ha : After env prm x0 o k a) :
    ∀ d, μ * ∑ i, d i ^ 2 ≤ curvature env.p a.vars it.lambda d := by
  intro d
  have hx := stays_below env hc he prm x0 o o' out calls h k (lt_of_getElem? hit).le a ha
  refine (hcv.lower _ hx d).trans ?_
  have hl := ((C43_lambda_limits env prm x0 o o' out calls h).1 it (List.mem_of_getElem? hit)).1
  unfold curvature
  have := mul_le_mul_of_nonneg_right (max_le_max_right 0 hl)
    (Finset.sum_nonneg fun i (_ : i ∈ Finset.univ) => sq_nonneg (d i))
  linarith

/-- **C96** (`MAX_LAMBDA`). Costs only, default retraction, a smooth cost and a damped Gauss-Newton matrix bounded below: if
`max_lambda` is at least `lambda_failure_init` and `5.0006 L`, the solver never gives up with `MAX_LAMBDA`. -/
theorem C96_no_max_lambda (env : Env D D ℝ) (hE : LDLTContract env.E) (hr : env.retraction = none) (hp : WellPosed env.p D)
    (hi : env.p.ineq = []) (he : env.p.eqs = []) (prm : NLSParams ℝ) (x0 : Fin D → ℝ) (o o' : env.Obj) (out : NLSOutputs ℝ)
    (calls : List (NLSIteration ℝ)) (h : solve env prm x0 o = .ok (o', out, calls)) (L μ : ℝ)
    (hs : Smooth env.p (Below env.p x0) L) (hcv : Curved env.p (Below env.p x0) prm.minLambda μ)
    (ht : 0 < prm.absoluteFirstDerivativeTol)
    (hmax : prm.lambdaFailureInit ≤ prm.maxLambda ∧ 50000 / 9999 * L ≤ prm.maxLambda) :
    out.termination ≠ .maxLambda ∧
    ∀ it ∈ out.iterations, it.lambda ≤ max prm.lambdaInitial (max prm.lambdaFailureInit (50000 / 9999 * L)) := by
  obtain ⟨hex, -, -⟩ := C38_after env prm x0 o o' out calls h
  obtain ⟨S, T, W, hv⟩ := solve_view h
  have hprm := hv.prmOk
  have hraise : ∀ (k : Nat) it, out.iterations[k]? = some it →
      it.stepResult = .maxIterations ∨ it.stepResult = .positiveDerivative → ∀ s,
      raisedLambda prm s it.lambda ≤ max prm.lambdaFailureInit (50000 / 9999 * L) := by
    intro k it hit hres s
    have hk := lt_of_getElem? hit
    obtain ⟨a, ha, -⟩ := hex k (by omega)
    have hca := curved_at env hp.consistent he prm x0 o o' out calls h μ hcv k it hit a ha
    have hres' : it.stepResult = .maxIterations := by
      obtain ⟨-, h2, -⟩ := C96_line_search env hE hr hp hi he prm x0 o o' out calls h L μ hs hcv.pos ht k it hit a ha hca
      rcases hres with hres | hres
      · exact hres
      · rw [hres] at h2; simp at h2
    have hlam : 10 * it.lambda ≤ 50000 / 9999 * L := by
      rcases lt_or_ge 0 it.lambda with hl | hl
      · have := (C96_exhausted env hE hr hp hi he prm x0 o o' out calls h L it.lambda hs hl ht k it hit a ha
          (fun d => by
            unfold curvature
            rw [max_eq_left hl.le]
            have : 0 ≤ (env.p.costs.map fun r => ∑ k, slopeAt r a.vars d k ^ 2).sum := by
              refine List.sum_nonneg fun v hv => ?_
              obtain ⟨r, _, rfl⟩ := List.mem_map.mp hv
              exact Finset.sum_nonneg fun k _ => sq_nonneg _
            linarith) hres').2
        linarith
      · have := hs.pos; linarith
    have e : it.lambda * 10 = 10 * it.lambda := mul_comm _ _
    cases s
    · simp only [raisedLambda, real_cmax, real_lit]
      push_cast
      rw [e]
      exact max_le_max_left _ hlam
    · simp only [raisedLambda, real_lit]
      push_cast
      rw [e]
      exact hlam.trans (le_max_right _ _)
  constructor
  · intro hT
    have hterm := C46_termination env prm x0 o o' out calls h
    rw [hT] at hterm
    obtain ⟨it, hlast, hres, -, hgt⟩ := hterm
    rw [List.getLast?_eq_getElem?] at hlast
    have := hraise _ it hlast hres (stateBefore out.iterations (out.iterations.length - 1))
    have := max_le hmax.1 hmax.2
    linarith
  · obtain ⟨hfirst, hsm⟩ := C43_state_machine env prm x0 o o' out calls h
    have key : ∀ (k : Nat) it, out.iterations[k]? = some it →
        it.lambda ≤ max prm.lambdaInitial (max prm.lambdaFailureInit (50000 / 9999 * L)) := by
      intro k
      induction k with
      | zero => intro it hit; rw [hfirst it hit]; exact le_max_left _ _
      | succ k ih =>
        intro it' hit'
        have hk := lt_of_getElem? hit'
        obtain ⟨it, hit⟩ : ∃ s, out.iterations[k]? = some s := ⟨_, List.getElem?_eq_getElem (by omega)⟩
        have h1 := ih it hit
        have hm := hsm k it hit
        simp only [hit', Option.map_some] at hm
        obtain ⟨a, ha, -⟩ := hex k (by omega)
        have hca := curved_at env hp.consistent he prm x0 o o' out calls h μ hcv k it hit a ha
        obtain ⟨-, h2, -⟩ := C96_line_search env hE hr hp hi he prm x0 o o' out calls h L μ hs hcv.pos ht k it hit a ha hca
        have hlim := (C43_lambda_limits env prm x0 o o' out calls h)
        rcases h2 with h2 | h2 | h2
        · rcases lt_or_ge it.lambda 0 with hneg | h0
          · rw [h2] at hm
            simp only at hm
            rw [hm.2 _ rfl, real_cmax]
            have hf0 : 0 ≤ max prm.lambdaInitial (max prm.lambdaFailureInit (50000 / 9999 * L)) :=
              hprm.lambdaFailureInit.trans ((le_max_left _ _).trans (le_max_right _ _))
            refine max_le (le_trans ?_ hf0) (hprm.lambdaInitial.1.trans (le_max_left _ _))
            cases stateBefore out.iterations k
            · exact mul_nonpos_of_nonpos_of_nonneg hneg.le hprm.lambdaDecreaseOnSuccess.1
            · exact mul_nonpos_of_nonpos_of_nonneg hneg.le hprm.lambdaDecreaseOnRestore.1
          · exact ((hlim.2 k it it' hit hit').1 h2 h0).trans h1
        · rw [h2] at hm; simp at hm
        · rw [h2] at hm
          simp only at hm
          rw [(hm.2 _ rfl).1]
          exact (hraise k it hit (Or.inl h2) _).trans (le_max_right _ _)
    intro it hit
    obtain ⟨k, hk⟩ := List.mem_iff_getElem?.mp hit
    exact key k it hk

theorem successes_sum {its : List (NLSIteration ℝ)} {m : ℝ}
    (hs : ∀ it ∈ its, it.stepResult = .success → m ≤ realised it) (h0 : ∀ it ∈ its, 0 ≤ realised it) (k : Nat) :
    successesBefore its k * m ≤ (its.map realised).sum := by
  unfold successesBefore
  induction its generalizing k with
  | nil => simp
  | cons it rest ih =>
    have hr : ∀ j, (((rest.take j).filter fun it => decide (it.stepResult = .success)).length : ℝ) * m
        ≤ (rest.map realised).sum :=
      fun j => ih (fun i hi => hs i (by simp [hi])) (fun i hi => h0 i (by simp [hi])) j
    have hn := h0 it (by simp)
    cases k with
    | zero =>
      have := hr 0
      simp only [List.take_zero, List.filter_nil, List.length_nil, List.map_cons, List.sum_cons] at this ⊢
      linarith
    | succ k =>
      have := hr k
      rw [List.take_succ_cons, List.map_cons, List.sum_cons]
      by_cases hsu : it.stepResult = .success
      · have h1 := hs it (by simp) hsu
        rw [List.filter_cons_of_pos (by simpa using hsu), List.length_cons]
        push_cast
        linarith
      · rw [List.filter_cons_of_neg (by simpa using hsu)]
        linarith

/-- The decrease of an accepted step. -/
theorem realised_large (env : Env D D ℝ) (hE : LDLTContract env.E) (hr : env.retraction = none) (hp : WellPosed env.p D)
    (hi : env.p.ineq = []) (he : env.p.eqs = []) (prm : NLSParams ℝ) (x0 : Fin D → ℝ) (o o' : env.Obj) (out : NLSOutputs ℝ)
    (calls : List (NLSIteration ℝ)) (h : solve env prm x0 o = .ok (o', out, calls)) (L μ : ℝ)
    (hs : Smooth env.p (Below env.p x0) L) (hcv : Curved env.p (Below env.p x0) prm.minLambda μ)
    (ht : 0 < prm.absoluteFirstDerivativeTol) (it : NLSIteration ℝ) (hit : it ∈ out.iterations)
    (hsu : it.stepResult = .success) :
    shortestStep prm L μ * |it.directionalDerivatives.dF| ≤ realised it ∧
    prm.absoluteFirstDerivativeTol ≤ |it.directionalDerivatives.dF| := by
  obtain ⟨k, hk⟩ := List.mem_iff_getElem?.mp hit
  have hlt := lt_of_getElem? hk
  obtain ⟨hex, -, -⟩ := C38_after env prm x0 o o' out calls h
  obtain ⟨a, ha, -⟩ := hex k (by omega)
  obtain ⟨b, hb, -⟩ := hex (k + 1) (by omega)
  have hca := curved_at env hp.consistent he prm x0 o o' out calls h μ hcv k it hk a ha
  obtain ⟨-, -, h3⟩ := C96_line_search env hE hr hp hi he prm x0 o o' out calls h L μ hs hcv.pos ht k it hk a ha hca
  have hfs := free_step env hE hr hp hi he prm x0 o o' out calls h k it hk a b ha hb (damped_or_injective hcv.pos hca)
  obtain ⟨st, hlast, hge⟩ := h3 hsu
  obtain ⟨_, -, -, hn, -⟩ := (C40_only_last_accepted env prm x0 o o' out calls h it hit).2.mp hsu
  constructor
  · unfold realised
    rw [if_pos hsu, hlast]
    exact mul_le_mul_of_nonneg_right hge (abs_nonneg _)
  · rw [hfs.linf] at hn
    rw [hfs.dF]
    exact not_lt.mp hn

theorem shortestStep_pos {prm : NLSParams ℝ} {L μ : ℝ} (hL : 0 < L) (hμ : 0 < μ) (hτ : 0 < prm.armijoSearchTau) :
    0 < shortestStep prm L μ := by
  unfold shortestStep safeStep
  have hq : 0 < μ / L := div_pos hμ hL
  refine lt_min one_pos ?_
  cases prm.lineSearchStrategy
  · exact mul_pos hτ (by linarith)
  · show 0 < 20 / 41 * (μ / L); linarith

/-- **C96** (total slope). Costs only, default retraction, a smooth cost and a damped Gauss-Newton matrix bounded below: the slopes
`|d_f|` of all accepted steps add up to at most `10^4 / shortestStep` times the decrease of the cost. So slopes above any `ε > 0` are
rare, whatever the tolerances. -/
theorem C96_total_slope (env : Env D D ℝ) (hE : LDLTContract env.E) (hr : env.retraction = none) (hp : WellPosed env.p D)
    (hi : env.p.ineq = []) (he : env.p.eqs = []) (prm : NLSParams ℝ) (x0 : Fin D → ℝ) (o o' : env.Obj) (out : NLSOutputs ℝ)
    (calls : List (NLSIteration ℝ)) (h : solve env prm x0 o = .ok (o', out, calls)) (L μ : ℝ)
    (hs : Smooth env.p (Below env.p x0) L) (hcv : Curved env.p (Below env.p x0) prm.minLambda μ)
    (ht : 0 < prm.absoluteFirstDerivativeTol) :
    0 < shortestStep prm L μ ∧
    shortestStep prm L μ * (out.iterations.map fun it => if it.stepResult = .success then |it.directionalDerivatives.dF| else 0).sum
      ≤ 10 ^ 4 * (costAt env.p x0 - costAt env.p o'.vars) := by
  obtain ⟨t0, t1, -⟩ := C76_total_decrease env hp.consistent he prm x0 o o' out calls h
  obtain ⟨S, T, W, hv⟩ := solve_view h
  refine ⟨shortestStep_pos hs.pos hcv.pos hv.prmOk.armijoSearchTau.1, le_trans ?_ t1⟩
  rw [← List.sum_map_mul_left]
  refine List.sum_le_sum fun it hit => ?_
  split_ifs with hsu
  · exact (realised_large env hE hr hp hi he prm x0 o o' out calls h L μ hs hcv ht it hit hsu).1
  · rw [mul_zero]; exact t0 it hit

/-- **C96** (number of iterations). In the same situation let `S` be greater than `10^4 cost(x0) / (shortestStep * tolerance)`,
where the tolerance is `absolute_first_derivative_tol`. Then fewer than `S` steps are accepted before the last iteration; if `R`
failures take the damping beyond `max_lambda` there are at most `S (R + 1)` iterations; and if there are enough line search
iterations there is no failure at all and at most `S` iterations. -/
theorem C96_iteration_bound (env : Env D D ℝ) (hE : LDLTContract env.E) (hr : env.retraction = none) (hp : WellPosed env.p D)
    (hi : env.p.ineq = []) (he : env.p.eqs = []) (prm : NLSParams ℝ) (x0 : Fin D → ℝ) (o o' : env.Obj) (out : NLSOutputs ℝ)
    (calls : List (NLSIteration ℝ)) (h : solve env prm x0 o = .ok (o', out, calls)) (L μ : ℝ)
    (hs : Smooth env.p (Below env.p x0) L) (hcv : Curved env.p (Below env.p x0) prm.minLambda μ)
    (ht : 0 < prm.absoluteFirstDerivativeTol) (S : Nat)
    (hS : 10 ^ 4 * costAt env.p x0 < S * (shortestStep prm L μ * prm.absoluteFirstDerivativeTol)) :
    (∀ R : Nat, prm.maxLambda < prm.lambdaFailureInit * 10 ^ R → out.iterations.length ≤ S * (R + 1)) ∧
    (stepRatio prm ^ prm.maxLineSearchIterations.toNat ≤ safeStep L μ →
      out.iterations.length ≤ S ∧
      (∀ it ∈ out.iterations, it.stepResult = .success ∨ it.stepResult = .firstOrderSatisfied) ∧
      ((S : Int) < prm.maxIterations → out.termination = .satisfiedAbsoluteTol ∨ out.termination = .satisfiedRelativeTol ∨
        out.termination = .satisfiedFirstOrderTol ∨ out.termination = .userCallback)) := by
  obtain ⟨t0, -, t1⟩ := C76_total_decrease env hp.consistent he prm x0 o o' out calls h
  obtain ⟨V, T, W, hv⟩ := solve_view h
  have hpos := shortestStep_pos hs.pos hcv.pos hv.prmOk.armijoSearchTau.1 (prm := prm)
  have hcount : ∀ k, successesBefore out.iterations k < S := by
    intro k
    have h1 := successes_sum (its := out.iterations) (m := shortestStep prm L μ * prm.absoluteFirstDerivativeTol)
      (fun it hit hsu => by
        obtain ⟨r1, r2⟩ := realised_large env hE hr hp hi he prm x0 o o' out calls h L μ hs hcv ht it hit hsu
        exact (mul_le_mul_of_nonneg_left r2 hpos.le).trans r1) t0 k
    have h2 := (h1.trans t1).trans_lt hS
    have h3 := lt_of_mul_lt_mul_right h2 (mul_pos hpos ht).le
    exact_mod_cast h3
  refine ⟨fun R hR => count_bound env prm x0 o o' out calls h S R (fun k it _ => hcount k) hR
    (never_invalid env he prm x0 o o' out calls h ht), fun hls => ?_⟩
  obtain ⟨hex, -, -⟩ := C38_after env prm x0 o o' out calls h
  have hres : ∀ it ∈ out.iterations, it.stepResult = .success ∨ it.stepResult = .firstOrderSatisfied := by
    intro it hit
    obtain ⟨k, hk⟩ := List.mem_iff_getElem?.mp hit
    obtain ⟨a, ha, -⟩ := hex k (lt_of_getElem? hk).le
    have hca := curved_at env hp.consistent he prm x0 o o' out calls h μ hcv k it hk a ha
    obtain ⟨-, h2, -⟩ := C96_line_search env hE hr hp hi he prm x0 o o' out calls h L μ hs hcv.pos ht k it hk a ha hca
    rcases h2 with h2 | h2 | h2
    · exact Or.inl h2
    · exact Or.inr h2
    · have := (C96_exhausted env hE hr hp hi he prm x0 o o' out calls h L μ hs hcv.pos ht k it hk a ha hca h2).1
      linarith
  have hall : ∀ k, k + 1 ≤ out.iterations.length → successesBefore out.iterations k = k := by
    intro k
    induction k with
    | zero => intro _; rfl
    | succ k ih =>
      intro hk
      obtain ⟨it, hit⟩ : ∃ s, out.iterations[k]? = some s := ⟨_, List.getElem?_eq_getElem (by omega)⟩
      rw [successesBefore_succ hit, ih (by omega)]
      rcases hres it (List.mem_of_getElem? hit) with h2 | h2
      · rw [if_pos h2]
      · have hm := (C43_state_machine env prm x0 o o' out calls h).2 k it hit
        rw [h2] at hm
        have hm2 := hm.2
        rw [List.getElem?_eq_getElem (by omega)] at hm2
        simp at hm2
  have hlen : out.iterations.length ≤ S := by
    rcases Nat.eq_zero_or_pos out.iterations.length with h0 | h0
    · omega
    · have h1 := hcount (out.iterations.length - 1)
      rw [hall _ (by omega)] at h1
      omega
  refine ⟨hlen, hres, fun hlim => ?_⟩
  have hterm := C46_termination env prm x0 o o' out calls h
  cases hT : out.termination <;> rw [hT] at hterm <;> simp only at hterm
  all_goals first
    | (simp; done)
    | (exfalso; omega)
    | exact absurd he hterm.2.2.1
    | (exfalso
       obtain ⟨it, hlast, hx⟩ := hterm
       have hr2 := hx.1
       rw [List.getLast?_eq_getElem?] at hlast
       rcases hres it (List.mem_of_getElem? hlast) with h2 | h2 <;> rw [h2] at hr2 <;> simp at hr2)

/-- **C96** (the gradient). At every logged iteration the derivative of the cost along any direction `d` is bounded by the logged
slope: its square is at most `|d_f|` times the damped Gauss-Newton curvature along `d`. -/
theorem C96_gradient (env : Env D D ℝ) (hE : LDLTContract env.E) (hr : env.retraction = none) (hp : WellPosed env.p D)
    (hi : env.p.ineq = []) (he : env.p.eqs = []) (prm : NLSParams ℝ) (x0 : Fin D → ℝ) (o o' : env.Obj) (out : NLSOutputs ℝ)
    (calls : List (NLSIteration ℝ)) (h : solve env prm x0 o = .ok (o', out, calls)) (μ : ℝ) (hμ : 0 < μ)
    (k : Nat) (it : NLSIteration ℝ) (hit : out.iterations[k]? = some it) (a : env.Obj) (ha : After env prm x0 o k a)
    (hc : ∀ d, μ * ∑ i, d i ^ 2 ≤ curvature env.p a.vars it.lambda d) (d : Fin D → ℝ) :
    costSlope env.p a.vars d ^ 2 ≤ |it.directionalDerivatives.dF| * curvature env.p a.vars it.lambda d := by
  have hk := lt_of_getElem? hit
  obtain ⟨hex, -, -⟩ := C38_after env prm x0 o o' out calls h
  obtain ⟨b, hb, -⟩ := hex (k + 1) (by omega)
  have hf := free_step env hE hr hp hi he prm x0 o o' out calls h k it hit a b ha hb (damped_or_injective hμ hc)
  rw [hf.dF, hf.newton, abs_neg, abs_of_nonneg (curvature_nonneg _ _ _ _)]
  exact hf.gradient d

end MiniOpt.Props
