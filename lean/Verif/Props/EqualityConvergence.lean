import Verif.Spec.SmoothEqSpec
import Verif.Props.GlobalConvergence
import Verif.Props.PenaltyBound

/-!
# C125: what smoothness guarantees with equality constraints (exact arithmetic)
-/

set_option autoImplicit false

namespace MiniOpt.Props

open MiniOpt.Spec MiniOpt.NLS

variable {D : Nat}

/-- What is used about one logged iteration of the null-space path. -/
structure EqStep (env : Env D D ℝ) (prm : NLSParams ℝ) (x dx : Fin D → ℝ) (it : NLSIteration ℝ) : Prop where
  total : it.directionalDerivatives.total it.penalty = costSlope env.p x dx - it.penalty * violationAt env.p x
  linf : it.directionalDerivatives.lInfinity = max |costSlope env.p x dx| (violationAt env.p x)
  model : costSlope env.p x dx + 1 / 2 * curvature env.p x it.lambda dx
    ≤ it.penalty * ((1 - prm.equalityPenaltyRho) * max (violationAt env.p x) (1 / 2 ^ 52))
  rows : ∀ r ∈ env.p.eqs, ∀ k, slopeAt r x dx k = - valueAt r x k
  start : it.errorsInitial = errorsAt env.p x
  trial : ∀ st ∈ it.lineSearchSteps, st.errors = errorsAt env.p (fun i => x i + st.alpha * dx i)

theorem null_space_step (env : Env D D ℝ) (hE : NSContract env.NE) (hr : env.retraction = none) (hp : WellPosed env.p D)
    (hi : env.p.ineq = []) (he : env.p.eqs ≠ []) (prm : NLSParams ℝ) (x0 : Fin D → ℝ) (o o' : env.Obj) (out : NLSOutputs ℝ)
    (calls : List (NLSIteration ℝ)) (h : solve env prm x0 o = .ok (o', out, calls)) (k : Nat) (it : NLSIteration ℝ)
    (hit : out.iterations[k]? = some it) (a b : env.Obj) (ha : After env prm x0 o k a) (hb : After env prm x0 o (k + 1) b) :
    EqStep env prm a.vars b.dx it := by
  have hmem := List.mem_of_getElem? hit
  have hns := (C45_which_solver env prm x0 o o' out calls h it hmem).1 ⟨hi, he⟩
  obtain ⟨h1, h2, h3⟩ := C38_direction env prm x0 o o' out calls h k it hit a b ha hb
  obtain ⟨f1, f2, f3, f4, f5, f6⟩ := linearize_facts hp h1
  obtain ⟨-, e2, -⟩ := C39_logged_errors env hp.consistent prm x0 o o' out calls h k it hit a b ha hb
  have hrows := ns_rows hE h hit ha hb hns
  obtain ⟨c1, -, -⟩ := C45_descent env hE hp hi he prm x0 o o' out calls h it hmem
  have hdom := ((C44_penalty env prm x0 o o' out calls h).2.2 k it b hit he hb).2 hns
  have hd := costDerivative_real b.qp b.dx
  rw [← h2] at hd
  have hv : it.errorsInitial.equality = violationAt env.p a.vars := by rw [f1]; rfl
  have hv0 : 0 ≤ violationAt env.p a.vars := violationAt_nonneg _ _
  have hdF : it.directionalDerivatives.dF = costSlope env.p a.vars b.dx := by rw [hd.1, f2]; rfl
  rw [hv] at c1
  refine ⟨?_, ?_, ?_, ?_, f1, ?_⟩
  · unfold DirectionalDerivatives.total
    rw [c1, hdF]; ring
  · unfold DirectionalDerivatives.lInfinity
    rw [c1, hdF]
    simp only [real_cmax, real_abs, abs_neg, abs_of_nonneg hv0]
  · have hc := curvature_nonneg env.p a.vars it.lambda b.dx
    have e : (∑ i, ∑ j, b.dx i * b.qp.G (max i j) (min i j) * b.dx j) = curvature env.p a.vars it.lambda b.dx := f6 b.dx
    have e1 : ∑ i, b.qp.c i * b.dx i = costSlope env.p a.vars b.dx := f2 b.dx
    rw [e, e1, max_eq_right hc, sum_abs_b f3 f4] at hdom
    exact hdom
  · have hsum := sum_rows (fun _ m => |m|) a.vars b.dx b.qp.b (fun k => (∑ j, b.qp.A k j * b.dx j) + b.qp.b k) env.p.eqs f4
      (f3 b.dx)
    have h0 : ∑ k, |(∑ j, b.qp.A k j * b.dx j) + b.qp.b k| = 0 :=
      Finset.sum_eq_zero fun k _ => by rw [hrows k, abs_zero]
    rw [h0] at hsum
    intro r hr k
    have hz : ∑ k, |linAt r a.vars b.dx k| = 0 := by
      have hle : ∑ k, |linAt r a.vars b.dx k| ≤ (env.p.eqs.map fun r => ∑ k, |linAt r a.vars b.dx k|).sum :=
        List.single_le_sum (fun v hv => by
          obtain ⟨s, _, rfl⟩ := List.mem_map.mp hv
          exact Finset.sum_nonneg fun k _ => abs_nonneg _) _ (List.mem_map.mpr ⟨r, hr, rfl⟩)
      exact le_antisymm (hle.trans hsum.symm.le) (Finset.sum_nonneg fun k _ => abs_nonneg _)
    have := abs_eq_zero.mp ((Finset.sum_eq_zero_iff_of_nonneg fun k _ => abs_nonneg _).mp hz k (Finset.mem_univ k))
    have e3 : linAt r a.vars b.dx k = valueAt r a.vars k + slopeAt r a.vars b.dx k := rfl
    linarith
  · intro st hst
    obtain ⟨y, hmv, herr⟩ := e2 st hst
    unfold Moves at hmv
    rw [hr] at hmv
    obtain ⟨_, hy⟩ := hmv
    have : y = fun i => a.vars i + st.alpha * b.dx i := by rw [hy]; funext i; simp [mul_comm]
    rw [herr, this]

/-- The violation at a trial point. -/
theorem trial_violation {p : Problem D ℝ} {S : (Fin D → ℝ) → Prop} {Lc : ℝ} (hs : SmoothEqs p S Lc) {x dx : Fin D → ℝ}
    (hx : S x) (hrows : ∀ r ∈ p.eqs, ∀ k, slopeAt r x dx k = - valueAt r x k) {t : ℝ} (h0 : 0 ≤ t) (h1 : t ≤ 1) :
    violationAt p (fun i => x i + t * dx i) ≤ (1 - t) * violationAt p x + Lc / 2 * t ^ 2 * ∑ i, dx i ^ 2 := by
  have hu := hs.upper x hx dx t h0 h1
  rw [violationAt_real, violationAt_real]
  refine le_trans ?_ (add_le_add_right hu _)
  rw [← List.sum_map_mul_left, ← List.sum_map_add]
  refine List.sum_le_sum fun r hr => ?_
  rw [Finset.mul_sum, ← Finset.sum_add_distrib]
  refine Finset.sum_le_sum fun k _ => ?_
  rw [hrows r hr k]
  generalize valueAt r x k = c
  generalize valueAt r (fun i => x i + t * dx i) k = y
  have e : y = (1 - t) * c + (y - (c + t * -c)) := by ring
  calc |y| = |(1 - t) * c + (y - (c + t * -c))| := by rw [← e]
    _ ≤ |(1 - t) * c| + |y - (c + t * -c)| := abs_add_le _ _
    _ = (1 - t) * |c| + |y - (c + t * -c)| := by rw [abs_mul, abs_of_nonneg (by linarith : (0 : ℝ) ≤ 1 - t)]

/-- The slope of the merit function, if the first-order test fails. -/
theorem slope_bounds {P v dF c rho tol : ℝ} (hP : 0 < P) (hv : 0 ≤ v) (hc : 0 ≤ c) (hrho : 0 < rho) (hrho1 : rho < 1)
    (hm : dF + 1 / 2 * c ≤ P * ((1 - rho) * max v (1 / 2 ^ 52))) (hl : ¬ max |dF| v < tol)
    (ht : 1 / 2 ^ 52 * max 1 P ≤ tol) :
    c ≤ -4 * (dF - P * v) ∧ rho * tol * min 1 P ≤ - (dF - P * v) ∧ dF - P * v < 0 := by
  have h52 : (0 : ℝ) < 1 / 2 ^ 52 := by norm_num
  generalize (1 / 2 ^ 52 : ℝ) = ε at *
  have hεt : ε ≤ tol := le_trans (le_mul_of_one_le_right h52.le (le_max_left _ _)) ht
  have hPt : P * ε ≤ tol := by
    refine le_trans ?_ ht
    rw [mul_comm]
    exact mul_le_mul_of_nonneg_left (le_max_right _ _) h52.le
  have htol : 0 < tol := lt_of_lt_of_le h52 hεt
  have hmin0 : 0 < min 1 P := lt_min one_pos hP
  have hmin1 : min 1 P ≤ 1 := min_le_left _ _
  have hminP : min 1 P ≤ P := min_le_right _ _
  have hrt : 0 < rho * tol := mul_pos hrho htol
  suffices hmain : c ≤ -4 * (dF - P * v) ∧ rho * tol * min 1 P ≤ - (dF - P * v) from
    ⟨hmain.1, hmain.2, by have := mul_pos hrt hmin0; linarith [hmain.2]⟩
  have hone : rho * tol * min 1 P ≤ tol := by
    have h1 : rho * tol * min 1 P ≤ rho * tol * 1 := mul_le_mul_of_nonneg_left hmin1 hrt.le
    have h2 : rho * tol ≤ 1 * tol := mul_le_mul_of_nonneg_right hrho1.le htol.le
    linarith
  have hPv : 0 ≤ P * v := mul_nonneg hP.le hv
  have hrPv : 0 ≤ rho * (P * v) := mul_nonneg hrho.le hPv
  rcases le_or_gt ε v with hvε | hvε
  · rw [max_eq_left hvε] at hm
    have hm' : dF + 1 / 2 * c ≤ P * v - rho * (P * v) := by linarith
    refine ⟨by linarith, ?_⟩
    rcases le_or_gt tol v with hvt | hvt
    · have h1 : rho * tol * min 1 P ≤ rho * tol * P := mul_le_mul_of_nonneg_left hminP hrt.le
      have h2 : rho * tol * P ≤ rho * (P * v) := by
        have := mul_le_mul_of_nonneg_left hvt (mul_pos hrho hP).le
        linarith
      linarith
    · have hd : tol ≤ |dF| := by
        by_contra hcon
        exact hl (max_lt (not_le.mp hcon) hvt)
      rcases le_abs.mp hd with hd | hd
      · have h1 : rho * tol * min 1 P ≤ rho * tol * 1 := mul_le_mul_of_nonneg_left hmin1 hrt.le
        have h2 : rho * tol ≤ rho * (P * v) := mul_le_mul_of_nonneg_left (by linarith) hrho.le
        linarith
      · linarith
  · rw [max_eq_right hvε.le] at hm
    have hd : tol ≤ |dF| := by
      by_contra hcon
      exact hl (max_lt (not_le.mp hcon) (hvε.trans_le hεt))
    have hPε : 0 < rho * (P * ε) := mul_pos hrho (mul_pos hP h52)
    have hm' : dF + 1 / 2 * c ≤ P * ε - rho * (P * ε) := by linarith
    have hd' : dF ≤ -tol := by
      rcases le_abs.mp hd with hd | hd
      · linarith
      · linarith
    exact ⟨by linarith, by linarith⟩

/-- A line search in which the merit function lies below a parabola that only depends on the slope. -/
theorem line_search_model (env : Env D D ℝ) (prm : NLSParams ℝ) (x0 : Fin D → ℝ) (o o' : env.Obj) (out : NLSOutputs ℝ)
    (calls : List (NLSIteration ℝ)) (h : solve env prm x0 o = .ok (o', out, calls)) (L μ : ℝ) (hL : 0 < L) (hμ : 0 < μ)
    (k : Nat) (it : NLSIteration ℝ) (hit : out.iterations[k]? = some it)
    (hup : ¬ it.directionalDerivatives.lInfinity < prm.absoluteFirstDerivativeTol →
      it.directionalDerivatives.total it.penalty < 0 ∧ ∀ st ∈ it.lineSearchSteps, 0 < st.alpha → st.alpha ≤ 1 →
        st.errors.total it.penalty ≤ it.errorsInitial.total it.penalty
          + st.alpha * it.directionalDerivatives.total it.penalty
          - L / (2 * μ) * st.alpha ^ 2 * it.directionalDerivatives.total it.penalty) :
    (∀ (j : Nat) st, it.lineSearchSteps[j]? = some st →
      j + 1 < it.lineSearchSteps.length ∨ it.stepResult = .maxIterations → safeStep L μ < st.alpha) ∧
    (it.stepResult = .success ∨ it.stepResult = .firstOrderSatisfied ∨ it.stepResult = .maxIterations) ∧
    (it.stepResult = .success → ∃ st, it.lineSearchSteps.getLast? = some st ∧ shortestStep prm L μ ≤ st.alpha) ∧
    (it.stepResult = .maxIterations → safeStep L μ < stepRatio prm ^ prm.maxLineSearchIterations.toNat) := by
  have hmem := List.mem_of_getElem? hit
  have hrefused : ∀ (j : Nat) st, it.lineSearchSteps[j]? = some st →
      j + 1 < it.lineSearchSteps.length ∨ it.stepResult = .maxIterations →
      it.directionalDerivatives.total it.penalty < 0 ∧ safeStep L μ < st.alpha := by
    intro j st hst hj
    obtain ⟨h0, h1⟩ := alpha_unit env prm x0 o o' out calls h it hmem j st hst
    obtain ⟨r1, r2⟩ := refused_step env prm x0 o o' out calls h it hmem j st hst hj
    obtain ⟨hneg, u⟩ := hup r1
    have u2 := u st (List.mem_of_getElem? hst) h0 h1
    refine ⟨hneg, ?_⟩
    generalize it.directionalDerivatives.total it.penalty = d at *
    have h2 : 0 < (-d) * st.alpha * (L / (2 * μ) * st.alpha - 9999 / 10000) := by nlinarith
    have h3 : 0 < L / (2 * μ) * st.alpha - 9999 / 10000 := by
      by_contra hn
      have := mul_nonpos_of_nonneg_of_nonpos (mul_pos (neg_pos.mpr hneg) h0).le (not_lt.mp hn)
      linarith
    unfold safeStep
    have e : L / (2 * μ) * st.alpha = st.alpha / (μ / L) / 2 := by field_simp
    rw [e] at h3
    have hq : 0 < μ / L := div_pos hμ hL
    have h4 : 9999 / 5000 < st.alpha / (μ / L) := by linarith
    rwa [lt_div_iff₀ hq] at h4
  refine ⟨fun j st hst hj => (hrefused j st hst hj).2, ?_, ?_, ?_⟩
  · have h1 := never_nonfinite env prm x0 o o' out calls h it hmem
    have h2 : it.stepResult ≠ .failureInvalidAlpha := by
      intro hr
      obtain ⟨-, hz, hl⟩ := C42_invalid_alpha_cause env prm x0 o o' out calls h it hmem hr
      obtain ⟨S, T, W, hv⟩ := solve_view h
      obtain ⟨hlt, rfl, hpass⟩ := view_info hv hit
      obtain ⟨-, hout, -⟩ := lsLoop_start _ _ _ _ _ _ _ _ _ _ _ _ hpass.ls
      rw [hpass.ires] at hr
      rw [hpass.isteps] at hl
      obtain ⟨-, hrej, -⟩ := hout.facts.invalidAlpha hr
      obtain ⟨st, hst⟩ : ∃ st, st ∈ (W k).steps := List.exists_mem_of_length_pos (by omega)
      have hnl := (hrej st hst).notFirstOrder
      rw [← hpass.ideriv] at hnl
      have := (hup hnl).1
      linarith
    have h3 : it.stepResult ≠ .positiveDerivative := by
      obtain ⟨S, T, W, hv⟩ := solve_view h
      obtain ⟨hlt, rfl, hpp⟩ := view_info hv hit
      obtain ⟨-, hout, -⟩ := lsLoop_start _ _ _ _ _ _ _ _ _ _ _ _ hpp.ls
      intro hc'
      rw [hpp.ires] at hc'
      obtain ⟨st, -, -, hnl, hpos⟩ := hout.facts.positive hc'
      rw [← hpp.ideriv] at hnl hpos
      rw [← hpp.ipenalty] at hpos
      have := (hup hnl).1
      linarith
    cases hres : it.stepResult <;> simp_all
  · intro hsucc
    obtain ⟨st, hlast, -⟩ := (C40_only_last_accepted env prm x0 o o' out calls h it hmem).2.mp hsucc
    refine ⟨st, hlast, ?_⟩
    obtain ⟨-, -, hfirst, hnext⟩ := C40_alphas_any env prm x0 o o' out calls h it hmem
    rw [List.getLast?_eq_getElem?] at hlast
    have hlen := lt_of_getElem? hlast
    generalize hm : it.lineSearchSteps.length - 1 = m at hlast
    cases m with
    | zero =>
      rw [hfirst st hlast]
      exact min_le_left _ _
    | succ j =>
      obtain ⟨st0, h0⟩ : ∃ s, it.lineSearchSteps[j]? = some s := ⟨_, List.getElem?_eq_getElem (by omega)⟩
      obtain ⟨hneg, hlong⟩ := hrefused j st0 h0 (Or.inl (by omega))
      have hn := hnext j st0 st h0 hlast
      obtain ⟨a0, a1⟩ := alpha_unit env prm x0 o o' out calls h it hmem j st0 h0
      refine (min_le_right _ _).trans ?_
      cases hstr : prm.lineSearchStrategy with
      | armijoBacktrack =>
        rw [hstr] at hn
        have hn : st.alpha = st0.alpha * prm.armijoSearchTau := hn
        obtain ⟨S, T, W, hv⟩ := solve_view h
        have hτ := hv.prmOk.armijoSearchTau.1
        show prm.armijoSearchTau * safeStep L μ ≤ st.alpha
        rw [hn, mul_comm]
        exact mul_le_mul_of_nonneg_right hlong.le hτ.le
      | polynomialApproximation =>
        show 20 / 41 * (μ / L) ≤ st.alpha
        obtain ⟨-, hp2⟩ := C42_never_fails env prm x0 o o' out calls h hstr it hmem hneg
        have hb2 := (hp2 j st0 st h0 hlast).2
        have r1 := (refused_step env prm x0 o o' out calls h it hmem j st0 h0 (Or.inl (by omega))).1
        have u2 := (hup r1).2 st0 (List.mem_of_getElem? h0) a0 a1
        obtain ⟨s0, -⟩ := alpha_unit env prm x0 o o' out calls h it hmem (j + 1) st hlast
        generalize it.directionalDerivatives.total it.penalty = d at *
        have hX : st0.errors.total it.penalty - it.errorsInitial.total it.penalty - d * st0.alpha
            ≤ L / (2 * μ) * st0.alpha ^ 2 * (-d) := by linarith
        have h5 := hb2.trans (mul_le_mul_of_nonneg_left hX (by positivity : 0 ≤ 41 / 10 * st.alpha))
        have h6 : 0 < (-d) * st0.alpha ^ 2 := mul_pos (neg_pos.mpr hneg) (by positivity)
        have h7 : (-d) * st0.alpha ^ 2 * 1 ≤ (-d) * st0.alpha ^ 2 * (41 / 20 * st.alpha * (L / μ)) := by
          have e : 41 / 10 * st.alpha * (L / (2 * μ) * st0.alpha ^ 2 * -d)
              = (-d) * st0.alpha ^ 2 * (41 / 20 * st.alpha * (L / μ)) := by field_simp; ring
          linarith
        have h8 := le_of_mul_le_mul_left h7 h6
        have hq : 0 < μ / L := div_pos hμ hL
        have e : L / μ * (μ / L) = 1 := by field_simp
        have h9 := mul_le_mul_of_nonneg_right h8 hq.le
        rw [mul_assoc, e] at h9
        linarith
  · intro hf
    obtain ⟨c1, c2, c3, -⟩ := C40_alphas_any env prm x0 o o' out calls h it hmem
    obtain ⟨st0, h0⟩ : ∃ s, it.lineSearchSteps[0]? = some s := ⟨_, List.getElem?_eq_getElem (by omega)⟩
    have hlen : it.lineSearchSteps.length = (prm.maxLineSearchIterations + 1).toNat := by
      obtain ⟨S, T, W, hv⟩ := solve_view h
      obtain ⟨hlt, rfl, hpp⟩ := view_info hv hit
      obtain ⟨-, hout, -⟩ := lsLoop_start _ _ _ _ _ _ _ _ _ _ _ _ hpp.ls
      rw [hpp.ires] at hf
      rw [hpp.isteps]
      exact (hout.facts.maxIter hf).1
    obtain ⟨st, hst⟩ : ∃ s, it.lineSearchSteps[prm.maxLineSearchIterations.toNat]? = some s :=
      ⟨_, List.getElem?_eq_getElem (by omega)⟩
    obtain ⟨hneg, hlong⟩ := hrefused _ st hst (Or.inr hf)
    exact hlong.trans_le (alpha_pow env prm x0 o o' out calls h it hmem hneg _ st hst)

/-- The iterates stay where the violation is at most the merit function at the start divided by the initial penalty. -/
theorem stays_violating (env : Env D D ℝ) (hp : WellPosed env.p D) (prm : NLSParams ℝ)
    (hpen : 0 < prm.equalityPenaltyInitial) (x0 : Fin D → ℝ) (o o' : env.Obj) (out : NLSOutputs ℝ)
    (calls : List (NLSIteration ℝ)) (h : solve env prm x0 o = .ok (o', out, calls)) (k : Nat) (it : NLSIteration ℝ)
    (hit : out.iterations[k]? = some it) (a : env.Obj) (ha : After env prm x0 o k a) :
    Violates env.p (startMerit env.p prm x0) a.vars := by
  have hk := lt_of_getElem? hit
  obtain ⟨hex, -, -⟩ := C38_after env prm x0 o o' out calls h
  obtain ⟨b, hb, -⟩ := hex (k + 1) (by omega)
  obtain ⟨h1, -, -⟩ := C38_direction env prm x0 o o' out calls h k it hit a b ha hb
  obtain ⟨f1, -⟩ := linearize_facts hp h1
  have hmem := List.mem_of_getElem? hit
  have hm := scaled_merit_le env hp.consistent prm x0 o o' out calls h hpen it hmem
  have hP := ((C44_penalty env prm x0 o o' out calls h).1 it hmem).1
  have hf := (errorsInitial_nonneg env hp.consistent prm x0 o o' out calls h k it hit).1
  have hv : it.errorsInitial.equality = violationAt env.p a.vars := by rw [f1]; rfl
  unfold Violates
  rw [← hv]
  have := div_nonneg hf hP.le
  linarith

/-- A first-order tolerance that the penalty formula can tell from rounding. -/
theorem tol_of_cap {prm : NLSParams ℝ} {P Q : ℝ} (hPQ : P ≤ Q) (ht : 1 / 2 ^ 52 * max 1 Q ≤ prm.absoluteFirstDerivativeTol) :
    1 / 2 ^ 52 * max 1 P ≤ prm.absoluteFirstDerivativeTol :=
  le_trans (mul_le_mul_of_nonneg_left (max_le_max_left _ hPQ) (by norm_num)) ht

/-- **C125** (one iteration). Equality constraints but no inequality constraints, default retraction: wherever the constraints are
violated by at most the merit function at the start divided by the initial penalty, let the cost be smooth with constant `Lf` and
the constraints with constant `Lc`; let the damped Gauss-Newton matrix of a logged iteration be at least `μ > 0` and its penalty at
most `P`; let the first-order tolerance be at least machine epsilon (times `P`). With `L = Lf + P Lc`: every trial step that is
refused is longer than `1.9998 μ / (4 L)`; the step is accepted, or the first-order test holds, or all trial steps were refused; an
accepted step is at least `shortestStep` long; if all were refused, the line search had too few iterations; and the derivative of
the merit function along an accepted direction is at most `- rho * tolerance * min 1 penalty`. -/
theorem C125_line_search (env : Env D D ℝ) (hE : NSContract env.NE) (hr : env.retraction = none) (hp : WellPosed env.p D)
    (hi : env.p.ineq = []) (he : env.p.eqs ≠ []) (prm : NLSParams ℝ) (hpen : 0 < prm.equalityPenaltyInitial)
    (hrho : 0 < prm.equalityPenaltyRho) (x0 : Fin D → ℝ) (o o' : env.Obj) (out : NLSOutputs ℝ)
    (calls : List (NLSIteration ℝ)) (h : solve env prm x0 o = .ok (o', out, calls)) (Lf Lc μ P : ℝ)
    (hsf : Smooth env.p (Violates env.p (startMerit env.p prm x0)) Lf)
    (hsc : SmoothEqs env.p (Violates env.p (startMerit env.p prm x0)) Lc) (hμ : 0 < μ)
    (ht : 1 / 2 ^ 52 * max 1 P ≤ prm.absoluteFirstDerivativeTol)
    (k : Nat) (it : NLSIteration ℝ) (hit : out.iterations[k]? = some it) (hP : it.penalty ≤ P)
    (a : env.Obj) (ha : After env prm x0 o k a)
    (hc : ∀ d, μ * ∑ i, d i ^ 2 ≤ curvature env.p a.vars it.lambda d) :
    (∀ (j : Nat) st, it.lineSearchSteps[j]? = some st →
      j + 1 < it.lineSearchSteps.length ∨ it.stepResult = .maxIterations → safeStep (Lf + P * Lc) (μ / 4) < st.alpha) ∧
    (it.stepResult = .success ∨ it.stepResult = .firstOrderSatisfied ∨ it.stepResult = .maxIterations) ∧
    (it.stepResult = .success → ∃ st, it.lineSearchSteps.getLast? = some st ∧
      shortestStep prm (Lf + P * Lc) (μ / 4) ≤ st.alpha) ∧
    (it.stepResult = .maxIterations →
      safeStep (Lf + P * Lc) (μ / 4) < stepRatio prm ^ prm.maxLineSearchIterations.toNat) ∧
    (it.stepResult = .success → it.directionalDerivatives.total it.penalty
      ≤ - (prm.equalityPenaltyRho * prm.absoluteFirstDerivativeTol * min 1 it.penalty)) := by
  have hmem := List.mem_of_getElem? hit
  have hk := lt_of_getElem? hit
  obtain ⟨hex, -, -⟩ := C38_after env prm x0 o o' out calls h
  obtain ⟨b, hb, -⟩ := hex (k + 1) (by omega)
  have hx := stays_violating env hp prm hpen x0 o o' out calls h k it hit a ha
  have hf := null_space_step env hE hr hp hi he prm x0 o o' out calls h k it hit a b ha hb
  have hP0 := ((C44_penalty env prm x0 o o' out calls h).1 it hmem).1
  have hrho1 : prm.equalityPenaltyRho < 1 := by
    obtain ⟨S, T, W, hv⟩ := solve_view h
    exact hv.prmOk.equalityPenaltyRho.2
  have hLf := hsf.pos
  have hLc := hsc.nonneg
  have hL : 0 < Lf + P * Lc := by
    have := mul_nonneg (hP0.le.trans hP) hLc
    linarith
  have hn : 0 ≤ ∑ i, b.dx i ^ 2 := Finset.sum_nonneg fun i _ => sq_nonneg _
  have hslope : ¬ it.directionalDerivatives.lInfinity < prm.absoluteFirstDerivativeTol →
      curvature env.p a.vars it.lambda b.dx ≤ -4 * it.directionalDerivatives.total it.penalty ∧
      prm.equalityPenaltyRho * prm.absoluteFirstDerivativeTol * min 1 it.penalty ≤ - it.directionalDerivatives.total it.penalty ∧
      it.directionalDerivatives.total it.penalty < 0 := by
    intro hl
    rw [hf.linf] at hl
    rw [hf.total]
    exact slope_bounds hP0 (violationAt_nonneg _ _) (curvature_nonneg _ _ _ _) hrho hrho1 hf.model hl (tol_of_cap hP ht)
  have hmod := line_search_model env prm x0 o o' out calls h (Lf + P * Lc) (μ / 4) hL (by linarith) k it hit (fun hl => by
    obtain ⟨s1, -, s3⟩ := hslope hl
    refine ⟨s3, fun st hst h0 h1 => ?_⟩
    have u1 := hsf.upper _ hx b.dx st.alpha h0.le h1
    have u2 := trial_violation hsc hx hf.rows h0.le h1
    have u3 := mul_le_mul_of_nonneg_left u2 hP0.le
    have key : ∑ i, b.dx i ^ 2 ≤ -4 * it.directionalDerivatives.total it.penalty / μ := by
      rw [le_div_iff₀ hμ]
      linarith [hc b.dx]
    have hq : 0 ≤ st.alpha ^ 2 / 2 := by positivity
    have hLP : it.penalty * Lc ≤ P * Lc := mul_le_mul_of_nonneg_right hP hLc
    have k1 : (Lf + it.penalty * Lc) * (st.alpha ^ 2 / 2) * ∑ i, b.dx i ^ 2
        ≤ (Lf + P * Lc) * (st.alpha ^ 2 / 2) * (-4 * it.directionalDerivatives.total it.penalty / μ) := by
      refine mul_le_mul (mul_le_mul_of_nonneg_right (by linarith) hq) key hn (mul_nonneg hL.le hq)
    have e1 : (Lf + P * Lc) * (st.alpha ^ 2 / 2) * (-4 * it.directionalDerivatives.total it.penalty / μ)
        = - ((Lf + P * Lc) / (2 * (μ / 4)) * st.alpha ^ 2 * it.directionalDerivatives.total it.penalty) := by
      field_simp
    rw [e1] at k1
    have et : st.errors.total it.penalty
        = costAt env.p (fun i => a.vars i + st.alpha * b.dx i) + it.penalty * violationAt env.p (fun i => a.vars i + st.alpha * b.dx i) := by
      rw [hf.trial st hst]; rfl
    have ei : it.errorsInitial.total it.penalty = costAt env.p a.vars + it.penalty * violationAt env.p a.vars := by
      rw [hf.start]; rfl
    have ed := hf.total
    have em : st.alpha * it.directionalDerivatives.total it.penalty
        = st.alpha * costSlope env.p a.vars b.dx - st.alpha * (it.penalty * violationAt env.p a.vars) := by rw [ed]; ring
    rw [et, ei, em]
    linarith)
  obtain ⟨m1, m2, m3, m4⟩ := hmod
  refine ⟨m1, m2, m3, m4, fun hs => ?_⟩
  obtain ⟨_, -, -, hl, -⟩ := (C40_only_last_accepted env prm x0 o o' out calls h it hmem).2.mp hs
  have := (hslope hl).2.1
  linarith

/-- The damped Gauss-Newton matrix at a logged iteration. -/
theorem curved_violating (env : Env D D ℝ) (hp : WellPosed env.p D) (prm : NLSParams ℝ)
    (hpen : 0 < prm.equalityPenaltyInitial) (x0 : Fin D → ℝ) (o o' : env.Obj) (out : NLSOutputs ℝ)
    (calls : List (NLSIteration ℝ)) (h : solve env prm x0 o = .ok (o', out, calls)) (μ : ℝ)
    (hcv : Curved env.p (Violates env.p (startMerit env.p prm x0)) prm.minLambda μ) (k : Nat) (it : NLSIteration ℝ)
    (hit : out.iterations[k]? = some it) (a : env.Obj) (ha : After env prm x0 o k a) :
    ∀ d, μ * ∑ i, d i ^ 2 ≤ curvature env.p a.vars it.lambda d := by
  intro d
  have hx := stays_violating env hp prm hpen x0 o o' out calls h k it hit a ha
  refine (hcv.lower _ hx d).trans ?_
  have hl := ((C43_lambda_limits env prm x0 o o' out calls h).1 it (List.mem_of_getElem? hit)).1
  unfold curvature
  have := mul_le_mul_of_nonneg_right (max_le_max_right 0 hl)
    (Finset.sum_nonneg fun i (_ : i ∈ Finset.univ) => sq_nonneg (d i))
  linarith

/-- Every accepted step contributes to the sum of the slopes. -/
theorem scaledSlope_facts (env : Env D D ℝ) (hE : NSContract env.NE) (hr : env.retraction = none) (hp : WellPosed env.p D)
    (hi : env.p.ineq = []) (he : env.p.eqs ≠ []) (prm : NLSParams ℝ) (hpen : 0 < prm.equalityPenaltyInitial)
    (hrho : 0 < prm.equalityPenaltyRho) (x0 : Fin D → ℝ) (o o' : env.Obj) (out : NLSOutputs ℝ)
    (calls : List (NLSIteration ℝ)) (h : solve env prm x0 o = .ok (o', out, calls)) (Lf Lc μ P : ℝ)
    (hsf : Smooth env.p (Violates env.p (startMerit env.p prm x0)) Lf)
    (hsc : SmoothEqs env.p (Violates env.p (startMerit env.p prm x0)) Lc)
    (hcv : Curved env.p (Violates env.p (startMerit env.p prm x0)) prm.minLambda μ)
    (ht : 1 / 2 ^ 52 * max 1 P ≤ prm.absoluteFirstDerivativeTol) (hP : ∀ it ∈ out.iterations, it.penalty ≤ P) :
    (∀ it ∈ out.iterations, 0 ≤ scaledSlope it ∧ (it.stepResult = .success →
      prm.equalityPenaltyRho * prm.absoluteFirstDerivativeTol / max 1 P ≤ scaledSlope it)) ∧
    shortestStep prm (Lf + P * Lc) (μ / 4) * (out.iterations.map scaledSlope).sum + 10 ^ 4 * violationAt env.p o'.vars
      ≤ 10 ^ 4 * startMerit env.p prm x0 := by
  have htol : 0 < prm.absoluteFirstDerivativeTol :=
    lt_of_lt_of_le (mul_pos (by norm_num) (lt_of_lt_of_le one_pos (le_max_left _ _))) ht
  obtain ⟨hex, -, -⟩ := C38_after env prm x0 o o' out calls h
  have hls := C125_line_search env hE hr hp hi he prm hpen hrho x0 o o' out calls h Lf Lc μ P hsf hsc hcv.pos ht
  have h1 : ∀ it ∈ out.iterations, 0 ≤ scaledSlope it ∧ (it.stepResult = .success →
      prm.equalityPenaltyRho * prm.absoluteFirstDerivativeTol / max 1 P ≤ scaledSlope it) := by
    intro it hit
    obtain ⟨k, hk⟩ := List.mem_iff_getElem?.mp hit
    have hlt := lt_of_getElem? hk
    obtain ⟨a, ha, -⟩ := hex k (by omega)
    have hca := curved_violating env hp prm hpen x0 o o' out calls h μ hcv k it hk a ha
    obtain ⟨-, -, -, -, m5⟩ := hls k it hk (hP it hit) a ha hca
    have hP0 := ((C44_penalty env prm x0 o o' out calls h).1 it hit).1
    have hrt : 0 < prm.equalityPenaltyRho * prm.absoluteFirstDerivativeTol := mul_pos hrho htol
    have hge : it.stepResult = .success → prm.equalityPenaltyRho * prm.absoluteFirstDerivativeTol / max 1 P ≤ scaledSlope it := by
      intro hs
      have m := m5 hs
      unfold scaledSlope
      rw [if_pos hs]
      have hm : max 1 it.penalty ≤ max 1 P := max_le_max_left _ (hP it hit)
      have hm0 : 0 < max 1 it.penalty := lt_of_lt_of_le one_pos (le_max_left _ _)
      refine (div_le_div_of_nonneg_left hrt.le hm0 hm).trans ?_
      rw [div_le_div_iff₀ hm0 hP0]
      have e : it.penalty = min 1 it.penalty * max 1 it.penalty := by rw [min_mul_max, one_mul]
      have h2 := mul_le_mul_of_nonneg_right (le_neg_of_le_neg m) hm0.le
      calc prm.equalityPenaltyRho * prm.absoluteFirstDerivativeTol * it.penalty
          = prm.equalityPenaltyRho * prm.absoluteFirstDerivativeTol * min 1 it.penalty * max 1 it.penalty := by
            rw [mul_assoc (prm.equalityPenaltyRho * prm.absoluteFirstDerivativeTol), ← e]
        _ ≤ _ := h2
    refine ⟨?_, hge⟩
    by_cases hs : it.stepResult = .success
    · exact le_trans (div_nonneg hrt.le (le_trans zero_le_one (le_max_left _ _))) (hge hs)
    · unfold scaledSlope; rw [if_neg hs]
  refine ⟨h1, ?_⟩
  rw [← List.sum_map_mul_left]
  refine scaled_sum env prm hpen x0 o o' out calls h _ fun k it hit a b ha hb => ?_
  have hmem := List.mem_of_getElem? hit
  have hca := curved_violating env hp prm hpen x0 o o' out calls h μ hcv k it hit a ha
  obtain ⟨-, -, m3, -, m5⟩ := hls k it hit (hP it hmem) a ha hca
  have hP0 := ((C44_penalty env prm x0 o o' out calls h).1 it hmem).1
  by_cases hs : it.stepResult = .success
  · obtain ⟨st, hst, h0, h1', hd, hm, hm'⟩ :=
      C36_sufficient_decrease env hp.consistent prm x0 o o' out calls h k it hit hs a b ha hb
    obtain ⟨st', hst', hge⟩ := m3 hs
    rw [hst] at hst'
    cases hst'
    have hn := (h1 it hmem).1
    have e : scaledSlope it * it.penalty = - it.directionalDerivatives.total it.penalty := by
      unfold scaledSlope; rw [if_pos hs]; field_simp
    have h5 := mul_le_mul_of_nonneg_right hge (mul_nonneg hn hP0.le)
    have et : it.directionalDerivatives.dF + it.penalty * it.directionalDerivatives.dEquality
        = it.directionalDerivatives.total it.penalty := rfl
    rw [et] at hm
    rw [e] at h5
    rw [mul_assoc, e]
    linarith
  · have e : scaledSlope it = 0 := by unfold scaledSlope; rw [if_neg hs]
    rw [e, (C38_variables_move env prm x0 o o' out calls h k it hit a b ha hb).2 hs]
    rw [mul_zero, zero_mul, sub_self, mul_zero]

/-- **C125** (the slopes add up to a bounded amount). In the situation of `C125_line_search`, with the damped Gauss-Newton matrix at
least `μ` wherever the violation is at most the starting merit and all penalties at most `P`: the slopes of the merit function along
the accepted directions, divided by the penalty, add up to at most `10^4 / shortestStep` times the starting merit - so slopes above
any `ε > 0` are rare. -/
theorem C125_total_slope (env : Env D D ℝ) (hE : NSContract env.NE) (hr : env.retraction = none) (hp : WellPosed env.p D)
    (hi : env.p.ineq = []) (he : env.p.eqs ≠ []) (prm : NLSParams ℝ) (hpen : 0 < prm.equalityPenaltyInitial)
    (hrho : 0 < prm.equalityPenaltyRho) (x0 : Fin D → ℝ) (o o' : env.Obj) (out : NLSOutputs ℝ)
    (calls : List (NLSIteration ℝ)) (h : solve env prm x0 o = .ok (o', out, calls)) (Lf Lc μ P : ℝ)
    (hsf : Smooth env.p (Violates env.p (startMerit env.p prm x0)) Lf)
    (hsc : SmoothEqs env.p (Violates env.p (startMerit env.p prm x0)) Lc)
    (hcv : Curved env.p (Violates env.p (startMerit env.p prm x0)) prm.minLambda μ) (hP0 : 0 ≤ P)
    (ht : 1 / 2 ^ 52 * max 1 P ≤ prm.absoluteFirstDerivativeTol) (hP : ∀ it ∈ out.iterations, it.penalty ≤ P) :
    0 < shortestStep prm (Lf + P * Lc) (μ / 4) ∧ (∀ it ∈ out.iterations, 0 ≤ scaledSlope it) ∧
    shortestStep prm (Lf + P * Lc) (μ / 4) * (out.iterations.map scaledSlope).sum + 10 ^ 4 * violationAt env.p o'.vars
      ≤ 10 ^ 4 * startMerit env.p prm x0 := by
  obtain ⟨h1, h2⟩ := scaledSlope_facts env hE hr hp hi he prm hpen hrho x0 o o' out calls h Lf Lc μ P hsf hsc hcv ht hP
  obtain ⟨S, T, W, hv⟩ := solve_view h
  have hL : 0 < Lf + P * Lc := by
    have := mul_nonneg hP0 hsc.nonneg
    linarith [hsf.pos]
  exact ⟨shortestStep_pos hL (by linarith [hcv.pos]) hv.prmOk.armijoSearchTau.1, fun it hit => (h1 it hit).1, h2⟩

theorem successes_sum_of {its : List (NLSIteration ℝ)} {m : ℝ} (w : NLSIteration ℝ → ℝ)
    (hs : ∀ it ∈ its, it.stepResult = .success → m ≤ w it) (h0 : ∀ it ∈ its, 0 ≤ w it) (k : Nat) :
    successesBefore its k * m ≤ (its.map w).sum := by
  unfold successesBefore
  induction its generalizing k with
  | nil => simp
  | cons it rest ih =>
    have hr : ∀ j, (((rest.take j).filter fun it => decide (it.stepResult = .success)).length : ℝ) * m
        ≤ (rest.map w).sum :=
      fun j => ih (fun i hi => hs i (by simp [hi])) (fun i hi => h0 i (by simp [hi])) j
    have hn := h0 it (by simp)
    cases k with
    | zero =>
      have := hr 0
      simp only [List.take_zero, List.filter_nil, List.length_nil, List.map_cons, List.sum_cons] at this ⊢
      linarith
    | succ k =>
      have := hr k
      rw [List.take_succ_cons, List.map_cons, List.sum_cons]
      by_cases hsu : it.stepResult = .success
      · have h1 := hs it (by simp) hsu
        rw [List.filter_cons_of_pos (by simpa using hsu), List.length_cons]
        push_cast
        linarith
      · rw [List.filter_cons_of_neg (by simpa using hsu)]
        linarith

/-- The damping the next iteration would use. -/
theorem next_lambda {env : Env D D ℝ} {prm : NLSParams ℝ} {x0 : Fin D → ℝ} {o o' : env.Obj} {out : NLSOutputs ℝ}
    {calls : List (NLSIteration ℝ)} (h : solve env prm x0 o = .ok (o', out, calls))
    {S : Nat → Loop env} {T : Nat → Option NLSTermination} {W : Nat → PassData env}
    (hv : View env prm x0 o o' out calls S T W) :
    max prm.minLambda 0 ≤ max (S out.iterations.length).lambda 0 := by
  rcases Nat.eq_zero_or_pos out.iterations.length with h0 | h0
  · rw [h0, hv.start]
    exact max_le_max_right 0 hv.prmOk.lambdaInitial.1
  · obtain ⟨k, hk⟩ : ∃ k, out.iterations.length = k + 1 := ⟨_, (Nat.succ_pred_eq_of_pos h0).symm⟩
    have hlog := hv.log k (by omega)
    have hp := hv.pass k (by omega)
    have hmem := List.mem_of_getElem? hlog
    have hlim := ((C43_lambda_limits env prm x0 o o' out calls h).1 _ hmem).1
    rw [hp.ilambda] at hlim
    have hten : max prm.minLambda 0 ≤ max ((S k).lambda * 10) 0 := by
      refine max_le ?_ (le_max_right _ _)
      rcases le_total 0 (S k).lambda with hl | hl
      · exact le_max_of_le_left (by linarith)
      · exact le_max_of_le_right (hlim.trans hl)
    rw [hk, hp.lambda]
    generalize (S k).obj.state = st
    generalize (W k).res = res
    cases res <;> cases st <;> simp only [nextLambda, real_cmax, real_lit] <;> push_cast
    all_goals first
      | exact max_le_max_right 0 (le_max_right _ _)
      | exact max_le_max_right 0 hlim
      | exact hten
      | exact hten.trans (max_le_max_right 0 (le_max_right _ _))

/-- `QP_INDEFINITE` needs a result at which the damped Gauss-Newton matrix is not positive definite. -/
theorem not_indefinite_at (env : Env D D ℝ) (hE : NSContract env.NE) (hp : WellPosed env.p D) (prm : NLSParams ℝ)
    (x0 : Fin D → ℝ) (o o' : env.Obj) (out : NLSOutputs ℝ)
    (calls : List (NLSIteration ℝ)) (h : solve env prm x0 o = .ok (o', out, calls)) (μ : ℝ) (hμ : 0 < μ)
    (hcv : ∀ d : Fin D → ℝ, μ * ∑ i, d i ^ 2 ≤ curvature env.p o'.vars prm.minLambda d) : out.termination ≠ .qpIndefinite := by
  intro hT
  obtain ⟨V, T, W, hv⟩ := solve_view h
  rcases hv.stop with ⟨h1, -⟩ | ⟨h1, -⟩ | ⟨-, -, -, qp, pre, o1, res, hlin, hdir, hind, ho⟩
  · rw [h1] at hT; cases hT
  · exact h1 hT
  · have hlam := next_lambda h hv
    obtain ⟨-, -, -, -, -, f6⟩ := linearize_facts hp hlin
    have hvo := hv.vars
    rw [hvo] at hcv
    rcases stepDirection_cases hdir with ⟨_, _, _, _, _, _, _, hr, _⟩ | ⟨s, s', t, hs, _, hns, hr, _⟩
    · rw [hr] at hind; cases hind
    · have htt : t = .notPositiveDefinite := by
        cases t with
        | success => rw [hr] at hind; cases hind
        | notPositiveDefinite => rfl
      subst htt
      refine ((C28_not_posdef_truthful env.NE hE _ s _ hns).1.mp rfl) fun d hd _ => ?_
      have e : (∑ i, ∑ j, d i * qp.G (max i j) (min i j) * d j)
          = curvature env.p (V out.iterations.length).obj.vars (V out.iterations.length).lambda d := f6 d
      have hc := hcv d
      have hd2 : 0 < ∑ i, d i ^ 2 := by
        obtain ⟨i, hi⟩ := Function.ne_iff.mp hd
        exact Finset.sum_pos' (fun i _ => sq_nonneg _) ⟨i, Finset.mem_univ i, by have : d i ≠ 0 := hi; positivity⟩
      have h7 := mul_pos hμ hd2
      have h8 : curvature env.p (V out.iterations.length).obj.vars prm.minLambda d
          ≤ curvature env.p (V out.iterations.length).obj.vars (V out.iterations.length).lambda d := by
        unfold curvature
        have := mul_le_mul_of_nonneg_right hlam hd2.le
        linarith
      show 0 < ∑ i, ∑ j, d i * qp.G (max i j) (min i j) * d j
      rw [e]
      linarith

/-- `QP_INDEFINITE` needs a point where the damped Gauss-Newton matrix is not positive definite. -/
theorem never_indefinite (env : Env D D ℝ) (hE : NSContract env.NE) (hp : WellPosed env.p D)
    (hi : env.p.ineq = []) (he : env.p.eqs ≠ []) (prm : NLSParams ℝ) (hpen : 0 < prm.equalityPenaltyInitial)
    (x0 : Fin D → ℝ) (o o' : env.Obj) (out : NLSOutputs ℝ)
    (calls : List (NLSIteration ℝ)) (h : solve env prm x0 o = .ok (o', out, calls)) (μ : ℝ)
    (hcv : Curved env.p (Violates env.p (startMerit env.p prm x0)) prm.minLambda μ) : out.termination ≠ .qpIndefinite := by
  refine not_indefinite_at env hE hp prm x0 o o' out calls h μ hcv.pos (hcv.lower _ ?_)
  unfold Violates
  obtain ⟨s1, s2⟩ := C124_violation_sum env hE hp hi he prm hpen x0 o o' out calls h
  have hsum : 0 ≤ (out.iterations.map violationRemoved).sum := List.sum_nonneg fun v hv => by
    obtain ⟨it, hit, rfl⟩ := List.mem_map.mp hv
    exact s1 it hit
  obtain ⟨V, T, W, hv⟩ := solve_view h
  have := mul_nonneg hv.prmOk.equalityPenaltyRho.1 hsum
  linarith

/-- **C125** (number of iterations). In the same situation let `N` be greater than
`10^4 (cost / initial penalty + violation at the start) * max 1 P / (shortestStep * rho * tolerance)`. Then fewer than `N` steps are
accepted before the last iteration; if `R` failures take the damping beyond `max_lambda` there are at most `N (R + 1)` iterations; and
if there are enough line search iterations, there is no failure at all, at most `N` iterations, and the solver ends by one of its
tolerances, by the callback, or by a `max_iterations` of at most `N`. -/
theorem C125_iteration_bound (env : Env D D ℝ) (hE : NSContract env.NE) (hr : env.retraction = none) (hp : WellPosed env.p D)
    (hi : env.p.ineq = []) (he : env.p.eqs ≠ []) (prm : NLSParams ℝ) (hpen : 0 < prm.equalityPenaltyInitial)
    (hrho : 0 < prm.equalityPenaltyRho) (x0 : Fin D → ℝ) (o o' : env.Obj) (out : NLSOutputs ℝ)
    (calls : List (NLSIteration ℝ)) (h : solve env prm x0 o = .ok (o', out, calls)) (Lf Lc μ P : ℝ)
    (hsf : Smooth env.p (Violates env.p (startMerit env.p prm x0)) Lf)
    (hsc : SmoothEqs env.p (Violates env.p (startMerit env.p prm x0)) Lc)
    (hcv : Curved env.p (Violates env.p (startMerit env.p prm x0)) prm.minLambda μ) (hP0 : 0 ≤ P)
    (ht : 1 / 2 ^ 52 * max 1 P ≤ prm.absoluteFirstDerivativeTol) (hP : ∀ it ∈ out.iterations, it.penalty ≤ P) (N : Nat)
    (hN : 10 ^ 4 * startMerit env.p prm x0 * max 1 P
      < N * (shortestStep prm (Lf + P * Lc) (μ / 4) * (prm.equalityPenaltyRho * prm.absoluteFirstDerivativeTol))) :
    (∀ R : Nat, prm.maxLambda < prm.lambdaFailureInit * 10 ^ R → out.iterations.length ≤ N * (R + 1)) ∧
    (stepRatio prm ^ prm.maxLineSearchIterations.toNat ≤ safeStep (Lf + P * Lc) (μ / 4) →
      out.iterations.length ≤ N ∧
      (∀ it ∈ out.iterations, it.stepResult = .success ∨ it.stepResult = .firstOrderSatisfied) ∧
      ((N : Int) < prm.maxIterations → out.termination = .satisfiedAbsoluteTol ∨ out.termination = .satisfiedRelativeTol ∨
        out.termination = .satisfiedFirstOrderTol ∨ out.termination = .userCallback)) := by
  obtain ⟨s1, s2⟩ := scaledSlope_facts env hE hr hp hi he prm hpen hrho x0 o o' out calls h Lf Lc μ P hsf hsc hcv ht hP
  obtain ⟨hpos, -, -⟩ := C125_total_slope env hE hr hp hi he prm hpen hrho x0 o o' out calls h Lf Lc μ P hsf hsc hcv hP0 ht hP
  have htol : 0 < prm.absoluteFirstDerivativeTol :=
    lt_of_lt_of_le (mul_pos (by norm_num) (lt_of_lt_of_le one_pos (le_max_left _ _))) ht
  obtain ⟨V, T, W, hv⟩ := solve_view h
  have hM0 : 0 < max 1 P := lt_of_lt_of_le one_pos (le_max_left _ _)
  have hrt : 0 < prm.equalityPenaltyRho * prm.absoluteFirstDerivativeTol := mul_pos hrho htol
  have hcount : ∀ k, successesBefore out.iterations k < N := by
    intro k
    have h1 := successes_sum_of (its := out.iterations) (m := prm.equalityPenaltyRho * prm.absoluteFirstDerivativeTol / max 1 P)
      scaledSlope (fun it hit => (s1 it hit).2) (fun it hit => (s1 it hit).1) k
    have h2 := mul_le_mul_of_nonneg_left h1 hpos.le
    have h3 := violationAt_nonneg env.p o'.vars
    have h4 : shortestStep prm (Lf + P * Lc) (μ / 4)
        * (successesBefore out.iterations k * (prm.equalityPenaltyRho * prm.absoluteFirstDerivativeTol / max 1 P))
        ≤ 10 ^ 4 * startMerit env.p prm x0 := by linarith
    have h5 := (mul_le_mul_of_nonneg_right h4 hM0.le).trans_lt hN
    have e : shortestStep prm (Lf + P * Lc) (μ / 4)
        * (successesBefore out.iterations k * (prm.equalityPenaltyRho * prm.absoluteFirstDerivativeTol / max 1 P)) * max 1 P
        = successesBefore out.iterations k
          * (shortestStep prm (Lf + P * Lc) (μ / 4) * (prm.equalityPenaltyRho * prm.absoluteFirstDerivativeTol)) := by
      field_simp
    rw [e] at h5
    have h6 := lt_of_mul_lt_mul_right h5 (mul_pos hpos hrt).le
    exact_mod_cast h6
  obtain ⟨hex, -, -⟩ := C38_after env prm x0 o o' out calls h
  have hall3 : ∀ it ∈ out.iterations, it.stepResult = .success ∨ it.stepResult = .firstOrderSatisfied ∨
      (it.stepResult = .maxIterations ∧
        safeStep (Lf + P * Lc) (μ / 4) < stepRatio prm ^ prm.maxLineSearchIterations.toNat) := by
    intro it hit
    obtain ⟨k, hk⟩ := List.mem_iff_getElem?.mp hit
    obtain ⟨a, ha, -⟩ := hex k (lt_of_getElem? hk).le
    have hca := curved_violating env hp prm hpen x0 o o' out calls h μ hcv k it hk a ha
    obtain ⟨-, m2, -, m4, -⟩ := C125_line_search env hE hr hp hi he prm hpen hrho x0 o o' out calls h Lf Lc μ P hsf hsc hcv.pos
      ht k it hk (hP it hit) a ha hca
    rcases m2 with m2 | m2 | m2
    · exact .inl m2
    · exact .inr (.inl m2)
    · exact .inr (.inr ⟨m2, m4 m2⟩)
  refine ⟨fun R hR => count_bound env prm x0 o o' out calls h N R (fun k it _ => hcount k) hR
    (fun it hit hbad => by rcases hall3 it hit with h2 | h2 | h2 <;> simp [hbad] at h2), fun hls => ?_⟩
  have hres : ∀ it ∈ out.iterations, it.stepResult = .success ∨ it.stepResult = .firstOrderSatisfied := by
    intro it hit
    rcases hall3 it hit with h2 | h2 | ⟨-, h2⟩
    · exact .inl h2
    · exact .inr h2
    · linarith
  have hall : ∀ k, k + 1 ≤ out.iterations.length → successesBefore out.iterations k = k := by
    intro k
    induction k with
    | zero => intro _; rfl
    | succ k ih =>
      intro hk
      obtain ⟨it, hit⟩ : ∃ s, out.iterations[k]? = some s := ⟨_, List.getElem?_eq_getElem (by omega)⟩
      rw [successesBefore_succ hit, ih (by omega)]
      rcases hres it (List.mem_of_getElem? hit) with h2 | h2
      · rw [if_pos h2]
      · have hm := (C43_state_machine env prm x0 o o' out calls h).2 k it hit
        rw [h2] at hm
        have hm2 := hm.2
        rw [List.getElem?_eq_getElem (by omega)] at hm2
        simp at hm2
  have hlen : out.iterations.length ≤ N := by
    rcases Nat.eq_zero_or_pos out.iterations.length with h0 | h0
    · omega
    · have h1 := hcount (out.iterations.length - 1)
      rw [hall _ (by omega)] at h1
      omega
  refine ⟨hlen, hres, fun hlim => ?_⟩
  have hterm := C46_termination env prm x0 o o' out calls h
  cases hT : out.termination <;> rw [hT] at hterm <;> simp only at hterm
  case qpIndefinite => exact absurd hT (never_indefinite env hE hp hi he prm hpen x0 o o' out calls h μ hcv)
  all_goals first
    | (simp; done)
    | (exfalso; omega)
    | (exfalso
       obtain ⟨it, hlast, hx⟩ := hterm
       have hr2 := hx.1
       rw [List.getLast?_eq_getElem?] at hlast
       rcases hres it (List.mem_of_getElem? hlast) with h2 | h2 <;> rw [h2] at hr2 <;> simp at hr2)

/-- **C125** (`MAX_LAMBDA`). In the same situation, if `max_lambda` is at least `lambda_failure_init` and `20.0021 (Lf + P Lc)`, the
solver never gives up with `MAX_LAMBDA`, however few line search iterations it has; so if it may make that many iterations it ends
by one of its tolerances or by the callback. -/
theorem C125_no_max_lambda (env : Env D D ℝ) (hE : NSContract env.NE) (hr : env.retraction = none) (hp : WellPosed env.p D)
    (hi : env.p.ineq = []) (he : env.p.eqs ≠ []) (prm : NLSParams ℝ) (hpen : 0 < prm.equalityPenaltyInitial)
    (hrho : 0 < prm.equalityPenaltyRho) (x0 : Fin D → ℝ) (o o' : env.Obj) (out : NLSOutputs ℝ)
    (calls : List (NLSIteration ℝ)) (h : solve env prm x0 o = .ok (o', out, calls)) (Lf Lc μ P : ℝ)
    (hsf : Smooth env.p (Violates env.p (startMerit env.p prm x0)) Lf)
    (hsc : SmoothEqs env.p (Violates env.p (startMerit env.p prm x0)) Lc)
    (hcv : Curved env.p (Violates env.p (startMerit env.p prm x0)) prm.minLambda μ) (hP0 : 0 ≤ P)
    (ht : 1 / 2 ^ 52 * max 1 P ≤ prm.absoluteFirstDerivativeTol) (hP : ∀ it ∈ out.iterations, it.penalty ≤ P)
    (hmax : prm.lambdaFailureInit ≤ prm.maxLambda ∧ 200000 / 9999 * (Lf + P * Lc) ≤ prm.maxLambda) :
    out.termination ≠ .maxLambda ∧
    ∀ N R : Nat, 10 ^ 4 * startMerit env.p prm x0 * max 1 P
        < N * (shortestStep prm (Lf + P * Lc) (μ / 4) * (prm.equalityPenaltyRho * prm.absoluteFirstDerivativeTol)) →
      prm.maxLambda < prm.lambdaFailureInit * 10 ^ R → ((N * (R + 1) : Nat) : Int) < prm.maxIterations →
      out.termination = .satisfiedAbsoluteTol ∨ out.termination = .satisfiedRelativeTol ∨
        out.termination = .satisfiedFirstOrderTol ∨ out.termination = .userCallback := by
  obtain ⟨hex, -, -⟩ := C38_after env prm x0 o o' out calls h
  have hL : 0 < Lf + P * Lc := by
    have := mul_nonneg hP0 hsc.nonneg
    linarith [hsf.pos]
  have hthree : ∀ it ∈ out.iterations,
      it.stepResult = .success ∨ it.stepResult = .firstOrderSatisfied ∨ it.stepResult = .maxIterations := by
    intro it hit
    obtain ⟨k, hk⟩ := List.mem_iff_getElem?.mp hit
    obtain ⟨a, ha, -⟩ := hex k (lt_of_getElem? hk).le
    have hca := curved_violating env hp prm hpen x0 o o' out calls h μ hcv k it hk a ha
    exact (C125_line_search env hE hr hp hi he prm hpen hrho x0 o o' out calls h Lf Lc μ P hsf hsc hcv.pos
      ht k it hk (hP it hit) a ha hca).2.1
  have hraise : ∀ (k : Nat) it, out.iterations[k]? = some it →
      it.stepResult = .maxIterations ∨ it.stepResult = .positiveDerivative → ∀ s,
      raisedLambda prm s it.lambda ≤ max prm.lambdaFailureInit (200000 / 9999 * (Lf + P * Lc)) := by
    intro k it hit hres s
    have hmem := List.mem_of_getElem? hit
    obtain ⟨a, ha, -⟩ := hex k (lt_of_getElem? hit).le
    have hres' : it.stepResult = .maxIterations := by
      rcases hres with hres | hres
      · exact hres
      · have := hthree it hmem; rw [hres] at this; simp at this
    have hlam : 10 * it.lambda ≤ 200000 / 9999 * (Lf + P * Lc) := by
      rcases lt_or_ge 0 it.lambda with hl | hl
      · obtain ⟨m1, -⟩ := C125_line_search env hE hr hp hi he prm hpen hrho x0 o o' out calls h Lf Lc it.lambda P hsf hsc hl
          ht k it hit (hP it hmem) a ha (fun d => by
            unfold curvature
            rw [max_eq_left hl.le]
            have : 0 ≤ (env.p.costs.map fun r => ∑ k, slopeAt r a.vars d k ^ 2).sum := by
              refine List.sum_nonneg fun v hv => ?_
              obtain ⟨r, _, rfl⟩ := List.mem_map.mp hv
              exact Finset.sum_nonneg fun k _ => sq_nonneg _
            linarith)
        obtain ⟨c1, c2, c3, -⟩ := C40_alphas_any env prm x0 o o' out calls h it hmem
        obtain ⟨st0, h0⟩ : ∃ s, it.lineSearchSteps[0]? = some s := ⟨_, List.getElem?_eq_getElem (by omega)⟩
        have h2 := m1 0 st0 h0 (Or.inr hres')
        rw [c3 st0 h0] at h2
        unfold safeStep at h2
        rw [← mul_div_assoc, div_lt_iff₀ hL] at h2
        linarith
      · linarith
    have e : it.lambda * 10 = 10 * it.lambda := mul_comm _ _
    cases s
    · simp only [raisedLambda, real_cmax, real_lit]
      push_cast
      rw [e]
      exact max_le_max_left _ hlam
    · simp only [raisedLambda, real_lit]
      push_cast
      rw [e]
      exact hlam.trans (le_max_right _ _)
  have hml : out.termination ≠ .maxLambda := by
    intro hT
    have hterm := C46_termination env prm x0 o o' out calls h
    rw [hT] at hterm
    obtain ⟨it, hlast, hres, -, hgt⟩ := hterm
    rw [List.getLast?_eq_getElem?] at hlast
    have := hraise _ it hlast hres (stateBefore out.iterations (out.iterations.length - 1))
    have := max_le hmax.1 hmax.2
    linarith
  refine ⟨hml, fun N R hN hR hlim => ?_⟩
  have hlen := (C125_iteration_bound env hE hr hp hi he prm hpen hrho x0 o o' out calls h Lf Lc μ P hsf hsc hcv hP0 ht hP N hN).1 R hR
  have hni := never_indefinite env hE hp hi he prm hpen x0 o o' out calls h μ hcv
  have hterm := C46_termination env prm x0 o o' out calls h
  cases hT : out.termination <;> rw [hT] at hterm <;> simp only at hterm
  all_goals first
    | (simp; done)
    | exact absurd hT hml
    | exact absurd hT hni
    | (exfalso; omega)
    | (exfalso
       obtain ⟨it, hlast, hx⟩ := hterm
       have hr2 := hx.1
       rw [List.getLast?_eq_getElem?] at hlast
       rcases hthree it (List.mem_of_getElem? hlast) with h2 | h2 | h2 <;> rw [h2] at hr2 <;> simp at hr2)

/-- **C125** (put together). A problem with equality constraints only whose cost and constraints are smooth, whose damped
Gauss-Newton matrix is at least `μ` and whose constraints are qualified as in C124 - all where the constraints are violated by at
most the starting merit. With enough line search iterations, every solve by every solver object, null-space solver meeting its
contract and callback makes at most `N` iterations, each of which is accepted or meets the first-order test; and unless
`max_iterations ≤ N` or the callback stops it, it ends by one of its tolerances - never `MAX_ITERATIONS`, `MAX_LAMBDA`,
`QP_INDEFINITE` or a failure. -/
theorem C125_converges (p : Problem D ℝ) (hp : WellPosed p D) (hi : p.ineq = []) (he : p.eqs ≠ [])
    (prm : NLSParams ℝ) (hpen : 0 < prm.equalityPenaltyInitial) (hrho : 0 < prm.equalityPenaltyRho) (x0 : Fin D → ℝ)
    (L κ Lf Lc μ P : ℝ) (hq : Qualified p D L κ (startMerit p prm x0))
    (hsf : Smooth p (Violates p (startMerit p prm x0)) Lf) (hsc : SmoothEqs p (Violates p (startMerit p prm x0)) Lc)
    (hcv : Curved p (Violates p (startMerit p prm x0)) prm.minLambda μ)
    (hP : P = max prm.equalityPenaltyInitial (penaltyBound prm L κ (startMerit p prm x0)))
    (ht : 1 / 2 ^ 52 * max 1 P ≤ prm.absoluteFirstDerivativeTol)
    (hls : stepRatio prm ^ prm.maxLineSearchIterations.toNat ≤ safeStep (Lf + P * Lc) (μ / 4)) (N : Nat)
    (hN : 10 ^ 4 * startMerit p prm x0 * max 1 P
      < N * (shortestStep prm (Lf + P * Lc) (μ / 4) * (prm.equalityPenaltyRho * prm.absoluteFirstDerivativeTol))) :
    ∀ env : Env D D ℝ, env.p = p → env.retraction = none → NSContract env.NE → ∀ (limit : Int) (o o' : env.Obj)
      (out : NLSOutputs ℝ) (calls : List (NLSIteration ℝ)),
      solve env { prm with maxIterations := limit } x0 o = .ok (o', out, calls) →
      out.iterations.length ≤ N ∧
      (∀ it ∈ out.iterations, it.stepResult = .success ∨ it.stepResult = .firstOrderSatisfied) ∧
      ((N : Int) < limit → out.termination = .satisfiedAbsoluteTol ∨ out.termination = .satisfiedRelativeTol ∨
        out.termination = .satisfiedFirstOrderTol ∨ out.termination = .userCallback) := by
  rintro env rfl hr hE limit o o' out calls h
  have hb := C124_penalty_bounded env hE hp hi he { prm with maxIterations := limit } hpen x0 L κ hq o o' out calls h
  exact (C125_iteration_bound env hE hr hp hi he { prm with maxIterations := limit } hpen hrho x0 o o' out calls h Lf Lc μ P hsf
    hsc hcv (by rw [hP]; exact hpen.le.trans (le_max_left _ _)) ht (fun it hit => by rw [hP]; exact (hb it hit).1) N hN).2 hls

end MiniOpt.Props
