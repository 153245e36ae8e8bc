import Verif.Lemmas.SmallResidual
import Verif.Spec.SmallResidualSpec
import Verif.Props.QuadraticConvergence

/-!
# C127: linear convergence near a stationary point with small residual
-/

set_option autoImplicit false

namespace MiniOpt.Props

open MiniOpt.Spec MiniOpt.NLS MiniOpt.GN

variable {D : Nat}

theorem stack_inner (p : Problem D ℝ) (f g : (r : Residual ℝ) → Fin r.dim → ℝ) :
    inner ℝ (stack p f) (stack p g) = (p.costs.map fun r => ∑ k, f r k * g r k).sum := by
  rw [PiLp.inner_apply, Fintype.sum_sigma]
  simp only [stack]
  rw [← Fin.sum_univ_fun_getElem p.costs (fun r => ∑ k, f r k * g r k)]
  refine Finset.sum_congr rfl fun i _ => Finset.sum_congr rfl fun k _ => ?_
  exact mul_comm _ _

section facts

variable {p : Problem D ℝ} {xs : Fin D → ℝ} {ρ σ L B θ : ℝ}

theorem sr_model (S : SmallResidual p xs ρ σ L B θ) {x y : Fin D → ℝ} (hx : dist2 x xs ≤ ρ) (hy : dist2 y xs ≤ ρ) :
    ‖stack p (fun r => valueAt r y) - stack p (fun r => valueAt r x) - jac p x (vec fun i => y i - x i)‖
      ≤ L / 2 * dist2 x y ^ 2 := by
  refine sqrt_le (norm_nonneg _) (mul_nonneg (by linarith [S.nonneg]) (sq_nonneg _)) ?_
  rw [jac_vec, stack_sub, stack_sub, stack_norm]
  exact S.model x y hx hy

theorem sr_stretch (S : SmallResidual p xs ρ σ L B θ) {x : Fin D → ℝ} (hx : dist2 x xs ≤ ρ)
    (d : EuclideanSpace ℝ (Fin D)) : σ * ‖d‖ ≤ ‖jac p x d‖ := by
  refine sqrt_le (mul_nonneg S.pos.le (norm_nonneg _)) (norm_nonneg _) ?_
  have h1 := S.stretch x hx d.ofLp
  rw [← stack_norm, ← vec_norm] at h1
  rw [mul_pow]
  exact h1

theorem sr_rate (S : SmallResidual p xs ρ σ L B θ) {x : Fin D → ℝ} (hx : dist2 x xs ≤ ρ)
    (d : EuclideanSpace ℝ (Fin D)) : ‖jac p x d‖ ≤ B * ‖d‖ := by
  refine sqrt_le (norm_nonneg _) (mul_nonneg S.nonnegB (norm_nonneg _)) ?_
  have h1 := S.rate x hx d.ofLp
  rw [← stack_norm, ← vec_norm] at h1
  rw [mul_pow]
  exact h1

theorem sr_lipschitz (S : SmallResidual p xs ρ σ L B θ) {x : Fin D → ℝ} (hx : dist2 x xs ≤ ρ)
    (d : EuclideanSpace ℝ (Fin D)) : ‖jac p x d - jac p xs d‖ ≤ L * dist2 x xs * ‖d‖ := by
  refine sqrt_le (norm_nonneg _) (mul_nonneg (mul_nonneg S.nonneg (dist2_nonneg _ _)) (norm_nonneg _)) ?_
  have h1 := S.lipschitz x hx d.ofLp
  rw [← stack_norm p (fun r k => slopeAt r x d.ofLp k - slopeAt r xs d.ofLp k), ← vec_norm] at h1
  rw [mul_pow]
  exact h1

theorem sr_stationary (S : SmallResidual p xs ρ σ L B θ) (d : EuclideanSpace ℝ (Fin D)) :
    inner ℝ (stack p fun r => valueAt r xs) (jac p xs d) = 0 := by
  have h1 := S.stationary d.ofLp
  unfold costSlope at h1
  rw [← stack_inner p (fun r => valueAt r xs) (fun r => slopeAt r xs d.ofLp)] at h1
  exact h1

theorem sr_residual (S : SmallResidual p xs ρ σ L B θ) : L * ‖stack p fun r => valueAt r xs‖ ≤ θ * σ ^ 2 := by
  have h1 := S.residual
  rw [cost_norm, show 2 * (1 / 2 * ‖stack p fun r => valueAt r xs‖ ^ 2) = ‖stack p fun r => valueAt r xs‖ ^ 2 by ring,
    Real.sqrt_sq (norm_nonneg _)] at h1
  exact h1

/-- The cost grows quadratically around the solution. -/
theorem sr_growth (S : SmallResidual p xs ρ σ L B θ) (hθ : θ ≤ 1 / 2) {x : Fin D → ℝ} (hx : dist2 x xs ≤ ρ) :
    costAt p xs + σ ^ 2 / 32 * dist2 x xs ^ 2 ≤ costAt p x := by
  have hxs : dist2 xs xs ≤ ρ := by rw [dist2_self]; exact S.radius
  have h1 := sr_model S hxs hx
  set r0 := stack p (fun r => valueAt r xs) with hr0
  set r := stack p (fun r => valueAt r x) with hr
  set e := vec (fun i => x i - xs i) with he
  have hd : dist2 xs x = ‖e‖ := by rw [dist2_comm, dist2_vec]
  have hd' : dist2 x xs = ‖e‖ := dist2_vec _ _
  rw [hd] at h1
  set m := r - r0 - jac p xs e with hm
  have hdec : r = r0 + (jac p xs e + m) := by rw [hm]; abel
  have h2 := sr_stretch S hxs e
  have h3 := sr_stationary S e
  rw [← hr0] at h3
  have h4 := sr_residual S
  rw [← hr0] at h4
  rw [hd'] at hx
  have he0 := norm_nonneg e
  have h5 : L / 2 * ‖e‖ ^ 2 ≤ σ / 4 * ‖e‖ := by
    have h6 := mul_le_mul_of_nonneg_left hx S.nonneg
    have h7 : L * ‖e‖ ≤ σ / 2 := by linarith [S.small]
    have := mul_le_mul_of_nonneg_right h7 he0
    linarith
  have h6 : 3 / 4 * σ * ‖e‖ ≤ ‖jac p xs e + m‖ := by
    have h7 := norm_sub_le (jac p xs e + m) m
    rw [add_sub_cancel_right] at h7
    linarith
  have h7 := pow_le_pow_left₀ (mul_nonneg (by linarith [S.pos]) he0) h6 2
  have h8 : -(inner ℝ r0 m) ≤ 1 / 4 * (σ ^ 2 * ‖e‖ ^ 2) := by
    have h9 := (neg_le_abs _).trans (abs_real_inner_le_norm r0 m)
    have h10 := mul_le_mul_of_nonneg_left h1 (norm_nonneg r0)
    have h11 := mul_le_mul_of_nonneg_right h4 (sq_nonneg ‖e‖)
    have h12 : θ * σ ^ 2 * ‖e‖ ^ 2 ≤ 1 / 2 * σ ^ 2 * ‖e‖ ^ 2 :=
      mul_le_mul_of_nonneg_right (mul_le_mul_of_nonneg_right hθ (sq_nonneg _)) (sq_nonneg _)
    linarith
  rw [cost_norm, cost_norm, ← hr0, ← hr, hdec, norm_add_sq_real, inner_add_right, h3, hd']
  have e1 : (3 / 4 * σ * ‖e‖) ^ 2 = 9 / 16 * (σ ^ 2 * ‖e‖ ^ 2) := by ring
  have e2 : σ ^ 2 / 32 * ‖e‖ ^ 2 = 1 / 32 * (σ ^ 2 * ‖e‖ ^ 2) := by ring
  rw [e1] at h7
  rw [e2]
  linarith

end facts

/-- One iteration near the solution. -/
theorem sr_iteration (env : Env D D ℝ) (hE : LDLTContract env.E) (hr : env.retraction = none) (hp : WellPosed env.p D)
    (hi : env.p.ineq = []) (he : env.p.eqs = []) {xs : Fin D → ℝ} {ρ σ L B θ : ℝ} (S : SmallResidual env.p xs ρ σ L B θ)
    (hθ : θ ≤ 1 / 2) (prm : NLSParams ℝ) (x0 : Fin D → ℝ) (o o' : env.Obj) (out : NLSOutputs ℝ)
    (calls : List (NLSIteration ℝ)) (h : solve env prm x0 o = .ok (o', out, calls)) (k : Nat) (it : NLSIteration ℝ)
    (hit : out.iterations[k]? = some it) (hlam : it.lambda ≤ 0)
    (a b : env.Obj) (ha : After env prm x0 o k a) (hb : After env prm x0 o (k + 1) b) (hin : dist2 a.vars xs ≤ ρ) :
    (∃ st, it.lineSearchSteps = [st] ∧ st.alpha = 1 ∧ st.errors.equality = 0 ∧
      it.errorsInitial.f = costAt env.p a.vars ∧
      (it.stepResult = .success → st.errors.f = costAt env.p b.vars)) ∧
    it.errorsInitial.equality = 0 ∧
    it.directionalDerivatives.lInfinity ≤ (B * (7 / 4 * dist2 a.vars xs)) ^ 2 ∧
    ((it.stepResult = .success ∧ ¬ it.directionalDerivatives.lInfinity < prm.absoluteFirstDerivativeTol ∧
        dist2 b.vars xs ≤ θ * dist2 a.vars xs + L / (2 * σ) * dist2 a.vars xs ^ 2 ∧
        dist2 b.vars xs ≤ 3 / 4 * dist2 a.vars xs ∧
        (σ * dist2 b.vars xs) ^ 2 ≤ 100 * (costAt env.p a.vars - costAt env.p b.vars)) ∨
      (it.stepResult = .firstOrderSatisfied ∧ b.vars = a.vars ∧
        (σ * dist2 a.vars xs) ^ 2 ≤ 16 * prm.absoluteFirstDerivativeTol)) := by
  have hpd : 0 < it.lambda ∨ ∀ dx : Fin D → ℝ, (∀ r ∈ env.p.costs, ∀ k, slopeAt r a.vars dx k = 0) → dx = 0 := by
    right
    intro dx hz
    have h1 := S.stretch a.vars hin dx
    have h0 : (env.p.costs.map fun r => ∑ k, slopeAt r a.vars dx k ^ 2).sum = 0 := by
      refine List.sum_eq_zero ?_
      intro v hv
      obtain ⟨r, hr, rfl⟩ := List.mem_map.mp hv
      exact Finset.sum_eq_zero fun k _ => by rw [hz r hr k]; ring
    rw [h0] at h1
    have h2 : ∑ i, dx i ^ 2 ≤ 0 := by
      by_contra hn
      have := mul_pos (pow_pos S.pos 2) (not_le.mp hn)
      linarith
    have h3 := (Finset.sum_eq_zero_iff_of_nonneg (fun i _ => sq_nonneg (dx i))).mp
      (le_antisymm h2 (Finset.sum_nonneg fun i _ => sq_nonneg (dx i)))
    funext i
    exact pow_eq_zero_iff (two_ne_zero) |>.mp (h3 i (Finset.mem_univ i))
  obtain ⟨hmin, hder, -, -, -⟩ := C67_levenberg_marquardt env hE hp hi he prm x0 o o' out calls h k it hit a b ha hb hpd
  have hmax : max it.lambda 0 = 0 := max_eq_right hlam
  set r := stack env.p (fun r => valueAt r a.vars) with hrdef
  set J := jac env.p a.vars with hJ
  set d := vec (fun i => a.vars i - xs i) with hd
  have hmodel : ∀ dx : Fin D → ℝ, dampedModel env.p a.vars it.lambda dx = 1 / 2 * ‖r + J (vec dx)‖ ^ 2 := by
    intro dx
    rw [hrdef, hJ, jac_vec, stack_add, stack_norm]
    unfold dampedModel
    rw [hmax, List.sum_map_mul_left]
    simp only [zero_div, zero_mul, add_zero]
    rfl
  have hnormal : ∀ w, inner ℝ (r + J (vec b.dx)) (J w) = 0 := by
    apply normal
    intro w
    have e : w = vec w.ofLp := rfl
    by_cases hw : w.ofLp = b.dx
    · rw [e, hw]
    · have := hmin w.ofLp hw
      rw [hmodel, hmodel, ← e] at this
      linarith
  have hxs : dist2 xs xs ≤ ρ := by rw [dist2_self]; exact S.radius
  have hda : ‖d‖ = dist2 a.vars xs := (dist2_vec _ _).symm
  have hL2 : 0 ≤ L / 2 := by linarith [S.nonneg]
  have b1 : ‖stack env.p (fun r => valueAt r xs) - r + J d‖ ≤ L / 2 * ‖d‖ ^ 2 := by
    have h1 := sr_model S hin hxs
    have e : vec (fun i => xs i - a.vars i) = - d := by
      ext i; simp [vec, hd]
    rw [e, map_neg, sub_neg_eq_add, ← hda] at h1
    exact h1
  have b2 : L * ‖d‖ ≤ σ / 2 := by
    rw [hda]
    exact (mul_le_mul_of_nonneg_left hin S.nonneg).trans S.small
  have b3 : ∀ w, ‖J w - jac env.p xs w‖ ≤ L * ‖d‖ * ‖w‖ := by
    intro w; rw [hda]; exact sr_lipschitz S hin w
  obtain ⟨-, p2, -⟩ := small_step (r' := r + J (vec b.dx)) S.pos S.nonneg hθ (sr_residual S) b2 (sr_stationary S) hnormal
    (sr_stretch S hin) b3 b1 (by
    rw [show r + J (vec b.dx) - r - J (vec b.dx) = 0 by abel, norm_zero]
    exact mul_nonneg hL2 (sq_nonneg _))
  have hplus : dist2 (fun i => a.vars i + b.dx i) xs = ‖d + vec b.dx‖ := by
    rw [dist2_vec]; congr 1; ext i; simp [vec, hd]; ring
  have hin' : dist2 (fun i => a.vars i + b.dx i) xs ≤ ρ := by
    rw [hplus]
    refine le_trans p2 ?_
    rw [hda]
    have := dist2_nonneg a.vars xs
    linarith
  have hmv := sr_model S hin hin'
  have e1 : (vec fun i => a.vars i + b.dx i - a.vars i) = vec b.dx := by ext i; simp [vec]
  have e2 : dist2 a.vars (fun i => a.vars i + b.dx i) = ‖vec b.dx‖ := by
    rw [dist2_comm, dist2_vec, e1]
  rw [e1, e2] at hmv
  obtain ⟨q1, q2, q3⟩ := small_step (r' := stack env.p (fun r => valueAt r fun i => a.vars i + b.dx i)) S.pos S.nonneg hθ
    (sr_residual S) b2 (sr_stationary S) hnormal (sr_stretch S hin) b3 b1 hmv
  have hca := cost_norm env.p a.vars
  have hcb := cost_norm env.p (fun i => a.vars i + b.dx i)
  rw [← hrdef] at hca
  have hdF : it.directionalDerivatives.dF = - ‖J (vec b.dx)‖ ^ 2 := by
    have := hder 0
    rw [hmax, ← stack_norm env.p (fun r => slopeAt r a.vars b.dx), ← jac_vec] at this
    simpa [DirectionalDerivatives.total] using this
  have hdE : it.directionalDerivatives.dEquality = 0 := by
    have h0 := hder 0
    have h1 := hder 1
    rw [← h0] at h1
    simpa [DirectionalDerivatives.total] using h1
  have hlinf : it.directionalDerivatives.lInfinity = ‖J (vec b.dx)‖ ^ 2 := by
    unfold DirectionalDerivatives.lInfinity
    rw [hdE, hdF]
    simp only [real_cmax, real_abs, abs_zero, abs_neg]
    rw [abs_of_nonneg (sq_nonneg _), max_eq_left (sq_nonneg _)]
  obtain ⟨⟨st, hst, hal, herr⟩, hpre, hcase⟩ := full_step env hr hp he prm x0 o o' out calls h k it hit a b ha hb
    (by rw [hdF]; exact neg_nonpos.mpr (sq_nonneg _)) (by
      rw [hca, hcb, hdF]
      have := sq_nonneg ‖J (vec b.dx)‖
      linarith)
  have hviol : ∀ x : Fin D → ℝ, violationAt env.p x = 0 := by
    intro x; unfold violationAt; rw [he]; rfl
  have hs4 : ‖d‖ ≤ 4 * ‖vec b.dx‖ := by
    have := norm_sub_le (d + vec b.dx) (vec b.dx)
    rw [add_sub_cancel_right] at this
    linarith
  have hs7 : ‖vec b.dx‖ ≤ 7 / 4 * ‖d‖ := by
    have := norm_sub_le (d + vec b.dx) d
    rw [add_sub_cancel_left] at this
    linarith
  have hJd := sr_stretch S hin (vec b.dx)
  have hJd2 := pow_le_pow_left₀ (mul_nonneg S.pos.le (norm_nonneg _)) hJd 2
  refine ⟨⟨st, hst, hal, by rw [herr]; exact hviol _, by rw [hpre]; rfl, ?_⟩, by rw [hpre]; exact hviol _, ?_, ?_⟩
  · intro hs
    rcases hcase with ⟨_, hbv⟩ | ⟨hf, _⟩
    · rw [herr, hbv]; rfl
    · rw [hs] at hf; cases hf
  · rw [hlinf, ← hda]
    refine pow_le_pow_left₀ (norm_nonneg _) ((sr_rate S hin _).trans ?_) 2
    exact mul_le_mul_of_nonneg_left hs7 S.nonnegB
  · have hsig := S.pos.le
    rcases hcase with ⟨hs, hbv⟩ | ⟨hs, hbv, hlt⟩
    · left
      refine ⟨hs, ?_, ?_, ?_, ?_⟩
      · obtain ⟨-, hsucc⟩ := C40_only_last_accepted env prm x0 o o' out calls h it (List.mem_of_getElem? hit)
        obtain ⟨_, _, _, hn, _⟩ := hsucc.mp hs
        exact hn
      · rw [hbv, hplus, ← hda]; exact q1
      · rw [hbv, hplus, ← hda]; exact q2
      · rw [hbv, hca, hcb, hplus]
        have h3 : σ * ‖d + vec b.dx‖ ≤ 3 * (σ * ‖vec b.dx‖) := by
          have := mul_le_mul_of_nonneg_left (show ‖d + vec b.dx‖ ≤ 3 * ‖vec b.dx‖ by linarith) hsig
          linarith
        have h4 := pow_le_pow_left₀ (mul_nonneg hsig (norm_nonneg _)) h3 2
        rw [mul_pow 3] at h4
        linarith
    · right
      refine ⟨hs, hbv, ?_⟩
      rw [hdF, abs_neg, abs_of_nonneg (sq_nonneg _)] at hlt
      rw [← hda]
      have h3 : σ * ‖d‖ ≤ 4 * (σ * ‖vec b.dx‖) := by
        have := mul_le_mul_of_nonneg_left hs4 hsig
        linarith
      have h4 := pow_le_pow_left₀ (mul_nonneg hsig (norm_nonneg _)) h3 2
      rw [mul_pow 4] at h4
      linarith

/-- Everything that is invariant along a run that starts near the solution. -/
theorem sr_run (env : Env D D ℝ) (hE : LDLTContract env.E) (hr : env.retraction = none) (hp : WellPosed env.p D)
    (hi : env.p.ineq = []) (he : env.p.eqs = []) {xs : Fin D → ℝ} {ρ σ L B θ : ℝ} (S : SmallResidual env.p xs ρ σ L B θ)
    (hθ : θ ≤ 1 / 2) (prm : NLSParams ℝ) (hlam : prm.lambdaInitial ≤ 0) (x0 : Fin D → ℝ) (hx0 : dist2 x0 xs ≤ ρ)
    (o o' : env.Obj) (out : NLSOutputs ℝ) (calls : List (NLSIteration ℝ))
    (h : solve env prm x0 o = .ok (o', out, calls)) :
    ∀ k, k ≤ out.iterations.length →
      (∀ it, out.iterations[k]? = some it → it.lambda ≤ 0) ∧
      (∀ ob, After env prm x0 o k ob → dist2 ob.vars xs ≤ ρ ∧ costAt env.p ob.vars ≤ costAt env.p x0 ∧
        ((k < out.iterations.length ∨ out.termination ≠ .satisfiedFirstOrderTol) →
          dist2 ob.vars xs ≤ (3 / 4) ^ k * dist2 x0 xs)) := by
  obtain ⟨hex, hfirst, hlast⟩ := C38_after env prm x0 o o' out calls h
  obtain ⟨hl0, hlk⟩ := C43_state_machine env prm x0 o o' out calls h
  have hleg := C87_solve env prm x0 o o' out calls h
  obtain ⟨Q, T, W, hv⟩ := solve_view h
  have hv' := hv.prmOk
  have hmlam : prm.minLambda ≤ 0 := le_trans hv'.lambdaInitial.1 hlam
  intro k
  induction k with
  | zero =>
    intro _
    refine ⟨fun it hit => by rw [hl0 it hit]; exact hlam, fun ob hob => ?_⟩
    rw [hfirst ob hob]
    exact ⟨hx0, le_rfl, fun _ => by simp⟩
  | succ k ih =>
    intro hk
    obtain ⟨ih1, ih2⟩ := ih (by omega)
    obtain ⟨it, hit⟩ : ∃ it, out.iterations[k]? = some it := ⟨_, List.getElem?_eq_getElem (by omega)⟩
    obtain ⟨a, ha, _⟩ := hex k (by omega)
    obtain ⟨b, hb, hbu⟩ := hex (k + 1) (by omega)
    obtain ⟨hin, hcost, hrate⟩ := ih2 a ha
    obtain ⟨-, -, -, hcase⟩ := sr_iteration env hE hr hp hi he S hθ prm x0 o o' out calls h k it hit (ih1 it hit) a b ha hb hin
    constructor
    · intro it' hit'
      have hs' := hlk k it hit
      rcases hcase with ⟨hs, -⟩ | ⟨hs, -⟩
      · rw [hs] at hs'
        rw [hs'.2 it'.lambda (by rw [hit']; rfl)]
        simp only [real_cmax]
        refine max_le (mul_nonpos_of_nonpos_of_nonneg (ih1 it hit) ?_) hmlam
        split
        · exact hv'.lambdaDecreaseOnSuccess.1
        · exact hv'.lambdaDecreaseOnRestore.1
      · rw [hs] at hs'
        rw [hit'] at hs'
        cases hs'.2
    · intro ob hob
      have e : ob = b := hbu ob hob
      rw [e]
      rcases hcase with ⟨hs, -, -, hq, hdec⟩ | ⟨hs, hbv, -⟩
      · refine ⟨by have := dist2_nonneg a.vars xs; linarith, ?_, fun _ => ?_⟩
        · have := sq_nonneg (σ * dist2 b.vars xs)
          linarith
        · have := hrate (.inl (by omega))
          rw [pow_succ]
          linarith
      · rw [hbv]
        refine ⟨hin, hcost, ?_⟩
        obtain ⟨h1, h2⟩ := legal_stops hleg k it .satisfiedFirstOrderTol hit (fun l => hs)
        rintro (hlt | hne)
        · omega
        · exact absurd h2 hne

/-- **C127.** Costs only, no damping, and a start near a stationary point of the cost where the residual is small compared with the
curvature (`θ ≤ 1/2`): every iteration tries the full step and nothing else, and accepts it unless the derivative is below the
tolerance, which ends the run; the distance to the solution after an accepted step is at most `θ` times the distance before,
plus a quadratic term; so the distance after `k` steps is at most `(3/4)^k` times the distance at the start. -/
theorem C127_linear (env : Env D D ℝ) (hE : LDLTContract env.E) (hr : env.retraction = none) (hp : WellPosed env.p D)
    (hi : env.p.ineq = []) (he : env.p.eqs = []) (xs : Fin D → ℝ) (ρ σ L B θ : ℝ) (S : SmallResidual env.p xs ρ σ L B θ)
    (hθ : θ ≤ 1 / 2) (prm : NLSParams ℝ) (hlam : prm.lambdaInitial ≤ 0) (x0 : Fin D → ℝ) (hx0 : dist2 x0 xs ≤ ρ)
    (o o' : env.Obj) (out : NLSOutputs ℝ) (calls : List (NLSIteration ℝ))
    (h : solve env prm x0 o = .ok (o', out, calls)) :
    (∀ it ∈ out.iterations, ∃ st, it.lineSearchSteps = [st] ∧ st.alpha = 1) ∧
    (∀ (k : Nat) it a b, out.iterations[k]? = some it → After env prm x0 o k a → After env prm x0 o (k + 1) b →
      (it.stepResult = .success ∧
        dist2 b.vars xs ≤ θ * dist2 a.vars xs + L / (2 * σ) * dist2 a.vars xs ^ 2 ∧
        costAt env.p b.vars ≤ costAt env.p a.vars) ∨
      (it.stepResult = .firstOrderSatisfied ∧ k + 1 = out.iterations.length ∧ b.vars = a.vars)) ∧
    (∀ k, k < out.iterations.length → ∀ a, After env prm x0 o k a → dist2 a.vars xs ≤ (3 / 4) ^ k * dist2 x0 xs) ∧
    (out.termination ≠ .satisfiedFirstOrderTol →
      dist2 o'.vars xs ≤ (3 / 4) ^ out.iterations.length * dist2 x0 xs) := by
  have hrun := sr_run env hE hr hp hi he S hθ prm hlam x0 hx0 o o' out calls h
  obtain ⟨hex, hfirst, hlast⟩ := C38_after env prm x0 o o' out calls h
  have hleg := C87_solve env prm x0 o o' out calls h
  refine ⟨?_, ?_, ?_, ?_⟩
  · intro it hm
    obtain ⟨k, hk, hget⟩ := List.getElem_of_mem hm
    have hit : out.iterations[k]? = some it := by rw [List.getElem?_eq_getElem hk, hget]
    obtain ⟨a, ha, _⟩ := hex k (by omega)
    obtain ⟨b, hb, _⟩ := hex (k + 1) (by omega)
    obtain ⟨h1, h2⟩ := hrun k (by omega)
    obtain ⟨⟨st, hs1, hs2, -⟩, -⟩ := sr_iteration env hE hr hp hi he S hθ prm x0 o o' out calls h k it hit (h1 it hit) a b ha
      hb (h2 a ha).1
    exact ⟨st, hs1, hs2⟩
  · intro k it a b hit ha hb
    have hk := lt_of_getElem? hit
    obtain ⟨h1, h2⟩ := hrun k (by omega)
    obtain ⟨-, -, -, hcase⟩ := sr_iteration env hE hr hp hi he S hθ prm x0 o o' out calls h k it hit (h1 it hit) a b ha
      hb (h2 a ha).1
    rcases hcase with ⟨hs, -, hq, -, hdec⟩ | ⟨hs, hbv, -⟩
    · exact .inl ⟨hs, hq, by have := sq_nonneg (σ * dist2 b.vars xs); linarith⟩
    · exact .inr ⟨hs, (legal_stops hleg k it .satisfiedFirstOrderTol hit (fun l => hs)).1, hbv⟩
  · intro k hk a ha
    exact ((hrun k (by omega)).2 a ha).2.2 (.inl hk)
  · intro hne
    obtain ⟨e, hea, _⟩ := hex _ le_rfl
    rw [← hlast e hea]
    exact ((hrun _ le_rfl).2 e hea).2.2 (.inr hne)

/-- **C127** (the result). The stationary point is the only minimum of the cost near it; such a run ends for one of five
reasons, and if it is a tolerance the result is as close to that point as the tolerance says. -/
theorem C127_result (env : Env D D ℝ) (hE : LDLTContract env.E) (hr : env.retraction = none) (hp : WellPosed env.p D)
    (hi : env.p.ineq = []) (he : env.p.eqs = []) (xs : Fin D → ℝ) (ρ σ L B θ : ℝ) (S : SmallResidual env.p xs ρ σ L B θ)
    (hθ : θ ≤ 1 / 2) (prm : NLSParams ℝ) (hlam : prm.lambdaInitial ≤ 0) (x0 : Fin D → ℝ) (hx0 : dist2 x0 xs ≤ ρ)
    (o o' : env.Obj) (out : NLSOutputs ℝ) (calls : List (NLSIteration ℝ))
    (h : solve env prm x0 o = .ok (o', out, calls)) :
    (∀ x, dist2 x xs ≤ ρ → costAt env.p xs + σ ^ 2 / 32 * dist2 x xs ^ 2 ≤ costAt env.p x) ∧
    match out.termination with
    | .satisfiedAbsoluteTol => (σ * dist2 o'.vars xs) ^ 2 ≤ 32 * (prm.absoluteExitTol - costAt env.p xs)
    | .satisfiedRelativeTol => (σ * dist2 o'.vars xs) ^ 2 ≤ 100 * prm.relativeExitTol * costAt env.p x0
    | .satisfiedFirstOrderTol => (σ * dist2 o'.vars xs) ^ 2 ≤ 16 * prm.absoluteFirstDerivativeTol
    | .maxIterations => (out.iterations.length : Int) = prm.maxIterations
    | .userCallback => env.callback ≠ none
    | _ => False := by
  refine ⟨fun x hx => sr_growth S hθ hx, ?_⟩
  have hrun := sr_run env hE hr hp hi he S hθ prm hlam x0 hx0 o o' out calls h
  obtain ⟨hex, hfirst, hlast⟩ := C38_after env prm x0 o o' out calls h
  have hleg := C87_solve env prm x0 o o' out calls h
  rcases legal_end hleg with ht | ⟨ht, hset⟩ | ⟨ht, hset⟩ | ⟨it, l, hit, hstop⟩
  · rw [ht]
    have := (legal_counts hleg).2.1 ht
    simpa using this
  · exact absurd he hset
  · rw [ht]; exact hset
  · have hk := lt_of_getElem? hit
    obtain ⟨a, ha, _⟩ := hex (out.iterations.length - 1) (by omega)
    obtain ⟨b, hb, _⟩ := hex (out.iterations.length - 1 + 1) (by omega)
    obtain ⟨h1, h2⟩ := hrun (out.iterations.length - 1) (by omega)
    obtain ⟨⟨st, hs1, hs2, hs3, hs4, hs5⟩, hi1, hi2, hcase⟩ := sr_iteration env hE hr hp hi he S hθ prm x0 o o' out calls h
      _ it hit (h1 it hit) a b ha hb (h2 a ha).1
    have hcost := (h2 a ha).2.1
    rw [show out.iterations.length - 1 + 1 = out.iterations.length by omega] at hb
    have hb' : b.vars = o'.vars := hlast b hb
    have hbin := ((hrun _ le_rfl).2 b hb).1
    have hlst : it.lineSearchSteps.getLast? = some st := by rw [hs1]; rfl
    cases ht : out.termination with
    | satisfiedAbsoluteTol =>
      rw [ht] at hstop
      obtain ⟨hs, last, hl, hlt⟩ := hstop
      rw [hlst] at hl
      cases hl
      have h4 : st.errors.f < prm.absoluteExitTol := by
        unfold Errors.lInfinity at hlt
        simp only [real_cmax] at hlt
        exact lt_of_le_of_lt (le_max_left _ _) hlt
      rw [hs5 hs] at h4
      have h5 := sr_growth S hθ hbin
      rw [← hb']
      show _ ≤ _
      rw [mul_pow]
      linarith
    | satisfiedRelativeTol =>
      rw [ht] at hstop
      obtain ⟨hs, last, hl, _, hgt⟩ := hstop
      rw [hlst] at hl
      cases hl
      unfold Errors.total at hgt
      rw [hs3, hi1, hs4, hs5 hs] at hgt
      simp only [mul_zero, add_zero] at hgt
      rcases hcase with ⟨_, -, -, -, hdec⟩ | ⟨hf, -⟩
      · rw [← hb']
        show _ ≤ _
        obtain ⟨Q, T, W, hv⟩ := solve_view h
        have htol : 0 ≤ prm.relativeExitTol := hv.prmOk.relativeExitTol.1
        have h6 := mul_le_mul_of_nonneg_left hcost htol
        linarith
      · rw [hs] at hf; cases hf
    | satisfiedFirstOrderTol =>
      rw [ht] at hstop
      rcases hcase with ⟨hs, -⟩ | ⟨_, hbv, hq⟩
      · rw [show it.stepResult = .firstOrderSatisfied from hstop] at hs; cases hs
      · rw [← hb', hbv]; exact hq
    | maxLambda =>
      rw [ht] at hstop
      rcases hcase with ⟨hs, -⟩ | ⟨hs, -⟩ <;> rcases hstop.1 with e | e <;> rw [e] at hs <;> cases hs
    | maxIterations => rw [ht] at hstop; exact hstop.elim
    | qpIndefinite => rw [ht] at hstop; exact hstop.elim
    | userCallback => rw [ht] at hstop; exact hstop.elim

/-- **C127** (few iterations). If `max_iterations` exceeds `m` and the bound on the derivative that follows from the rate is below
`absolute_first_derivative_tol` after `m` steps, the run makes at most `m + 1` iterations and does not end with
`MAX_ITERATIONS`. -/
theorem C127_finishes (env : Env D D ℝ) (hE : LDLTContract env.E) (hr : env.retraction = none) (hp : WellPosed env.p D)
    (hi : env.p.ineq = []) (he : env.p.eqs = []) (xs : Fin D → ℝ) (ρ σ L B θ : ℝ) (S : SmallResidual env.p xs ρ σ L B θ)
    (hθ : θ ≤ 1 / 2) (prm : NLSParams ℝ) (hlam : prm.lambdaInitial ≤ 0) (x0 : Fin D → ℝ) (hx0 : dist2 x0 xs ≤ ρ)
    (o o' : env.Obj) (out : NLSOutputs ℝ) (calls : List (NLSIteration ℝ))
    (h : solve env prm x0 o = .ok (o', out, calls)) (m : Nat) (hm : (m : Int) < prm.maxIterations)
    (htol : (B * (7 / 4 * ((3 / 4) ^ m * dist2 x0 xs))) ^ 2 < prm.absoluteFirstDerivativeTol) :
    out.iterations.length ≤ m + 1 ∧ out.termination ≠ .maxIterations := by
  have hrun := sr_run env hE hr hp hi he S hθ prm hlam x0 hx0 o o' out calls h
  obtain ⟨hex, hfirst, hlast⟩ := C38_after env prm x0 o o' out calls h
  have hleg := C87_solve env prm x0 o o' out calls h
  by_cases hlen : m < out.iterations.length
  · obtain ⟨it, hit⟩ : ∃ it, out.iterations[m]? = some it := ⟨_, List.getElem?_eq_getElem hlen⟩
    obtain ⟨a, ha, _⟩ := hex m (by omega)
    obtain ⟨b, hb, _⟩ := hex (m + 1) (by omega)
    obtain ⟨h1, h2⟩ := hrun m (by omega)
    obtain ⟨-, -, hlinf, hcase⟩ := sr_iteration env hE hr hp hi he S hθ prm x0 o o' out calls h
      _ it hit (h1 it hit) a b ha hb (h2 a ha).1
    have hd := (h2 a ha).2.2 (.inl hlen)
    have hs : it.stepResult = .firstOrderSatisfied := by
      rcases hcase with ⟨_, hn, -⟩ | ⟨hs, -⟩
      · exfalso
        apply hn
        refine lt_of_le_of_lt hlinf (lt_of_le_of_lt ?_ htol)
        have h0 := dist2_nonneg a.vars xs
        refine pow_le_pow_left₀ (mul_nonneg S.nonnegB (by linarith)) ?_ 2
        exact mul_le_mul_of_nonneg_left (by linarith) S.nonnegB
      · exact hs
    obtain ⟨h3, h4⟩ := legal_stops hleg m it .satisfiedFirstOrderTol hit (fun l => hs)
    exact ⟨by omega, by rw [h4]; simp⟩
  · refine ⟨by omega, ?_⟩
    intro ht
    have := (legal_counts hleg).2.1 ht
    omega

end MiniOpt.Props
