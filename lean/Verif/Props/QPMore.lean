import Verif.Props.QPResult
import Verif.Props.Constraints

/-!
# C15, C18, C20 and refinements of C22
-/

set_option autoImplicit false

namespace MiniOpt.Props

open MiniOpt MiniOpt.Spec MiniOpt.IP

variable {N M K : Nat}

/-! ## C22: the clamped guess is the nearest point of the box -/

theorem clampAll_slopes (p : QP N M K ℝ) : ∀ (l : List (Fin M)) (x x' : Fin N → ℝ),
    clampAll p l x = .ok x' → ∀ m ∈ l, (p.con m).a ≠ 0 := by
  intro l
  induction l with
  | nil => simp
  | cons i l ih =>
    intro x x' h m hm
    rw [clampAll] at h
    split at h
    · cases h
    · rename_i v hv
      rcases List.mem_cons.mp hm with rfl | hm
      · intro ha
        rw [clampX_zero _ _ (by exact ha)] at hv; cases hv
      · exact ih _ _ h m hm

/-- **C22** (built-in guesses, distance). The guess for `x` is the componentwise nearest point of the box
to the unclamped point: the origin for `NAIVE`, the solution of the equality-constrained problem (whose
multipliers are the guess for `y`) for `SOLVE_EQUALITY_CONSTRAINED`. -/
theorem C22_nearest (E : Eigen N K ℝ) (hE : LDLTContract E) (p : QP N M K ℝ) (g : InitialGuessMethod)
    (st st0 : IPState N M K ℝ) (hwf : WF st)
    (hG : g = .solveEqualityConstrained → PosDefOnNull p ∧ IndependentRows p) (h : initialGuess E p g st = .ok st0) (w : Fin N → ℝ) (hw : ∀ m, 0 ≤ ineqVal p w m) :
    match g with
    | .naive => (∀ k, st0.v.y k = 0) ∧ ∀ j, |st0.v.x j| ≤ |w j|
    | .solveEqualityConstrained => ∃ x1, EqualityKKT p x1 st0.v.y ∧
        ∀ j, |st0.v.x j - x1 j| ≤ |w j - x1 j|
    | .userProvided => st0 = st := by
  have near : ∀ x x', clampAll p (List.finRange M) x = .ok x' → ∀ j, |x' j - x j| ≤ |w j - x j| := by
    intro x x' hx
    obtain ⟨x'', h1, _, h3⟩ := C04_sequential_clamp p x
      (fun m => clampAll_slopes p _ x x' hx m (List.mem_finRange m)) ⟨w, hw⟩
    rw [hx] at h1; cases h1
    exact h3 w hw
  cases g with
  | naive =>
    obtain ⟨h1, h2, _⟩ := C22_naive E p st st0 h
    exact ⟨h1, fun j => by simpa using near _ _ h2 j⟩
  | solveEqualityConstrained =>
    obtain ⟨x1, h1, h2, _⟩ := C22_solve_equality E hE p st st0 hwf (hG rfl).1 (hG rfl).2 h
    exact ⟨x1, h1, near _ _ h2⟩
  | userProvided => cases h; rfl

/-! ## C15 -/

/-- A problem with two variables and one equality constraint, no inequalities: minimise
`½(x₀² + x₁²) - x₀ - 2x₁` subject to `x₀ + x₁ = 1`. -/
noncomputable def demoEq : QP 2 0 1 ℝ where
  G := demoQP.G
  c := demoQP.c
  A := demoQP.A
  b := demoQP.b
  con := fun i => i.elim0

theorem demoEq_posdef : PosDefG demoEq := demo_posdef
theorem demoEq_rows : IndependentRows demoEq := demo_rows

theorem l2_zero {n : Nat} {v : Fin n → ℝ} (h : ∀ i, v i = 0) : l2 v = 0 := by
  unfold l2; simp [h]

/-- **C15**. Without inequality constraints, with independent equality rows, `G` positive definite along
the directions they leave free, and a positive complementarity tolerance, any finished solve (from any start, any strategy) took exactly one
iteration, reports `SATISFIED_KKT_TOL`, and returns the unique minimiser of the problem. -/
theorem C15_one_iteration (E : Eigen N K ℝ) (hE : LDLTContract E) (p : QP N 0 K ℝ) (hG : PosDefOnNull p)
    (hA : IndependentRows p) (prm : QPParams ℝ) (hctol : 0 < prm.terminationComplementarityTol)
    (st : IPState N 0 K ℝ) (hwf : WF st) (r : IPState N 0 K ℝ × QPOutputs ℝ)
    (h : solve E p prm st = .ok r) :
    r.2.termination = .satisfiedKktTol ∧ r.2.iterations.length = 1 ∧
    Feasible p r.1.v.x ∧ (∀ i, gradLagrangian p r.1.v i = 0) ∧
    ∀ x', Feasible p x' → x' ≠ r.1.v.x → objective p r.1.v.x < objective p x' := by
  obtain ⟨hc, st0, h0, hl⟩ := solve_ok h
  have hprm := (checkParams_ok_iff prm).mp hc
  obtain ⟨n, hn⟩ : ∃ n, prm.maxIterations.toNat = n + 1 := ⟨prm.maxIterations.toNat - 1, by omega⟩
  have hwf0 := WF_initialGuess hwf h0
  rw [hn] at hl
  have hnz : IsUnit (reducedMatrix p (evaluateKKT p true st0).v).det :=
    reducedMatrix_nonsing p _ (hG.regular hA) (fun m => m.elim0) (fun m => m.elim0)
  -- one body step lands on the KKT point
  have key : ∀ st2 it, BodyStep E p prm (evaluateKKT p true st0)
      (initialMu prm (evaluateKKT p true st0)) st2 it →
      (∀ i, gradLagrangian p st2.v i = 0) ∧ (∀ k, eqVal p st2.v.x k = 0) ∧ ExitTest prm st2 it := by
    rintro st2 it ⟨⟨st1, hit, hst2⟩, hi, hf⟩
    obtain ⟨corr, d, hN, hv, -, -⟩ := C09_newton_direction E hE p _ _ _ _ _ (WF_evaluateKKT hwf0) hnz hit
    obtain ⟨s1, -, -, hal, -⟩ := iterate_ok hit
    have hp : it.ip.alpha.primal = 1 := by rw [hal]; simp [stepAlpha]
    have hd : it.ip.alpha.dual = 1 := by rw [hal]; simp [stepAlpha]
    rw [hp, hd] at hv
    have hv2 : st2.v = step (evaluateKKT p true st0).v d 1 1 := by rw [hst2, evaluateKKT_v, hv]
    have hgrad : ∀ i, gradLagrangian p st2.v i = 0 := by
      intro i
      have := hN.dual i
      rw [hv2]
      unfold gradLagrangian at this ⊢
      simp only [step, one_mul, Finset.univ_eq_empty, Finset.sum_empty, sub_zero, mul_add,
        Finset.sum_add_distrib] at this ⊢
      linarith
    have heq : ∀ k, eqVal p st2.v.x k = 0 := by
      intro k
      have := hN.eq k
      rw [hv2]
      unfold eqVal at this ⊢
      simp only [step, one_mul, mul_add, Finset.sum_add_distrib] at this ⊢
      linarith
    refine ⟨hgrad, heq, ?_, ?_⟩
    · rw [hf, hst2, computeErrors_spec]
      rw [hst2, evaluateKKT_v] at hgrad heq
      have e1 : l2 (gradLagrangian p st1.v) = 0 := l2_zero hgrad
      have e2 : l2 (eqVal p st1.v.x) = 0 := l2_zero heq
      have e3 : ∀ f : Fin 0 → ℝ, l2 f = 0 := fun f => l2_zero fun i => i.elim0
      simp only [KKTError.max, kktError, e1, e2, e3, real_cmax, max_self]
      exact hprm.2.2.2.1
    · rw [computeMu_spec]
      simpa [avgComp] using hctol
  rcases solveLoop_succ E p prm n (evaluateKKT p true st0) (initialMu prm (evaluateKKT p true st0)) []
    with ⟨e, _, hr⟩ | ⟨st2, it, hb, ⟨hx, hr⟩ | ⟨hx, hr⟩⟩
  · rw [hr] at hl; cases hl
  · rw [hr] at hl; cases hl
    obtain ⟨hgrad, heq, _⟩ := key _ _ hb
    refine ⟨rfl, rfl, ⟨fun m => m.elim0, heq⟩, hgrad, fun x' hx' hne => ?_⟩
    refine C22_kkt_is_minimiser p hG st2.v.x st2.v.y ⟨fun i => ?_, heq⟩ x' hx'.2 hne
    have := hgrad i
    unfold gradLagrangian at this
    simpa using this
  · exact absurd (key _ _ hb).2.2 hx

/-- Non-vacuity, and C15 is total: the demo problem really is solved. -/
example : ∃ r, solve exactEigen demoEq QPParams.default (setupState demoJunk) = .ok r ∧
    r.2.termination = .satisfiedKktTol := by
  obtain ⟨r, hr⟩ := solve_returns exactEigen exactEigen_total demoEq (fun m => m.elim0)
    (QPParams.default : QPParams ℝ) default_valid (setupState demoJunk) (Or.inl (by simp [QPParams.default]))
  refine ⟨r, hr, (C15_one_iteration _ exactEigen_contract _ demoEq_posdef.onNull demoEq_rows _ ?_ _
    (setupState_WF _) r hr).1⟩
  simp only [QPParams.default, real_lit]; norm_num

/-- The complementarity tolerance is not validated by `CheckParams`; with a non-positive one a problem
without inequalities never reports `SATISFIED_KKT_TOL`. -/
theorem C15_needs_positive_tol (E : Eigen N K ℝ) (p : QP N 0 K ℝ) (prm : QPParams ℝ)
    (hctol : prm.terminationComplementarityTol ≤ 0) (st : IPState N 0 K ℝ)
    (r : IPState N 0 K ℝ × QPOutputs ℝ) (h : solve E p prm st = .ok r) :
    r.2.termination = .maxIterations := by
  obtain ⟨st0, sts, mus, -, -, -, -, -, -, -, h6⟩ := solve_traj h
  cases hT : r.2.termination with
  | maxIterations => rfl
  | satisfiedKktTol =>
    obtain ⟨it, _, hx⟩ := h6 hT
    have := hx.2
    rw [computeMu_spec] at this
    simp [avgComp] at this
    linarith

/-! ## C18 -/

/-- `Σ s z` after a step, expanded the way the code computes it. -/
theorem avgComp_step (v d : Blocks N M K ℝ) (ap ad : ℝ) :
    avgComp (step v d ap ad) = avgComp v + ad * (∑ m, v.s m * d.z m) / M + ap * (∑ m, v.z m * d.s m) / M
      + (ad * ap) * (∑ m, d.s m * d.z m) / M := by
  unfold avgComp step
  have : ∑ m, (v.s m + ap * d.s m) * (v.z m + ad * d.z m)
      = (∑ m, v.s m * v.z m) + ad * (∑ m, v.s m * d.z m) + ap * (∑ m, v.z m * d.s m)
        + (ad * ap) * (∑ m, d.s m * d.z m) := by
    simp only [Finset.mul_sum, ← Finset.sum_add_distrib]
    exact Finset.sum_congr rfl fun m _ => by ring
  simp only [this]
  ring

/-- **C18**. A predictor-corrector iteration started at `v` with barrier parameter `mu` probes the affine
direction `daff` (the Newton direction with `mu = 0`) with the longest steps `ap` in `[0,1]` keeping
`s, z ≥ 0`, reports `mu_affine = max(0, A + (mu - avg))`, where `A` is the average complementarity after
the probe and `avg` the one before, and uses `(mu_affine / mu)³ mu` for the real step. So `mu_affine` is
nonnegative, and it is the average complementarity after the probe exactly when `mu` is the one before
(or both `A = 0` and `mu ≤ avg`). -/
theorem C18_mu_affine (E : Eigen N K ℝ) (p : QP N M K ℝ) (mu : ℝ) (st st' : IPState N M K ℝ)
    (out : IPIterationOutputs ℝ) (hM : 0 < M) (hz : ∀ m, 0 < st.v.z m)
    (h : iterate E p mu .predictorCorrector st = .ok (st', out)) :
    ∃ daff ap ma, out.alphaProbe = some ap ∧ out.muAffine = some ma ∧ out.mu = (ma / mu) ^ 3 * mu ∧
      (LDLTContract E → WF st → IsUnit (reducedMatrix p st.v).det → NewtonSystem p st.v 0 0 daff) ∧
      (∀ m, 0 ≤ (step st.v daff ap.primal ap.dual).s m ∧ 0 ≤ (step st.v daff ap.primal ap.dual).z m) ∧
      (0 < ap.primal ∧ ap.primal ≤ 1 ∧ 0 < ap.dual ∧ ap.dual ≤ 1) ∧
      (∀ β, β ≤ 1 → (∀ m, 0 ≤ st.v.s m + β * daff.s m) → β ≤ ap.primal) ∧
      (∀ β, β ≤ 1 → (∀ m, 0 ≤ st.v.z m + β * daff.z m) → β ≤ ap.dual) ∧
      0 ≤ ma ∧
      ma = max 0 (avgComp (step st.v daff ap.primal ap.dual) + (mu - avgComp st.v)) ∧
      (ma = avgComp (step st.v daff ap.primal ap.dual) ↔
        mu = avgComp st.v ∨ (avgComp (step st.v daff ap.primal ap.dual) = 0 ∧ mu ≤ avgComp st.v)) := by
  obtain ⟨st1, h1, h2, h3, h4, h5, h6⟩ := iterate_ok h
  have hr := ready_of_ldlt h1
  set s1 := solveForUpdate p 0 st1 with hs1
  have hv1 : s1.v = st.v := hr.v_eq
  have hdir : direction p mu .predictorCorrector st1 =
      (solveForUpdate p ((muAffine mu (computeAlpha s1 1) { s1 with deltaAff := s1.delta } / mu) ^ 3 * mu)
        { s1 with deltaAff := s1.delta },
       (muAffine mu (computeAlpha s1 1) { s1 with deltaAff := s1.delta } / mu) ^ 3 * mu,
       some (computeAlpha s1 1, muAffine mu (computeAlpha s1 1) { s1 with deltaAff := s1.delta })) := by
    unfold direction; simp [hM, hs1]
  rw [hdir] at h4 h5 h6
  have hsp : ∀ m, 0 < s1.v.s m := by rw [hv1]; exact hr.spos
  have hzp : ∀ m, 0 < s1.v.z m := by rw [hv1]; exact hz
  have c8s := C08_step_length s1.v.s s1.delta.s 1 hsp one_pos le_rfl
  have c8z := C08_step_length s1.v.z s1.delta.z 1 hzp one_pos le_rfl
  have hstepnn : ∀ m, 0 ≤ (step st.v s1.delta (computeAlpha s1 1).primal (computeAlpha s1 1).dual).s m ∧
      0 ≤ (step st.v s1.delta (computeAlpha s1 1).primal (computeAlpha s1 1).dual).z m := by
    intro m
    rw [← hv1]
    exact ⟨c8s.2.2.1 m, c8z.2.2.1 m⟩
  have hma : muAffine mu (computeAlpha s1 1) { s1 with deltaAff := s1.delta } =
      max 0 (avgComp (step st.v s1.delta (computeAlpha s1 1).primal (computeAlpha s1 1).dual)
        + (mu - avgComp st.v)) := by
    rw [avgComp_step]
    unfold muAffine
    simp only [real_cmax, real_dot, real_lit, hv1]
    rw [max_comm]
    congr 1
    push_cast
    ring
  have hA : 0 ≤ avgComp (step st.v s1.delta (computeAlpha s1 1).primal (computeAlpha s1 1).dual) := by
    unfold avgComp
    apply div_nonneg _ (Nat.cast_nonneg _)
    apply Finset.sum_nonneg
    intro m _
    exact mul_nonneg (hstepnn m).1 (hstepnn m).2
  refine ⟨s1.delta, computeAlpha s1 1, _, h5, h6, h4, ?_, ?_, ?_, ?_, ?_, ?_, hma, ?_⟩
  · intro hE hwf hdet
    have hinv := inverse_of_ldlt hE hwf hdet h1
    have := solveForUpdate_newton p 0 st1 (by rw [hr.v_eq]; exact fun m => (hr.spos m).ne')
      (by rw [hr.v_eq]; exact hr.rx) (by rw [hr.v_eq]; exact hr.rs) (by rw [hr.v_eq]; exact hr.ry)
      (by rw [hr.v_eq]; exact hr.rz) (by rw [hr.v_eq]; exact hinv)
    have hz0 : (fun m : Fin M => st1.deltaAff.s m * st1.deltaAff.z m) = 0 := by
      funext m; rw [hr.aff0]; simp [Blocks.zero]
    rw [hr.v_eq, hz0] at this
    exact this
  · exact hstepnn
  · exact ⟨c8s.1, c8s.2.1, c8z.1, c8z.2.1⟩
  · intro β hβ hall
    have := c8s.2.2.2.2.2 β hβ (by rw [hv1]; exact hall)
    rw [one_mul] at this; exact this
  · intro β hβ hall
    have := c8z.2.2.2.2.2 β hβ (by rw [hv1]; exact hall)
    rw [one_mul] at this; exact this
  · rw [hma]; exact le_max_left _ _
  · rw [hma]
    constructor
    · intro he
      rcases le_total 0 (avgComp (step st.v s1.delta (computeAlpha s1 1).primal (computeAlpha s1 1).dual)
        + (mu - avgComp st.v)) with hc | hc
      · rw [max_eq_right hc] at he; left; linarith
      · rw [max_eq_left hc] at he; right; exact ⟨he.symm, by linarith⟩
    · rintro (he | ⟨he, hle⟩)
      · rw [he, sub_self, add_zero, max_eq_right hA]
      · rw [he, max_eq_left (by linarith)]

/-- **C18**, first iteration. With a built-in guess and the default `initial_mu = 1` the first iteration
starts with `mu` equal to the average complementarity, so its `mu_affine` is right. -/
theorem C18_first_iteration_right (E : Eigen N K ℝ) (p : QP N M K ℝ) (g : InitialGuessMethod)
    (hg : g ≠ .userProvided) (st st0 : IPState N M K ℝ) (hM : 0 < M)
    (h0 : initialGuess E p g st = .ok st0) : avgComp st0.v = 1 := by
  obtain ⟨s1, h1⟩ := initialGuess_finish hg h0
  obtain ⟨_, _, hs, hz⟩ := finishGuess_ok h1
  have hpos := initialGuess_pos hg h0
  unfold avgComp
  have : ∀ m, st0.v.s m * st0.v.z m = 1 := fun m => by
    rw [hz m]; field_simp [(hpos.1 m).ne']
  simp only [this, Finset.sum_const, Finset.card_univ, Fintype.card_fin, nsmul_eq_mul, mul_one]
  exact div_self (by exact_mod_cast hM.ne')

/-- **C18, refuted part**. In every iteration after the first, with `sigma < 1` and no small-error gate,
the barrier parameter used in the formula is `sigma` times the current average complementarity, so
`mu_affine` is *strictly below* the average complementarity after the probe (unless that is zero). -/
theorem C18_later_iterations_wrong (E : Eigen N K ℝ) (p : QP N M K ℝ) (prm : QPParams ℝ)
    (hpc : prm.barrierStrategy = .predictorCorrector) (hgate : prm.decreaseMuOnlyOnSmallError = false)
    (hsig : prm.sigma < 1) (hM : 0 < M)
    (st : IPState N M K ℝ) (hg : GoodStart prm st) (r : IPState N M K ℝ × QPOutputs ℝ)
    (h : solve E p prm st = .ok r) (k : Nat) (it : QPIteration ℝ) (hit : r.2.iterations[k + 1]? = some it) :
    ∃ v daff ap ma, IterateIs E p prm st (k + 1) v ∧ it.ip.alphaProbe = some ap ∧
      it.ip.muAffine = some ma ∧
      (avgComp (step v daff ap.primal ap.dual) = 0 ∨ ma < avgComp (step v daff ap.primal ap.dual)) := by
  obtain ⟨hc, -⟩ := solve_ok h
  obtain ⟨st0, sts, mus, h0, ht, h1, h2, h3, h4, h5, h6⟩ := solve_traj h
  obtain ⟨hk, rfl⟩ := List.getElem?_eq_some_iff.mp hit
  have hpos := traj_pos (goodStart_pos hg h0) ht (k + 1) hk.le
  obtain ⟨s1, hi, _⟩ := (ht.body (k + 1) hk).out
  rw [hpc] at hi
  obtain ⟨daff, ap, ma, e1, e2, -, -, e4, -, -, -, -, e5, -⟩ := C18_mu_affine E p _ _ _ _ hM hpos.2 hi
  refine ⟨(sts (k + 1)).v, daff, ap, ma, traj_iterate hc h0 ht hk.le, e1, e2, ?_⟩
  have hmu : mus (k + 1) = prm.sigma * avgComp (sts (k + 1)).v := by
    rw [ht.mu k (by omega), nextMu, computeMu_spec, hgate, hpc]; simp
  have hav := avgComp_pos hM _ hpos.1 hpos.2
  have hA : 0 ≤ avgComp (step (sts (k + 1)).v daff ap.primal ap.dual) := by
    unfold avgComp
    exact div_nonneg (Finset.sum_nonneg fun m _ => mul_nonneg (e4 m).1 (e4 m).2) (Nat.cast_nonneg _)
  rcases hA.eq_or_lt with h0 | hlt
  · exact Or.inl h0.symm
  · right
    rw [e5, hmu]
    apply max_lt hlt
    nlinarith

example : ∃ r, solve exactEigen demoQP { (QPParams.default : QPParams ℝ) with
      barrierStrategy := .predictorCorrector } (setupState demoJunk) = .ok r ∧
      (QPParams.default : QPParams ℝ).sigma < 1 := by
  obtain ⟨r, hr⟩ := demo_returns { (QPParams.default : QPParams ℝ) with
      barrierStrategy := .predictorCorrector }
    (by rw [checkParams_ok_iff]; exact (checkParams_ok_iff _).mp default_valid) (by simp [QPParams.default])
  exact ⟨r, hr, by simp only [QPParams.default, real_lit]; norm_num⟩

/-! ## C20 -/

theorem minCoeff_spec {n : Nat} (v : Fin (n + 1) → ℝ) :
    (∀ i, minCoeff v ≤ v i) ∧ ∃ i, minCoeff v = v i := by
  have key : ∀ (l : List (Fin n)) (a : ℝ), (∃ i, a = v i) →
      let m := l.foldl (fun m i => if v i.succ < m then v i.succ else m) a
      m ≤ a ∧ (∀ i ∈ l, m ≤ v i.succ) ∧ ∃ i, m = v i := by
    intro l
    induction l with
    | nil => intro a ha; exact ⟨le_rfl, by simp, ha⟩
    | cons j l ih =>
      intro a ha
      simp only [List.foldl_cons]
      by_cases hj : v j.succ < a
      · simp only [hj, if_true]
        obtain ⟨h1, h2, h3⟩ := ih (v j.succ) ⟨_, rfl⟩
        refine ⟨h1.trans hj.le, ?_, h3⟩
        intro i hi
        rcases List.mem_cons.mp hi with rfl | hi
        · exact h1
        · exact h2 i hi
      · simp only [hj, if_false]
        obtain ⟨h1, h2, h3⟩ := ih a ha
        refine ⟨h1, ?_, h3⟩
        intro i hi
        rcases List.mem_cons.mp hi with rfl | hi
        · exact h1.trans (not_lt.mp hj)
        · exact h2 i hi
  obtain ⟨h1, h2, h3⟩ := key (List.finRange n) (v 0) ⟨0, rfl⟩
  refine ⟨fun i => ?_, h3⟩
  refine Fin.cases h1 (fun i => h2 i (List.mem_finRange i)) i

theorem maxCoeff_spec {n : Nat} (v : Fin (n + 1) → ℝ) :
    (∀ i, v i ≤ maxCoeff v) ∧ ∃ i, maxCoeff v = v i := by
  have e : maxCoeff v = - minCoeff fun i => - v i := by
    have key : ∀ (l : List (Fin n)) (a : ℝ),
        l.foldl (fun m i => if m < v i.succ then v i.succ else m) a
          = - l.foldl (fun m i => if - v i.succ < m then - v i.succ else m) (-a) := by
      intro l
      induction l with
      | nil => intro a; simp
      | cons j l ih =>
        intro a
        simp only [List.foldl_cons, neg_lt_neg_iff]
        split_ifs <;> rw [ih]
    exact key _ _
  obtain ⟨h1, i, h2⟩ := minCoeff_spec fun i => - v i
  rw [e]
  exact ⟨fun i => by have := h1 i; linarith, i, by rw [h2]; simp⟩

/-- **C20**. The multiplier summary returned by a finished solve is absent exactly when there are no
equality constraints; otherwise `min` is the least multiplier and `l_infinity` the largest absolute
multiplier of the returned `y`, both attained. -/
theorem C20_lagrange_summary (E : Eigen N K ℝ) (p : QP N M K ℝ) (prm : QPParams ℝ)
    (st : IPState N M K ℝ) (r : IPState N M K ℝ × QPOutputs ℝ) (h : solve E p prm st = .ok r) :
    (r.2.lagrange = none ↔ K = 0) ∧
    ∀ L, r.2.lagrange = some L →
      (∀ k, L.min ≤ r.1.v.y k) ∧ (∃ k, L.min = r.1.v.y k) ∧
      (∀ k, |r.1.v.y k| ≤ L.lInfinity) ∧ ∃ k, L.lInfinity = |r.1.v.y k| := by
  obtain ⟨st0, sts, mus, -, -, -, -, -, h4, -⟩ := solve_traj h
  rw [h4]
  generalize r.1.v.y = y
  cases K with
  | zero => simp [lagrangeSummary]
  | succ K =>
    refine ⟨by simp [lagrangeSummary], ?_⟩
    intro L hL
    simp only [lagrangeSummary, Option.some.injEq] at hL
    subst hL
    have a := minCoeff_spec y
    have b := maxCoeff_spec fun i => Scalar.abs (y i)
    exact ⟨a.1, a.2, b.1, b.2⟩

example : ∃ r L, solve exactEigen demoQP QPParams.default (setupState demoJunk) = .ok r ∧
    r.2.lagrange = some L := by
  obtain ⟨r, hr⟩ := demo_returns QPParams.default default_valid (by simp [QPParams.default])
  cases hL : r.2.lagrange with
  | none => exact absurd ((C20_lagrange_summary _ _ _ _ r hr).1.mp hL) (by norm_num)
  | some L => exact ⟨r, L, hr, hL⟩

/-- C15: a zero complementarity tolerance passes the parameter check, and the problem solved above then runs to its
iteration limit. -/
example : ∃ r, solve exactEigen demoEq { (QPParams.default : QPParams ℝ) with terminationComplementarityTol := 0 }
      (setupState demoJunk) = .ok r ∧ r.2.termination = .maxIterations := by
  obtain ⟨r, hr⟩ := solve_returns exactEigen exactEigen_total demoEq (fun m => m.elim0)
    { (QPParams.default : QPParams ℝ) with terminationComplementarityTol := 0 }
    (by rw [checkParams_ok_iff]; exact (checkParams_ok_iff _).mp default_valid)
    (setupState demoJunk) (Or.inl (by simp [QPParams.default]))
  exact ⟨r, hr, C15_needs_positive_tol _ _ _ le_rfl _ r hr⟩

/-- C22, C18: both initial guesses are computed for the demo problem, and the first barrier value is right. -/
example (g : InitialGuessMethod) (hg : g ≠ .userProvided) :
    ∃ st0, initialGuess exactEigen demoQP g (setupState demoJunk) = .ok st0 ∧ avgComp st0.v = 1 := by
  obtain ⟨r, hr⟩ := demo_returns { (QPParams.default : QPParams ℝ) with initialGuessMethod := g }
    (by rw [checkParams_ok_iff]; exact (checkParams_ok_iff _).mp default_valid) hg
  obtain ⟨-, st0, h0, -⟩ := solve_ok hr
  exact ⟨st0, h0, C18_first_iteration_right _ _ g hg _ _ (by norm_num) h0⟩

end MiniOpt.Props
