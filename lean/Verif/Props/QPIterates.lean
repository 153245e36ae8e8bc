import Mathlib.Tactic.FinCases
import Verif.Model.FullSystem
import Verif.Lemmas.Demo

/-!
# C07–C10, C22–C24: iterates of the interior point solver (exact arithmetic)
-/

set_option autoImplicit false

namespace MiniOpt.Props

open MiniOpt MiniOpt.Spec MiniOpt.IP

variable {N M K : Nat}

/-- A built-in initial guess, or a user-supplied one with positive slacks and multipliers. -/
def GoodStart (prm : QPParams ℝ) (st : IPState N M K ℝ) : Prop :=
  prm.initialGuessMethod ≠ .userProvided ∨ ((∀ m, 0 < st.v.s m) ∧ ∀ m, 0 < st.v.z m)

theorem goodStart_pos {E : Eigen N K ℝ} {p : QP N M K ℝ} {prm : QPParams ℝ} {st st0 : IPState N M K ℝ}
    (hg : GoodStart prm st) (h0 : initialGuess E p prm.initialGuessMethod st = .ok st0) :
    (∀ m, 0 < st0.v.s m) ∧ ∀ m, 0 < st0.v.z m := by
  by_cases hu : prm.initialGuessMethod = .userProvided
  · rw [hu] at h0; cases h0
    rcases hg with hg | hg
    · exact absurd hu hg
    · exact hg
  · exact initialGuess_pos hu h0

/-- **C07**. Whatever the linear solver returns (no contract on `E`), for every iteration budget:
when `Solve` returns, all slacks and inequality multipliers are strictly positive; and the assertion on
the slacks never fires. (The iterate after `k` iterations is the result for `max_iterations = k`, see
`C13_prefix`.) -/
theorem C07_slacks_positive (E : Eigen N K ℝ) (p : QP N M K ℝ) (prm : QPParams ℝ)
    (st : IPState N M K ℝ) (hg : GoodStart prm st) :
    (∀ r, solve E p prm st = .ok r → (∀ m, 0 < r.1.v.s m) ∧ ∀ m, 0 < r.1.v.z m) ∧
    (∀ st', solve E p prm st ≠ .error (.assertion "Some slack variables s <= 0", st')) := by
  cases hc : checkParams prm with
  | error e =>
    constructor
    · intro r h; simp [solve, hc] at h
    · intro st' h
      simp only [solve, hc, Except.error.injEq, Prod.mk.injEq] at h
      unfold checkParams at hc
      split_ifs at hc <;> · cases hc; simp at h
  | ok _ =>
    cases h0 : initialGuess E p prm.initialGuessMethod st with
    | error e =>
      constructor
      · intro r h; simp [solve, hc, h0] at h
      · intro st' h
        simp only [solve, hc, h0, Except.error.injEq] at h
        rcases initialGuess_error h0 with ⟨h1, _⟩ | ⟨h1, _⟩
        · rw [h] at h1; simp at h1
        · rw [h] at h1; simp at h1
    | ok st0 =>
      have hpos := goodStart_pos hg h0
      have := solveLoop_rule E p prm (fun _ st _ _ => (∀ m, 0 < st.v.s m) ∧ ∀ m, 0 < st.v.z m)
        (fun r => (∀ m, 0 < r.1.v.s m) ∧ ∀ m, 0 < r.1.v.z m)
        (fun e => e.1 = .failedFactorization)
        (by
          rintro n st mu log st2 it hI ⟨⟨st1, h1, rfl⟩, _, _⟩ _
          rw [evaluateKKT_v]; exact iterate_pos h1 hI.2)
        (by
          rintro n st mu log st2 it hI ⟨⟨st1, h1, rfl⟩, _, _⟩ _
          show (∀ m, 0 < (evaluateKKT p true st1).v.s m) ∧ ∀ m, 0 < (evaluateKKT p true st1).v.z m
          rw [evaluateKKT_v]; exact iterate_pos h1 hI.2)
        (fun st mu log hI => hI)
        (by
          intro n st mu log e hI he
          rcases iterate_error he with ⟨h, _⟩ | ⟨m, hm⟩
          · exact h
          · exact absurd (hI.1 m) hm)
        prm.maxIterations.toNat (evaluateKKT p true st0) (initialMu prm (evaluateKKT p true st0)) []
        (by rw [evaluateKKT_v]; exact hpos)
      have hs : solve E p prm st = solveLoop E p prm prm.maxIterations.toNat (evaluateKKT p true st0)
          (initialMu prm (evaluateKKT p true st0)) [] := by simp [solve, hc, h0]
      rw [← hs] at this
      constructor
      · intro r h; rw [h] at this; exact this
      · intro st' h; rw [h] at this; simp at this

/-- Non-vacuity of **C07**: a constrained problem on which `Solve` returns. -/
example : GoodStart QPParams.default (setupState demoJunk : IPState 2 1 1 ℝ) ∧
    ∃ r, solve exactEigen demoQP QPParams.default (setupState demoJunk) = .ok r :=
  ⟨Or.inl (by simp [QPParams.default]), demo_returns _ default_valid (by simp [QPParams.default])⟩

/-- The hypothesis on user-provided guesses is needed: a non-positive user slack makes `Solve` throw. -/
theorem C07_user_slack_needed (E : Eigen N K ℝ) (p : QP N M K ℝ) (prm : QPParams ℝ)
    (st : IPState N M K ℝ) (hp : checkParams prm = .ok ())
    (hu : prm.initialGuessMethod = .userProvided) (m : Fin M) (hm : st.v.s m ≤ 0) :
    ∃ st', solve E p prm st = .error (.assertion "Some slack variables s <= 0", st') := by
  have hmax := ((checkParams_ok_iff prm).mp hp).2.2.2.2
  obtain ⟨n, hn⟩ : ∃ n, prm.maxIterations.toNat = n + 1 := ⟨prm.maxIterations.toNat - 1, by omega⟩
  unfold solve
  simp only [hp, hu, initialGuess, hn]
  have hno : ¬ ∀ i, 0 < st.v.s i := fun h => absurd (h m) (not_lt.mpr hm)
  have : iterate E p (initialMu prm (evaluateKKT p true st)) prm.barrierStrategy (evaluateKKT p true st)
      = .error (.assertion "Some slack variables s <= 0", evaluateKKT p true (evaluateKKT p true st)) := by
    unfold iterate computeLDLT
    simp [evaluateKKT_v, hno]
  simp only [solveLoop, this]
  exact ⟨_, rfl⟩

/-- A user guess with a zero slack. -/
example : ∃ st', solve exactEigen demoQP { (QPParams.default : QPParams ℝ) with initialGuessMethod := .userProvided }
    { (setupState demoJunk : IPState 2 1 1 ℝ) with v := .zero } = .error (.assertion "Some slack variables s <= 0", st') :=
  C07_user_slack_needed _ _ _ _ (by rw [checkParams_ok_iff]; exact (checkParams_ok_iff _).mp default_valid) rfl 0
    (by simp [Blocks.zero])

/-- **C08**. The step length rule for positive values. -/
theorem C08_step_length {n : Nat} (val d : Fin n → ℝ) (tau : ℝ) (hv : ∀ i, 0 < val i)
    (ht : 0 < tau) (ht1 : tau ≤ 1) :
    0 < alphaLoop val d tau ∧ alphaLoop val d tau ≤ 1 ∧
    (∀ i, 0 ≤ val i + alphaLoop val d tau * d i) ∧
    (tau < 1 → ∀ i, 0 < val i + alphaLoop val d tau * d i) ∧
    ((∀ i, 0 < val i + d i) → alphaLoop val d tau = 1) ∧
    (∀ β, β ≤ 1 → (∀ i, 0 ≤ val i + β * d i) → tau * β ≤ alphaLoop val d tau) := by
  refine ⟨alphaLoop_pos hv ht, (alphaLoop_spec val d tau).1, alphaLoop_keeps_nonneg hv ht ht1,
    fun h => alphaLoop_keeps_pos hv ht h, ?_, ?_⟩
  · intro hfull
    rcases (alphaLoop_spec val d tau).2.2 with h | ⟨i, hL, _⟩
    · exact h
    · exact absurd hL.1 (not_le.mpr (hfull i))
  · intro β hβ hfeas
    rcases (alphaLoop_spec val d tau).2.2 with h | ⟨i, hL, h⟩
    · rw [h]; nlinarith
    · rw [h]
      have hd := limits_neg hv hL
      have hf := hfeas i
      rw [le_div_iff_of_neg hd]
      nlinarith

/-- Non-vacuity of **C08**: a step that is cut. -/
example : ∃ val d : Fin 1 → ℝ, (∀ i, 0 < val i) ∧ ¬ ∀ i, 0 < val i + d i :=
  ⟨fun _ => 1, fun _ => -2, fun _ => one_pos, by norm_num⟩

/-- **C08, refuted part**: the documented guarantee `val + α d ≥ (1 - tau) val`
(`/repo/include/mini_opt/qp.hpp:266`) fails when the full step is taken. -/
theorem C08_documented_bound_false :
    ∃ val d : Fin 1 → ℝ, (∀ i, 0 < val i) ∧
      val 0 + alphaLoop val d (995 / 1000) * d 0 < (1 - 995 / 1000) * val 0 := by
  refine ⟨fun _ => 1, fun _ => -999 / 1000, fun _ => one_pos, ?_⟩
  have h := (C08_step_length (fun _ : Fin 1 => (1 : ℝ)) (fun _ => -999 / 1000) (995 / 1000)
    (fun _ => one_pos) (by norm_num) (by norm_num)).2.2.2.2.1 (by norm_num)
  rw [h]; norm_num

/-- **C09**. In one iteration, for a nonsingular reduced matrix and an LDLT that meets its contract, the
variables move by `(α_p, α_d)` along a direction that solves the *full* Newton system for the barrier
parameter the iteration reports; in predictor-corrector mode the complementarity row carries the
correction `ds_aff * dz_aff` of an affine direction that itself solves the full system with `mu = 0`. -/
theorem C09_newton_direction (E : Eigen N K ℝ) (hE : LDLTContract E) (p : QP N M K ℝ) (mu : ℝ)
    (strategy : BarrierStrategy) (st st' : IPState N M K ℝ) (out : IPIterationOutputs ℝ)
    (hwf : WF st) (hdet : IsUnit (reducedMatrix p st.v).det)
    (h : iterate E p mu strategy st = .ok (st', out)) :
    ∃ corr d, NewtonSystem p st.v out.mu corr d ∧
      st'.v = step st.v d out.alpha.primal out.alpha.dual ∧
      (strategy ≠ .predictorCorrector → out.mu = mu ∧ corr = 0) ∧
      (0 < M → strategy = .predictorCorrector →
        ∃ daff, NewtonSystem p st.v 0 0 daff ∧ ∀ m, corr m = daff.s m * daff.z m) := by
  obtain ⟨st1, h1, h2, h3, h4, -, -⟩ := iterate_ok h
  have hr := ready_of_ldlt h1
  have hinv := inverse_of_ldlt hE hwf hdet h1
  have hsne : ∀ m, st1.v.s m ≠ 0 := fun m => by rw [hr.v_eq]; exact (hr.spos m).ne'
  have newton : ∀ (mu : ℝ) (s : IPState N M K ℝ), s.v = st1.v → s.r = st1.r → s.Hinv = st1.Hinv →
      NewtonSystem p st.v mu (fun m => s.deltaAff.s m * s.deltaAff.z m) (solveForUpdate p mu s).delta := by
    intro mu s e1 e2 e3
    have := solveForUpdate_newton p mu s (by rw [e1]; exact hsne)
      (by rw [e1, e2, hr.v_eq]; exact hr.rx) (by rw [e1, e2, hr.v_eq]; exact hr.rs)
      (by rw [e1, e2, hr.v_eq]; exact hr.ry) (by rw [e1, e2, hr.v_eq]; exact hr.rz)
      (by rw [e1, e3, hr.v_eq]; exact hinv)
    rw [e1, hr.v_eq] at this
    exact this
  have hstep : st'.v = step st.v (direction p mu strategy st1).1.delta out.alpha.primal out.alpha.dual := by
    rw [h2]
    simp only [applyStep, step, (direction_fields p mu strategy st1).1, hr.v_eq, mul_comm]
  have hz : (fun m : Fin M => st1.deltaAff.s m * st1.deltaAff.z m) = 0 := by
    funext m; rw [hr.aff0]; simp [Blocks.zero]
  by_cases hM : 0 < M
  · by_cases hpc : strategy = .predictorCorrector
    · subst hpc
      have hd : (direction p mu .predictorCorrector st1).1 = solveForUpdate p out.mu
          { solveForUpdate p 0 st1 with deltaAff := (solveForUpdate p 0 st1).delta } := by
        rw [h4]; unfold direction; simp [hM]
      refine ⟨fun m => (solveForUpdate p 0 st1).delta.s m * (solveForUpdate p 0 st1).delta.z m, _, ?_,
        hstep, fun hne => absurd rfl hne, fun _ _ => ⟨(solveForUpdate p 0 st1).delta, ?_, fun _ => rfl⟩⟩
      · rw [hd]
        exact newton out.mu
          { solveForUpdate p 0 st1 with deltaAff := (solveForUpdate p 0 st1).delta } rfl rfl rfl
      · have := newton 0 st1 rfl rfl rfl
        rwa [hz] at this
    · have hd : direction p mu strategy st1 = (solveForUpdate p mu st1, mu, none) := by
        unfold direction; simp [hM, hpc]
      refine ⟨0, _, ?_, hstep, fun _ => ⟨by rw [h4, hd], rfl⟩, fun _ h => absurd h hpc⟩
      have := newton mu st1 rfl rfl rfl
      rw [hz] at this
      rw [h4, hd]; exact this
  · have hd : direction p mu strategy st1 = (solveForUpdate p 0 st1, mu, none) := by
      unfold direction; simp [hM]
    refine ⟨0, _, ?_, hstep, fun _ => ⟨by rw [h4, hd], rfl⟩, fun h => absurd h hM⟩
    have := newton 0 st1 rfl rfl rfl
    rw [hz] at this
    rw [h4, hd]
    refine ⟨this.dual, fun m => absurd m.pos hM, this.eq, this.ineq⟩

/-- **C24**. For a regular problem (in particular for positive definite `G` and independent equality rows), `s > 0`,
`z > 0`: the matrix handed to LDLT is the documented reduced matrix, it is symmetric and nonsingular. -/
theorem C24_nonsingular (p : QP N M K ℝ) (st : IPState N M K ℝ) (hwf : WF st) (hR : Regular p)
    (hs : ∀ m, 0 < st.v.s m) (hz : ∀ m, 0 < st.v.z m) :
    let H : Matrix (Red N K) (Red N K) ℝ := symRed (fillH p true (evaluateKKT p true st))
    H = reducedMatrix p st.v ∧ (∀ r c, H r c = H c r) ∧ IsUnit H.det := by
  have e : symRed (fillH p true (evaluateKKT p true st)) = reducedMatrix p st.v := by
    rw [symRed_fillH p _ (WF_evaluateKKT hwf), evaluateKKT_v]
  refine ⟨e, ?_, ?_⟩
  · intro r c; rw [e]; exact reducedMatrix_symm p st.v r c
  · have := reducedMatrix_nonsing p st.v hR hs hz
    rw [show (symRed (fillH p true (evaluateKKT p true st)) : Matrix (Red N K) (Red N K) ℝ)
      = reducedMatrix p st.v from e]
    exact this

/-- **C24** (converse for the equality rows): dependent equality rows always give a singular matrix. -/
theorem C24_dependent_rows_singular (p : QP N M K ℝ) (v : Blocks N M K ℝ) (hA : ¬ IndependentRows p) :
    ¬ IsUnit (reducedMatrix p v).det := by
  rw [isUnit_iff_ne_zero, not_not]
  unfold IndependentRows at hA
  push Not at hA
  obtain ⟨y, hy, hne⟩ := hA
  apply (Matrix.exists_mulVec_eq_zero_iff (M := reducedMatrix p v)).mp
  refine ⟨Sum.elim 0 y, ?_, ?_⟩
  · intro h; apply hne; funext k; exact congrFun h (.inr k)
  · funext r
    rw [Matrix.mulVec, dotProduct, Fintype.sum_sum_type]
    rcases r with i | k
    · simp [reducedMatrix, hy i]
    · simp [reducedMatrix]

/-- **C24** (exactly which problems). For positive semidefinite `G` (every Gauss-Newton Hessian is), at any `s > 0`,
`z > 0`, the matrix the solver factorises is nonsingular exactly when the problem is regular: the equality rows are
independent and no nonzero direction is invisible to the equality rows, to the inequality constraints and to `G`. -/
theorem C24_nonsingular_iff (p : QP N M K ℝ) (st : IPState N M K ℝ) (hwf : WF st) (hP : PSDG p)
    (hs : ∀ m, 0 < st.v.s m) (hz : ∀ m, 0 < st.v.z m) :
    let H : Matrix (Red N K) (Red N K) ℝ := symRed (fillH p true (evaluateKKT p true st))
    IsUnit H.det ↔ IndependentRows p ∧ ∀ d : Fin N → ℝ, (∀ k, ∑ j, p.A k j * d j = 0) →
      (∀ m, (p.con m).a * d (p.con m).var = 0) → (∀ i, ∑ j, Gsym p i j * d j = 0) → d = 0 := by
  have e : symRed (fillH p true (evaluateKKT p true st)) = reducedMatrix p st.v := by
    rw [symRed_fillH p _ (WF_evaluateKKT hwf), evaluateKKT_v]
  intro H
  rw [show H = reducedMatrix p st.v from e]
  constructor
  · intro h
    have hA : IndependentRows p := by
      by_contra hA
      exact C24_dependent_rows_singular p st.v hA h
    refine ⟨hA, fun d h1 h2 h3 => ?_⟩
    by_contra hd
    have := (regular_of_nonsing p st.v hP hA h).pd d hd h1 h2
    have h0 : ∑ i, ∑ j, d i * Gsym p i j * d j = 0 := by
      refine Finset.sum_eq_zero fun i _ => ?_
      rw [show ∑ j, d i * Gsym p i j * d j = d i * ∑ j, Gsym p i j * d j by
        rw [Finset.mul_sum]; exact Finset.sum_congr rfl fun j _ => by ring, h3 i, mul_zero]
    exact absurd h0 this.ne'
  · rintro ⟨hA, h⟩
    refine reducedMatrix_nonsing p st.v ⟨hA, fun d _ => hP d, fun d hd h1 h2 => ?_⟩ hs hz
    exact lt_of_le_of_ne (hP d) fun h0 => hd (h d h1 h2 (psd_kernel p hP d h0.symm))

/-- `½ x₀²` subject to `x₁ + 1 ≥ 0`: a singular `G`, yet a regular problem (the inequality sees `x₁`). -/
noncomputable def demoSing : QP 2 1 0 ℝ :=
  ⟨fun i j => if i = 0 ∧ j = 0 then 1 else 0, fun _ => 0, fun k => k.elim0, fun k => k.elim0, fun _ => ⟨1, 1, 1⟩⟩

theorem demoSing_quad (d : Fin 2 → ℝ) : ∑ i, ∑ j, d i * Gsym demoSing i j * d j = d 0 * d 0 := by
  simp [Fin.sum_univ_two, Gsym, demoSing]

theorem demoSing_regular : Regular demoSing where
  rows y _ := by funext k; exact k.elim0
  psd d _ := by rw [demoSing_quad]; exact mul_self_nonneg _
  pd d hd _ hc := by
    rw [demoSing_quad]
    refine lt_of_le_of_ne (mul_self_nonneg _) fun h0 => hd ?_
    have h1 : d 1 = 0 := by simpa [demoSing] using hc 0
    have h2 : d 0 = 0 := mul_self_eq_zero.mp h0.symm
    funext i
    fin_cases i
    · exact h2
    · exact h1

/-- Non-vacuity of **C24**: `demoSing` is regular, positive semidefinite and not positive definite. -/
example : Regular demoSing ∧ PSDG demoSing ∧ ¬ PosDefG demoSing :=
  ⟨demoSing_regular, fun d => by rw [demoSing_quad]; exact mul_self_nonneg _, fun h => by
    have := h ![0, 1] (fun h0 => by simpa using congrFun h0 1)
    rw [demoSing_quad] at this
    simp at this⟩

/-- Non-vacuity of **C09**/**C24**: the demo problem meets the hypotheses. -/
example : ∃ st : IPState 2 1 1 ℝ, WF st ∧ PosDefG demoQP ∧ IndependentRows demoQP ∧
    (∀ m, 0 < st.v.s m) ∧ (∀ m, 0 < st.v.z m) ∧ LDLTContract (exactEigen : Eigen 2 1 ℝ) ∧
    ∃ r, iterate exactEigen demoQP 1 .predictorCorrector st = .ok r := by
  refine ⟨setupState demoJunk, setupState_WF _, demo_posdef, demo_rows, ?_, ?_, exactEigen_contract, ?_⟩
  · intro m; norm_num [setupState, demoJunk]
  · intro m; norm_num [setupState, demoJunk]
  · cases h : iterate exactEigen demoQP 1 .predictorCorrector (setupState demoJunk) with
    | ok r => exact ⟨r, rfl⟩
    | error e =>
      rcases iterate_error h with ⟨_, hn⟩ | ⟨m, hm⟩
      · exact absurd hn (exactEigen_total _)
      · norm_num [setupState, demoJunk] at hm

/-- The signed direction `(dx, ds, -dy, -dz)` multiplied by the full matrix (`qp.cc:587-592`). -/
def signedDir (d : Blocks N M K ℝ) : Full N M K → ℝ
  | .x i => d.x i
  | .s i => d.s i
  | .y i => -d.y i
  | .z i => -d.z i

/-- **C09** (test oracle). The system assembled by `BuildFullSystem` is the Newton system with `mu = 0`:
a direction solves one exactly when it solves the other. -/
theorem C09_full_system (p : QP N M K ℝ) (v d : Blocks N M K ℝ) (hs : ∀ m, v.s m ≠ 0) :
    NewtonSystem p v 0 0 d ↔
      (∀ row : Full N M K,
        (∑ i, fullH p v row (.x i) * signedDir d (.x i)) + (∑ i, fullH p v row (.s i) * signedDir d (.s i))
        + (∑ i, fullH p v row (.y i) * signedDir d (.y i))
        + (∑ i, fullH p v row (.z i) * signedDir d (.z i))
        = - (match row with
          | .x i => (fullR p v).x i | .s i => (fullR p v).s i
          | .y i => (fullR p v).y i | .z i => (fullR p v).z i)) := by
  have hAi : ∀ (w : Fin M → ℝ) i, ∑ m, denseAi p m i * w m
      = ∑ m, if (p.con m).var = i then (p.con m).a * w m else 0 := by
    intro w i
    apply Finset.sum_congr rfl
    intro m _
    unfold denseAi
    by_cases h : i = (p.con m).var
    · simp [h]
    · simp [h, Ne.symm h]
  have hAix : ∀ (x : Fin N → ℝ) m, ∑ j, denseAi p m j * x j = (p.con m).a * x (p.con m).var := by
    intro x m
    rw [Finset.sum_eq_single (p.con m).var]
    · simp [denseAi]
    · intro j _ hj; simp [denseAi, hj]
    · simp
  have hRx : ∀ i, (fullR p v).x i = gradLagrangian p v i := by
    intro i
    unfold fullR gradLagrangian
    simp only [real_matVec, real_matTVec, symLower_eq, hAi]
    split_ifs with h1 h2 h2
    · rfl
    · obtain rfl : K = 0 := by omega
      simp
    · obtain rfl : M = 0 := by omega
      simp
    · obtain rfl : K = 0 := by omega
      obtain rfl : M = 0 := by omega
      simp
  constructor
  · rintro ⟨h1, h2, h3, h4⟩ row
    cases row with
    | x i =>
      simp only [fullH, signedDir, symLower_eq, zero_mul, Finset.sum_const_zero, hRx]
      have := h1 i
      have e := hAi (fun m => -d.z m) i
      rw [e]
      simp only [mul_neg, Finset.sum_neg_distrib]
      have e2 : (∑ m, if (p.con m).var = i then -((p.con m).a * d.z m) else 0)
          = - ∑ m, if (p.con m).var = i then (p.con m).a * d.z m else 0 := by
        rw [← Finset.sum_neg_distrib]; apply Finset.sum_congr rfl; intro m _; split_ifs <;> simp
      rw [e2]; linarith
    | s m =>
      simp only [fullH, signedDir, zero_mul, Finset.sum_const_zero, fullR, ite_mul, Finset.sum_ite_eq,
        Finset.mem_univ, if_true]
      have := h2 m
      simp only [Pi.zero_apply, add_zero, sub_zero] at this
      have hsm := hs m
      field_simp
      linarith
    | y k =>
      simp only [fullH, signedDir, zero_mul, Finset.sum_const_zero, fullR, real_matVec]
      have := h3 k
      unfold eqVal at this
      linarith
    | z m =>
      simp only [fullH, signedDir, zero_mul, Finset.sum_const_zero, fullR, real_matVec, hAix, ite_mul,
        Finset.sum_ite_eq, Finset.mem_univ, if_true]
      have := h4 m
      unfold ineqVal at this
      linarith
  · intro h
    refine ⟨fun i => ?_, fun m => ?_, fun k => ?_, fun m => ?_⟩
    · have := h (.x i)
      simp only [fullH, signedDir, symLower_eq, zero_mul, Finset.sum_const_zero, hRx] at this
      have e := hAi (fun m => -d.z m) i
      rw [e] at this
      simp only [mul_neg, Finset.sum_neg_distrib] at this
      have e2 : (∑ m, if (p.con m).var = i then -((p.con m).a * d.z m) else 0)
          = - ∑ m, if (p.con m).var = i then (p.con m).a * d.z m else 0 := by
        rw [← Finset.sum_neg_distrib]; apply Finset.sum_congr rfl; intro m _; split_ifs <;> simp
      rw [e2] at this; linarith
    · have := h (.s m)
      simp only [fullH, signedDir, zero_mul, Finset.sum_const_zero, fullR, ite_mul, Finset.sum_ite_eq,
        Finset.mem_univ, if_true] at this
      simp only [Pi.zero_apply, add_zero, sub_zero]
      have hsm := hs m
      field_simp at this
      linarith
    · have := h (.y k)
      simp only [fullH, signedDir, zero_mul, Finset.sum_const_zero, fullR, real_matVec] at this
      unfold eqVal; linarith
    · have := h (.z m)
      simp only [fullH, signedDir, zero_mul, Finset.sum_const_zero, fullR, real_matVec, hAix, ite_mul,
        Finset.sum_ite_eq, Finset.mem_univ, if_true] at this
      unfold ineqVal; linarith

/-- **C10** (one iteration, inequality part): holds whatever the linear solver returns. -/
theorem C10_ineq_residual_step (E : Eigen N K ℝ) (p : QP N M K ℝ) (mu : ℝ) (strategy : BarrierStrategy)
    (st st' : IPState N M K ℝ) (out : IPIterationOutputs ℝ)
    (h : iterate E p mu strategy st = .ok (st', out)) (m : Fin M) :
    ineqVal p st'.v.x m - st'.v.s m = (1 - out.alpha.primal) * (ineqVal p st.v.x m - st.v.s m) := by
  obtain ⟨st1, h1, h2, -⟩ := iterate_ok h
  have hr := ready_of_ldlt h1
  have hd := direction_ineq p mu strategy st1 m
  rw [hr.rz m] at hd
  rw [h2]
  simp only [applyStep, (direction_fields p mu strategy st1).1, hr.v_eq, ineqVal] at *
  rw [hd]; ring

/-- **C10** (one iteration, equality part). -/
theorem C10_eq_residual_step (E : Eigen N K ℝ) (hE : LDLTContract E) (p : QP N M K ℝ) (mu : ℝ)
    (strategy : BarrierStrategy) (st st' : IPState N M K ℝ) (out : IPIterationOutputs ℝ)
    (hwf : WF st) (hdet : IsUnit (reducedMatrix p st.v).det)
    (h : iterate E p mu strategy st = .ok (st', out)) (k : Fin K) :
    eqVal p st'.v.x k = (1 - out.alpha.primal) * eqVal p st.v.x k := by
  obtain ⟨corr, d, hN, hv, -⟩ := C09_newton_direction E hE p mu strategy st st' out hwf hdet h
  have := hN.eq k
  rw [hv]
  unfold eqVal step at *
  simp only [mul_add, Finset.sum_add_distrib]
  have e : ∑ j, p.A k j * (out.alpha.primal * d.x j) = out.alpha.primal * ∑ j, p.A k j * d.x j := by
    rw [Finset.mul_sum]; exact Finset.sum_congr rfl fun j _ => by ring
  rw [e, this]; ring

/-- The factor by which the primal residuals shrink over a log: `∏ (1 - α_primal)`. -/
noncomputable def shrink (log : List (QPIteration ℝ)) : ℝ :=
  (log.map fun it => 1 - it.ip.alpha.primal).prod

theorem shrink_append (l : List (QPIteration ℝ)) (it : QPIteration ℝ) :
    shrink (l ++ [it]) = shrink l * (1 - it.ip.alpha.primal) := by simp [shrink]

/-- **C10** (whole solve, inequality residuals; no assumption on the linear solver). -/
theorem C10_ineq_residuals (E : Eigen N K ℝ) (p : QP N M K ℝ) (prm : QPParams ℝ)
    (st st0 : IPState N M K ℝ) (r : IPState N M K ℝ × QPOutputs ℝ) (hg : GoodStart prm st)
    (h0 : initialGuess E p prm.initialGuessMethod st = .ok st0) (h : solve E p prm st = .ok r) :
    (0 ≤ shrink r.2.iterations ∧ shrink r.2.iterations ≤ 1) ∧
    ∀ m, ineqVal p r.1.v.x m - r.1.v.s m
      = shrink r.2.iterations * (ineqVal p st0.v.x m - st0.v.s m) := by
  obtain ⟨_, st0', h0', hl⟩ := solve_ok h
  rw [h0] at h0'; cases h0'
  have hpos := goodStart_pos hg h0
  let I : IPState N M K ℝ → List (QPIteration ℝ) → Prop := fun s log =>
    ((∀ m, 0 < s.v.s m) ∧ ∀ m, 0 < s.v.z m) ∧ (0 ≤ shrink log ∧ shrink log ≤ 1) ∧
    ∀ m, ineqVal p s.v.x m - s.v.s m = shrink log * (ineqVal p st0.v.x m - st0.v.s m)
  have step : ∀ st mu log st2 it, I st log → BodyStep E p prm st mu st2 it → I st2 (log ++ [it]) := by
    rintro st mu log st2 it ⟨hp, ⟨hc0, hc1⟩, hres⟩ ⟨⟨st1, h1, rfl⟩, _, _⟩
    have hb : (0 < it.ip.alpha.primal ∧ it.ip.alpha.primal ≤ 1) := by
      obtain ⟨s1, hl1, _, h3, _⟩ := iterate_ok h1
      have hr := ready_of_ldlt hl1
      have hv := (direction_fields p mu prm.barrierStrategy s1).1.trans hr.v_eq
      rw [h3]
      exact (stepAlpha_bounds _ (by rw [hv]; exact hp.1) (by rw [hv]; exact hp.2)).1
    refine ⟨by rw [evaluateKKT_v]; exact iterate_pos h1 hp.2, ?_, ?_⟩
    · rw [shrink_append]
      constructor
      · exact mul_nonneg hc0 (by linarith)
      · nlinarith
    · intro m
      rw [evaluateKKT_v, C10_ineq_residual_step E p mu _ st st1 it.ip h1 m, hres m, shrink_append]; ring
  have := solveLoop_ok_rule E p prm (fun _ s _ log => I s log) (fun r => I r.1 r.2.iterations)
    (fun n st mu log st2 it hI hb _ => step st mu log st2 it hI hb)
    (fun n st mu log st2 it hI hb _ => step st mu log st2 it hI hb)
    (fun st mu log hI => hI)
    (hI := ⟨by rw [evaluateKKT_v]; exact hpos, by simp [shrink], by simp [shrink, evaluateKKT_v]⟩) hl
  exact this.2

/-- **C10** (whole solve, equality residuals). -/
theorem C10_eq_residuals (E : Eigen N K ℝ) (hE : LDLTContract E) (p : QP N M K ℝ) (prm : QPParams ℝ)
    (st st0 : IPState N M K ℝ) (r : IPState N M K ℝ × QPOutputs ℝ) (hg : GoodStart prm st)
    (hwf : WF st) (hR : Regular p)
    (h0 : initialGuess E p prm.initialGuessMethod st = .ok st0) (h : solve E p prm st = .ok r) :
    ∀ k, eqVal p r.1.v.x k = shrink r.2.iterations * eqVal p st0.v.x k := by
  obtain ⟨_, st0', h0', hl⟩ := solve_ok h
  rw [h0] at h0'; cases h0'
  have hpos := goodStart_pos hg h0
  have hwf0 := WF_initialGuess hwf h0
  let I : IPState N M K ℝ → List (QPIteration ℝ) → Prop := fun s log =>
    ((∀ m, 0 < s.v.s m) ∧ ∀ m, 0 < s.v.z m) ∧ WF s ∧
    ∀ k, eqVal p s.v.x k = shrink log * eqVal p st0.v.x k
  have step : ∀ st mu log st2 it, I st log → BodyStep E p prm st mu st2 it → I st2 (log ++ [it]) := by
    rintro st mu log st2 it ⟨hp, hw, hres⟩ ⟨⟨st1, h1, rfl⟩, _, _⟩
    refine ⟨by rw [evaluateKKT_v]; exact iterate_pos h1 hp.2, WF_evaluateKKT (WF_iterate hw h1), ?_⟩
    intro k
    rw [evaluateKKT_v, C10_eq_residual_step E hE p mu _ st st1 it.ip hw
      (reducedMatrix_nonsing p st.v hR hp.1 hp.2) h1 k, hres k, shrink_append]; ring
  have := solveLoop_ok_rule E p prm (fun _ s _ log => I s log) (fun r => I r.1 r.2.iterations)
    (fun n st mu log st2 it hI hb _ => step st mu log st2 it hI hb)
    (fun n st mu log st2 it hI hb _ => step st mu log st2 it hI hb)
    (fun st mu log hI => hI)
    (hI := ⟨by rw [evaluateKKT_v]; exact hpos, WF_evaluateKKT hwf0, by simp [shrink, evaluateKKT_v]⟩) hl
  exact this.2.2

/-- Non-vacuity of **C10**: all hypotheses hold together on the demo problem. -/
example : ∃ r st0, GoodStart QPParams.default (setupState demoJunk : IPState 2 1 1 ℝ) ∧
    WF (setupState demoJunk : IPState 2 1 1 ℝ) ∧ PosDefG demoQP ∧ IndependentRows demoQP ∧
    initialGuess exactEigen demoQP (QPParams.default : QPParams ℝ).initialGuessMethod (setupState demoJunk)
      = .ok st0 ∧
    solve exactEigen demoQP QPParams.default (setupState demoJunk) = .ok r := by
  obtain ⟨r, hr⟩ := demo_returns QPParams.default default_valid (by simp [QPParams.default])
  obtain ⟨_, st0, h0, _⟩ := solve_ok hr
  exact ⟨r, st0, Or.inl (by simp [QPParams.default]), setupState_WF _, demo_posdef, demo_rows, h0, hr⟩

/-! ## C22, C23 -/

/-- **C22** (built-in guesses). When the box is non-empty and all slopes nonzero, the guess has `x` inside
the box, `s ≥ 1e-9` with `s = a x + b` whenever that is at least `1e-9`, and `z = 1/s`. -/
theorem C22_initial_guess (E : Eigen N K ℝ) (p : QP N M K ℝ) (g : InitialGuessMethod)
    (st st0 : IPState N M K ℝ) (hg : g ≠ .userProvided) (hbox : ∃ w, ∀ m, 0 ≤ ineqVal p w m)
    (h : initialGuess E p g st = .ok st0) :
    (∀ m, 0 ≤ ineqVal p st0.v.x m) ∧ (∀ m, 1e-9 ≤ st0.v.s m) ∧
    (∀ m, 1e-9 ≤ ineqVal p st0.v.x m → st0.v.s m = ineqVal p st0.v.x m) ∧
    (∀ m, ineqVal p st0.v.x m < 1e-9 → st0.v.s m = 1e-9) ∧
    (∀ m, st0.v.z m = 1 / st0.v.s m) := by
  obtain ⟨w, hw⟩ := hbox
  obtain ⟨s1, h1⟩ := initialGuess_finish hg h
  obtain ⟨hx, _, hs, hz⟩ := finishGuess_ok h1
  rw [minSlack_val] at hs
  refine ⟨fun m => clampAll_feas p w hw _ [] _ _ (by simp) hx m (Or.inr (by simp)), ?_, ?_, ?_, hz⟩
  · intro m; rw [hs m]; exact le_max_left _ _
  · intro m hm; rw [hs m]; exact max_eq_right hm
  · intro m hm; rw [hs m]; exact max_eq_left hm.le

/-- **C22** (`NAIVE`). `y = 0` and `x` is the point of the box nearest to the origin, coordinate by
coordinate. -/
theorem C22_naive (E : Eigen N K ℝ) (p : QP N M K ℝ) (st st0 : IPState N M K ℝ)
    (h : initialGuess E p .naive st = .ok st0) :
    (∀ k, st0.v.y k = 0) ∧ clampAll p (List.finRange M) (fun _ => 0) = .ok st0.v.x ∧
      ((∀ m, 0 ≤ (p.con m).b) → ∀ i, st0.v.x i = 0) := by
  have h' : finishGuess p { st with v := { st.v with x := fun _ => 0, y := fun _ => 0 } } = .ok st0 := h
  obtain ⟨hx, hy, _, _⟩ := finishGuess_ok h'
  refine ⟨fun k => by rw [hy], hx, fun hb i => ?_⟩
  have := clampAll_id p (fun _ => 0) st0.v.x (List.finRange M) (fun m _ => by
    simp only [ineqVal, mul_zero, zero_add]; exact hb m) hx
  rw [this]

/-- **C22** (`USER_PROVIDED`). Nothing changes. -/
theorem C22_user_provided {α : Type} [Scalar α] (E : Eigen N K α) (p : QP N M K α) (st : IPState N M K α) :
    initialGuess E p .userProvided st = .ok st := rfl

/-- The KKT conditions of the equality-constrained problem. -/
def EqualityKKT (p : QP N M K ℝ) (x : Fin N → ℝ) (y : Fin K → ℝ) : Prop :=
  (∀ i, (∑ j, Gsym p i j * x j) + p.c i - ∑ k, p.A k i * y k = 0) ∧ ∀ k, eqVal p x k = 0

/-- **C22** (`SOLVE_EQUALITY_CONSTRAINED`). The unclamped point `(x1, y1)` satisfies the KKT conditions of
the problem without inequalities; the guess is that point with `x` clamped, and is that point itself when
it violates no bound. -/
theorem C22_solve_equality (E : Eigen N K ℝ) (hE : LDLTContract E) (p : QP N M K ℝ)
    (st st0 : IPState N M K ℝ) (hwf : WF st) (hG : PosDefOnNull p) (hA : IndependentRows p)
    (h : initialGuess E p .solveEqualityConstrained st = .ok st0) :
    ∃ x1, EqualityKKT p x1 st0.v.y ∧ clampAll p (List.finRange M) x1 = .ok st0.v.x ∧
      ((∀ m, 0 ≤ ineqVal p x1 m) → st0.v.x = x1) := by
  unfold initialGuess at h
  dsimp only at h
  split at h
  · cases h
  · rename_i s1 h1
    obtain ⟨_, hH, hs1⟩ := computeLDLT_ok h1
    set sz : IPState N M K ℝ := { st with v := { st.v with x := fun _ => 0, y := fun _ => 0 } }
    have hwfz : WF sz := hwf
    rw [symRed_fillH_false p sz hwfz] at hH
    have hinv := hE _ _ (kktMatrix_symm p) (kktMatrix_nonsing p hG hA) hH
    have hx0 : s1.v.x = fun _ => 0 := by rw [hs1]
    have hy0 : s1.v.y = fun _ => 0 := by rw [hs1]
    set s2 := solveForUpdateNoIneq (evaluateKKT p false s1) with hs2
    have hsol := applyInv_solves (evaluateKKT p false s1) (evaluateKKT p false s1).r.x (kktMatrix p)
      (by
        have : (evaluateKKT p false s1).Hinv = s1.Hinv := rfl
        rw [this]; exact hinv)
    obtain ⟨hx, hy, _, _⟩ := finishGuess_ok h
    refine ⟨s2.delta.x, ⟨?_, ?_⟩, hx, fun hf => clampAll_id p _ _ _ (fun m _ => hf m) hx⟩
    · intro i
      have := hsol (.inl i)
      rw [Sum.elim_inl, evaluateKKT_false_rx, hx0, hy0] at this
      simp only [kktMatrix, mul_zero, Finset.sum_const_zero, zero_add, sub_zero] at this
      rw [hy]
      show (∑ j, Gsym p i j * applyInvX (evaluateKKT p false s1) (evaluateKKT p false s1).r.x j) + p.c i
        - ∑ k, p.A k i * applyInvY (evaluateKKT p false s1) (evaluateKKT p false s1).r.x k = 0
      linarith
    · intro k
      have := hsol (.inr k)
      rw [Sum.elim_inr, evaluateKKT_ry, hx0] at this
      simp only [kktMatrix, zero_mul, Finset.sum_const_zero, sub_zero] at this
      show (∑ j, p.A k j * applyInvX (evaluateKKT p false s1) (evaluateKKT p false s1).r.x j) + p.b k = 0
      rw [this]; simp [eqVal]

/-- A KKT point of the equality-constrained problem is its strict minimiser (so the point in
`C22_solve_equality` is the equality-constrained minimiser). -/
theorem C22_kkt_is_minimiser (p : QP N M K ℝ) (hG : PosDefOnNull p) (x : Fin N → ℝ) (y : Fin K → ℝ)
    (h : EqualityKKT p x y) (x' : Fin N → ℝ) (hx' : ∀ k, eqVal p x' k = 0) (hne : x' ≠ x) :
    objective p x < objective p x' := by
  have hd := hG (x' - x) (sub_ne_zero.mpr hne) (fun k => by
    have h1 := h.2 k
    have h2 := hx' k
    unfold eqVal at h1 h2
    simp only [Pi.sub_apply, mul_sub, Finset.sum_sub_distrib]
    linarith)
  -- expand the objective at x' around x
  have hexp := objective_expand p x x'
  have hlin : ∑ i, ((∑ j, Gsym p i j * x j) + p.c i) * (x' i - x i) = 0 := by
    have e : ∀ i, (∑ j, Gsym p i j * x j) + p.c i = ∑ k, p.A k i * y k := fun i => by
      have := h.1 i; linarith
    simp only [e, Finset.sum_mul]
    rw [Finset.sum_comm]
    apply Finset.sum_eq_zero
    intro k _
    have h1 := h.2 k
    have h2 := hx' k
    unfold eqVal at h1 h2
    have : ∑ i, p.A k i * y k * (x' i - x i) = y k * ((∑ i, p.A k i * x' i) - ∑ i, p.A k i * x i) := by
      rw [← Finset.sum_sub_distrib, Finset.mul_sum]
      exact Finset.sum_congr rfl fun i _ => by ring
    rw [this, show (∑ i, p.A k i * x' i) - ∑ i, p.A k i * x i = 0 by linarith, mul_zero]
  rw [hexp, hlin]
  linarith

/-- **C23**. From a built-in guess with a non-empty box, whatever the linear solver returns and for every
iteration budget (hence for every iterate), `a x + b > -1e-9` for every constraint, and `a x + b > 0` for
every constraint whose guess was at least `1e-9` inside. -/
theorem C23_bounds_respected (E : Eigen N K ℝ) (p : QP N M K ℝ) (prm : QPParams ℝ)
    (st st0 : IPState N M K ℝ) (r : IPState N M K ℝ × QPOutputs ℝ)
    (hg : prm.initialGuessMethod ≠ .userProvided) (hbox : ∃ w, ∀ m, 0 ≤ ineqVal p w m)
    (h0 : initialGuess E p prm.initialGuessMethod st = .ok st0) (h : solve E p prm st = .ok r) (m : Fin M) :
    -1e-9 < ineqVal p r.1.v.x m ∧ (1e-9 ≤ ineqVal p st0.v.x m → 0 < ineqVal p r.1.v.x m) := by
  have hG : GoodStart prm st := Or.inl hg
  obtain ⟨⟨hc0, hc1⟩, hres⟩ := C10_ineq_residuals E p prm st st0 r hG h0 h
  have hpos := (C07_slacks_positive E p prm st hG).1 r h
  obtain ⟨h1, _, h3, h4, _⟩ := C22_initial_guess E p _ st st0 hg hbox h0
  have hr := hres m
  have hs := hpos.1 m
  rcases le_or_gt 1e-9 (ineqVal p st0.v.x m) with hge | hlt
  · rw [h3 m hge] at hr
    have : 0 < ineqVal p r.1.v.x m := by nlinarith
    refine ⟨?_, fun _ => this⟩
    have : (0:ℝ) < 1e-9 := by norm_num
    linarith
  · rw [h4 m hlt] at hr
    have := h1 m
    refine ⟨?_, fun hge => absurd hge (not_le.mpr hlt)⟩
    nlinarith

/-- Non-vacuity of **C22**/**C23** with both built-in guesses. -/
example (g : InitialGuessMethod) (hg : g ≠ .userProvided) :
    ∃ r, solve exactEigen demoQP { (QPParams.default : QPParams ℝ) with initialGuessMethod := g }
      (setupState demoJunk) = .ok r :=
  demo_returns _ (by rw [checkParams_ok_iff]; exact (checkParams_ok_iff _).mp default_valid) hg

end MiniOpt.Props
