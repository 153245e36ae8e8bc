import Verif.Lemmas.QPTraj
import Verif.Props.QPIterates

/-!
# C11–C17, C20: what a finished `Solve` guarantees and what its log says
-/

set_option autoImplicit false

namespace MiniOpt.Props

open MiniOpt MiniOpt.Spec MiniOpt.IP

/-! ## C13, C14: the log (any arithmetic) -/

section generic
variable {α : Type} [Scalar α] {N M K : Nat}

/-- The documented exit test, on the residual norms after an iteration and the variables after it:
largest norm below `termination_kkt_tol`, average complementarity (0 without inequalities) below
`termination_complementarity_tol`. -/
def MeetsExit (prm : QPParams α) (kktFinal : KKTError α) (v : Blocks N M K α) : Prop :=
  kktFinal.max < prm.terminationKktTol ∧
    (if 0 < M then dot v.s v.z / Scalar.lit M else 0) < prm.terminationComplementarityTol

/-- The variables after `k` iterations, as a user can observe them: the initial guess for `k = 0`,
otherwise what the same call leaves when `max_iterations` is `k`. -/
def IterateIs (E : Eigen N K α) (p : QP N M K α) (prm : QPParams α) (st : IPState N M K α) (k : Nat)
    (v : Blocks N M K α) : Prop :=
  if k = 0 then ∃ st0, initialGuess E p prm.initialGuessMethod st = .ok st0 ∧ v = st0.v
  else ∃ r, solve E p { prm with maxIterations := k } st = .ok r ∧ v = r.1.v

theorem traj_iterate {E : Eigen N K α} {p : QP N M K α} {prm : QPParams α} {st st0 : IPState N M K α}
    {its : List (QPIteration α)} {sts : Nat → IPState N M K α} {mus : Nat → α}
    (hc : checkParams prm = .ok ())
    (h0 : initialGuess E p prm.initialGuessMethod st = .ok st0)
    (ht : Traj E p prm (evaluateKKT p true st0) (initialMu prm (evaluateKKT p true st0)) its sts mus)
    {k : Nat} (hk : k ≤ its.length) : IterateIs E p prm st k (sts k).v := by
  unfold IterateIs
  split_ifs with h
  · subst h; exact ⟨st0, h0, by rw [ht.s0, evaluateKKT_v']⟩
  · obtain ⟨t, h1, _⟩ := solve_truncated hc h0 ht (Nat.pos_of_ne_zero h) hk
    exact ⟨_, h1, rfl⟩

theorem IterateIs.unique {E : Eigen N K α} {p : QP N M K α} {prm : QPParams α} {st : IPState N M K α}
    {k : Nat} {v v' : Blocks N M K α} (h : IterateIs E p prm st k v) (h' : IterateIs E p prm st k v') :
    v = v' := by
  unfold IterateIs at h h'
  split_ifs at h h'
  · obtain ⟨a, ha, rfl⟩ := h; obtain ⟨b, hb, rfl⟩ := h'; rw [ha] at hb; cases hb; rfl
  · obtain ⟨a, ha, rfl⟩ := h; obtain ⟨b, hb, rfl⟩ := h'; rw [ha] at hb; cases hb; rfl

/-- **C13** (any arithmetic). `Solve` logs between 1 and `max_iterations` iterations. With
`MAX_ITERATIONS` exactly `max_iterations` were logged and the last one did not meet the exit test; with
`SATISFIED_KKT_TOL` the last one met it. -/
theorem C13_iteration_count (E : Eigen N K α) (p : QP N M K α) (prm : QPParams α)
    (st : IPState N M K α) (r : IPState N M K α × QPOutputs α) (h : solve E p prm st = .ok r) :
    1 ≤ r.2.iterations.length ∧ (r.2.iterations.length : Int) ≤ prm.maxIterations ∧
    (r.2.termination = .maxIterations → (r.2.iterations.length : Int) = prm.maxIterations ∧
      ∃ it, r.2.iterations.getLast? = some it ∧ ¬ MeetsExit prm it.kktFinal r.1.v) ∧
    (r.2.termination = .satisfiedKktTol →
      ∃ it, r.2.iterations.getLast? = some it ∧ MeetsExit prm it.kktFinal r.1.v) := by
  obtain ⟨st0, sts, mus, h0, ht, h1, h2, h3, h4, h5, h6⟩ := solve_traj h
  have hne : r.2.iterations ≠ [] := List.length_pos_iff.mp h1
  refine ⟨h1, h2, fun hT => ?_, fun hT => ?_⟩
  · obtain ⟨a, b⟩ := h5 hT
    exact ⟨a, _, List.getLast?_eq_some_getLast hne, b _ (List.getLast?_eq_some_getLast hne)⟩
  · obtain ⟨it, hi, hx⟩ := h6 hT
    exact ⟨it, hi, hx⟩

/-- **C13** (any arithmetic), continued. Iterations do not depend on the budget: with a smaller budget
`k` the same call logs exactly the first `k` iterations, reports `MAX_ITERATIONS`, and its iterate does
not meet the exit test. So no iteration before the last logged one met it. -/
theorem C13_prefix (E : Eigen N K α) (p : QP N M K α) (prm : QPParams α)
    (st : IPState N M K α) (r : IPState N M K α × QPOutputs α) (h : solve E p prm st = .ok r)
    (k : Nat) (hk0 : 0 < k) (hk : k < r.2.iterations.length) :
    ∃ rk, solve E p { prm with maxIterations := k } st = .ok rk ∧
      rk.2.iterations = r.2.iterations.take k ∧ rk.2.termination = .maxIterations ∧
      ∃ it, r.2.iterations[k - 1]? = some it ∧ ¬ MeetsExit prm it.kktFinal rk.1.v := by
  obtain ⟨hc, -⟩ := solve_ok h
  obtain ⟨st0, sts, mus, h0, ht, -⟩ := solve_traj h
  obtain ⟨t, h1, h2⟩ := solve_truncated hc h0 ht hk0 hk.le
  refine ⟨_, h1, rfl, h2 hk, r.2.iterations[k - 1], by simp, ?_⟩
  obtain ⟨j, rfl⟩ : ∃ j, k = j + 1 := ⟨k - 1, by omega⟩
  exact ht.noexit j hk

/-- **C14** (any arithmetic). The three norms that do not involve the barrier parameter are handed on
unchanged from one logged iteration to the next. -/
theorem C14_log_chain (E : Eigen N K α) (p : QP N M K α) (prm : QPParams α)
    (st : IPState N M K α) (r : IPState N M K α × QPOutputs α) (h : solve E p prm st = .ok r)
    (k : Nat) (a b : QPIteration α) (ha : r.2.iterations[k]? = some a)
    (hb : r.2.iterations[k + 1]? = some b) :
    b.kktInitial.rDual = a.kktFinal.rDual ∧ b.kktInitial.rPrimalEq = a.kktFinal.rPrimalEq ∧
    b.kktInitial.rPrimalIneq = a.kktFinal.rPrimalIneq := by
  obtain ⟨st0, sts, mus, h0, ht, -⟩ := solve_traj h
  obtain ⟨hk, rfl⟩ := List.getElem?_eq_some_iff.mp ha
  obtain ⟨hk1, rfl⟩ := List.getElem?_eq_some_iff.mp hb
  rw [(ht.body k hk).fin, (ht.body (k + 1) hk1).init]
  exact ⟨rfl, rfl, rfl⟩

end generic

variable {N M K : Nat}

/-! ## C17 -/

/-- **C17**. The logged complementarity norm, computed from an expanded square, is the Euclidean norm of
`s z - mu`; the argument of the square root is never negative, so the `max(·, 0)` is the identity. -/
theorem C17_r_comp (w : Fin M → ℝ) (mu : ℝ) :
    (∑ m, (w m - mu) ^ 2) = (∑ m, w m ^ 2) - 2 * ((∑ m, w m) * mu) + (mu * mu) * M ∧
    0 ≤ (∑ m, w m ^ 2) - 2 * ((∑ m, w m) * mu) + (mu * mu) * M ∧
    ∀ st : IPState N M K ℝ, st.r.s = w → (computeErrors mu st).rComp = l2 fun m => w m - mu := by
  have e : (∑ m, (w m - mu) ^ 2) = (∑ m, w m ^ 2) - 2 * ((∑ m, w m) * mu) + (mu * mu) * M := by
    have : ∀ m, (w m - mu) ^ 2 = w m ^ 2 - 2 * (w m * mu) + mu * mu := fun m => by ring
    simp only [this, Finset.sum_add_distrib, Finset.sum_sub_distrib, Finset.sum_const,
      Finset.card_univ, Fintype.card_fin, nsmul_eq_mul]
    rw [← Finset.mul_sum, ← Finset.sum_mul]; ring
  have e0 : 0 ≤ (∑ m, w m ^ 2) - 2 * ((∑ m, w m) * mu) + (mu * mu) * M := by
    rw [← e]; exact Finset.sum_nonneg fun m _ => sq_nonneg _
  refine ⟨e, e0, ?_⟩
  rintro st rfl
  unfold computeErrors l2
  simp only
  split_ifs with hM
  · simp only [real_sqrt, real_cmax, real_lit, real_squaredNorm, real_vsum]
    have : (2 : ℚ) = ((2 : ℚ) : ℝ) := by norm_num
    rw [e]
    push_cast
    rw [max_eq_left e0]
  · obtain rfl : M = 0 := by omega
    simp

example : l2 (fun m : Fin 1 => (![3] : Fin 1 → ℝ) m - 1) = 2 := by
  unfold l2
  simp only [Finset.univ_unique, Fin.default_eq_zero, Finset.sum_singleton, Matrix.cons_val_zero]
  rw [Real.sqrt_eq_iff_mul_self_eq] <;> norm_num

theorem computeErrors_spec (p : QP N M K ℝ) (st : IPState N M K ℝ) (mu : ℝ) :
    computeErrors mu (evaluateKKT p true st) = kktError p st.v mu := by
  have hc := (C17_r_comp (N := N) (K := K) (fun m => st.v.s m * st.v.z m) mu).2.2 (evaluateKKT p true st) rfl
  have hd : (computeErrors mu (evaluateKKT p true st)).rDual = l2 (gradLagrangian p st.v) := by
    unfold computeErrors l2
    simp only [real_norm2, evaluateKKT_rx]
  have he : (computeErrors mu (evaluateKKT p true st)).rPrimalEq = l2 (eqVal p st.v.x) := by
    unfold computeErrors l2
    simp only
    split_ifs with hK
    · simp only [real_norm2, evaluateKKT_ry]
    · obtain rfl : K = 0 := by omega
      simp
  have hi : (computeErrors mu (evaluateKKT p true st)).rPrimalIneq
      = l2 fun m => ineqVal p st.v.x m - st.v.s m := by
    unfold computeErrors l2
    simp only
    split_ifs with hM
    · simp only [real_norm2, evaluateKKT_rz]
    · obtain rfl : M = 0 := by omega
      simp
  cases hX : computeErrors mu (evaluateKKT p true st) with
  | mk a b c d =>
    rw [hX] at hc hd he hi
    simp only at hc hd he hi
    simp only [kktError, hc, hd, he, hi]

theorem computeMu_spec (st : IPState N M K ℝ) : computeMu st = avgComp st.v := by
  unfold computeMu avgComp
  split_ifs with hM
  · rw [real_dot]; simp
  · obtain rfl : M = 0 := by omega
    simp

theorem avgComp_pos (hM : 0 < M) (v : Blocks N M K ℝ) (hs : ∀ m, 0 < v.s m) (hz : ∀ m, 0 < v.z m) :
    0 < avgComp v := by
  unfold avgComp
  have : Nonempty (Fin M) := ⟨⟨0, hM⟩⟩
  refine div_pos (Finset.sum_pos (fun m _ => mul_pos (hs m) (hz m)) Finset.univ_nonempty) ?_
  exact_mod_cast hM

/-! ## C14 (meaning), C16: what the log records -/

/-- States along a trajectory are always freshly evaluated. -/
theorem traj_fresh {E : Eigen N K ℝ} {p : QP N M K ℝ} {prm : QPParams ℝ} {st0 : IPState N M K ℝ}
    {mu0 : ℝ} {its : List (QPIteration ℝ)} {sts : Nat → IPState N M K ℝ} {mus : Nat → ℝ}
    (ht : Traj E p prm (evaluateKKT p true st0) mu0 its sts mus) (k : Nat) (hk : k ≤ its.length) :
    ∃ s, sts k = evaluateKKT p true s := by
  cases k with
  | zero => exact ⟨st0, ht.s0⟩
  | succ k =>
    obtain ⟨s1, _, h⟩ := (ht.body k hk).out
    exact ⟨s1, h⟩

theorem traj_pos {E : Eigen N K ℝ} {p : QP N M K ℝ} {prm : QPParams ℝ} {st0 : IPState N M K ℝ}
    {mu0 : ℝ} {its : List (QPIteration ℝ)} {sts : Nat → IPState N M K ℝ} {mus : Nat → ℝ}
    (h0 : (∀ m, 0 < st0.v.s m) ∧ ∀ m, 0 < st0.v.z m)
    (ht : Traj E p prm (evaluateKKT p true st0) mu0 its sts mus) (k : Nat) (hk : k ≤ its.length) :
    (∀ m, 0 < (sts k).v.s m) ∧ ∀ m, 0 < (sts k).v.z m := by
  induction k with
  | zero => rw [ht.s0, evaluateKKT_v]; exact h0
  | succ k ih =>
    obtain ⟨s1, h1, h2⟩ := (ht.body k hk).out
    rw [h2, evaluateKKT_v]
    exact iterate_pos h1 (ih (by omega)).2

/-- **C16**, **C14** (meaning of the log). For every finished solve there are iterates `vs 0, vs 1, …`
(observable, see `IterateIs`) and barrier parameters `m 0, m 1, …` such that iteration `k` starts from
`vs k`, ends in `vs (k+1)`, and logs the residual norms of those two points recomputed from the problem
data with barrier parameter `m k`. The barrier starts at `initial_mu` (or the initial average
complementarity), is what non-predictor strategies log, and afterwards follows the documented rule.
It is positive as long as there are inequality constraints. -/
theorem C16_barrier_schedule (E : Eigen N K ℝ) (p : QP N M K ℝ) (prm : QPParams ℝ)
    (st : IPState N M K ℝ) (hg : GoodStart prm st)
    (r : IPState N M K ℝ × QPOutputs ℝ) (h : solve E p prm st = .ok r) :
    ∃ (vs : Nat → Blocks N M K ℝ) (m : Nat → ℝ),
      (∀ k ≤ r.2.iterations.length, IterateIs E p prm st k (vs k)) ∧
      vs r.2.iterations.length = r.1.v ∧
      m 0 = (if prm.initializeMuWithComplementarity then avgComp (vs 0) else prm.initialMu) ∧
      (0 < M → ∀ k ≤ r.2.iterations.length, 0 < m k) ∧
      ∀ k it, r.2.iterations[k]? = some it →
        it.kktInitial = kktError p (vs k) (m k) ∧
        it.kktFinal = kktError p (vs (k + 1)) (m k) ∧
        (prm.barrierStrategy ≠ .predictorCorrector → it.ip.mu = m k) ∧
        m (k + 1) =
          (if prm.decreaseMuOnlyOnSmallError = true ∧ ¬ (kktError p (vs (k + 1)) (m k)).max ≤ m k then m k
           else if prm.barrierStrategy = .fixedDecrease then m k * prm.sigma
           else prm.sigma * avgComp (vs (k + 1))) := by
  obtain ⟨hc, -⟩ := solve_ok h
  obtain ⟨st0, sts, mus, h0, ht, h1, h2, h3, h4, h5, h6⟩ := solve_traj h
  have hprm := (checkParams_ok_iff prm).mp hc
  have hpos := goodStart_pos hg h0
  have hfin : ∀ k, k ≤ r.2.iterations.length → ∀ mu, computeErrors mu (sts k) = kktError p (sts k).v mu := by
    intro k hk mu
    obtain ⟨s, hs⟩ := traj_fresh ht k hk
    rw [hs, computeErrors_spec, evaluateKKT_v]
  have hstep : ∀ k (hk : k < r.2.iterations.length), mus (k + 1) =
      (if prm.decreaseMuOnlyOnSmallError = true ∧ ¬ (kktError p (sts (k + 1)).v (mus k)).max ≤ mus k
        then mus k
       else if prm.barrierStrategy = .fixedDecrease then mus k * prm.sigma
       else prm.sigma * avgComp (sts (k + 1)).v) := by
    intro k hk
    rw [ht.mu k hk, (ht.body k hk).fin, hfin (k + 1) hk, nextMu, computeMu_spec]
    cases hb : prm.decreaseMuOnlyOnSmallError
    · simp
    · by_cases hle : (kktError p (sts (k + 1)).v (mus k)).max ≤ mus k <;> simp [hle]
  refine ⟨fun k => (sts k).v, mus, fun k hk => traj_iterate hc h0 ht hk, (congrArg IPState.v h3).symm, ?_, ?_, ?_⟩
  · rw [ht.m0, initialMu, computeMu_spec]; simp only [ht.s0]
  · intro hM k
    induction k with
    | zero =>
      intro _
      rw [ht.m0, initialMu, computeMu_spec]
      split_ifs
      · rw [evaluateKKT_v]; exact avgComp_pos hM _ hpos.1 hpos.2
      · exact hprm.1
    | succ k ih =>
      intro hk
      have hm := ih (by omega)
      have hv := traj_pos hpos ht (k + 1) hk
      rw [hstep k hk]
      split_ifs
      · exact hm
      · exact mul_pos hm hprm.2.1
      · exact mul_pos hprm.2.1 (avgComp_pos hM _ hv.1 hv.2)
  · intro k it hi
    obtain ⟨hk, rfl⟩ := List.getElem?_eq_some_iff.mp hi
    refine ⟨by rw [(ht.body k hk).init, hfin k hk.le], by rw [(ht.body k hk).fin, hfin (k + 1) hk], ?_,
      hstep k hk⟩
    intro hne
    obtain ⟨s1, hit, _⟩ := (ht.body k hk).out
    obtain ⟨st1, -, -, -, hmu, -⟩ := iterate_ok hit
    rw [hmu]
    unfold direction
    split_ifs
    · rfl
    · rfl

/-- **C16**, closed form: under `FIXED_DECREASE` without the small-error gate, iteration `k` logs
`initial_mu * sigma ^ k`. -/
theorem C16_fixed_decrease (E : Eigen N K ℝ) (p : QP N M K ℝ) (prm : QPParams ℝ)
    (st : IPState N M K ℝ) (hg : GoodStart prm st)
    (hf : prm.barrierStrategy = .fixedDecrease) (hgate : prm.decreaseMuOnlyOnSmallError = false)
    (hini : prm.initializeMuWithComplementarity = false)
    (r : IPState N M K ℝ × QPOutputs ℝ) (h : solve E p prm st = .ok r) (k : Nat) (it : QPIteration ℝ)
    (hit : r.2.iterations[k]? = some it) : it.ip.mu = prm.initialMu * prm.sigma ^ k := by
  obtain ⟨vs, m, -, -, hm0, -, hm⟩ := C16_barrier_schedule E p prm st hg r h
  obtain ⟨hk, -⟩ := List.getElem?_eq_some_iff.mp hit
  rw [(hm k it hit).2.2.1 (by rw [hf]; simp)]
  have : ∀ j ≤ k, m j = prm.initialMu * prm.sigma ^ j := by
    intro j
    induction j with
    | zero => intro _; rw [hm0, hini]; simp
    | succ j ih =>
      intro hj
      have hj' : r.2.iterations[j]? = some r.2.iterations[j] := by simp
      rw [(hm j _ hj').2.2.2, hgate, hf, ih (by omega)]
      simp [pow_succ, mul_assoc]
  exact this k le_rfl

/-- The hypotheses of C13–C16 are met. -/
example : ∃ r, solve exactEigen demoQP { (QPParams.default : QPParams ℝ) with
      barrierStrategy := .fixedDecrease } (setupState demoJunk) = .ok r :=
  demo_returns _ (by rw [checkParams_ok_iff]; exact (checkParams_ok_iff _).mp default_valid)
    (by simp [QPParams.default])

/-! ## C11, C12 -/

theorem kktMax_lt {e : KKTError ℝ} {t : ℝ} (h : e.max < t) :
    e.rDual < t ∧ e.rComp < t ∧ e.rPrimalEq < t ∧ e.rPrimalIneq < t := by
  unfold KKTError.max at h
  simp only [real_cmax, max_lt_iff] at h
  exact ⟨h.1.1.1, h.1.1.2, h.1.2, h.2⟩

/-- **C11**. `SATISFIED_KKT_TOL` is truthful: recomputed from the problem data, the returned variables
have a Lagrangian gradient, equality residual and slack residual with Euclidean norm below
`termination_kkt_tol`, complementarity within that tolerance of the last barrier parameter, and average
complementarity below `termination_complementarity_tol`. No assumption on the linear solver. -/
theorem C11_satisfied_truthful (E : Eigen N K ℝ) (p : QP N M K ℝ) (prm : QPParams ℝ)
    (st : IPState N M K ℝ) (r : IPState N M K ℝ × QPOutputs ℝ) (h : solve E p prm st = .ok r)
    (hT : r.2.termination = .satisfiedKktTol) :
    l2 (gradLagrangian p r.1.v) < prm.terminationKktTol ∧
    l2 (eqVal p r.1.v.x) < prm.terminationKktTol ∧
    l2 (fun m => ineqVal p r.1.v.x m - r.1.v.s m) < prm.terminationKktTol ∧
    avgComp r.1.v < prm.terminationComplementarityTol ∧
    ∃ mu, l2 (fun m => r.1.v.s m * r.1.v.z m - mu) < prm.terminationKktTol ∧
      (prm.barrierStrategy ≠ .predictorCorrector → r.2.iterations.getLast?.map (·.ip.mu) = some mu) := by
  obtain ⟨st0, sts, mus, h0, ht, h1, h2, h3, h4, h5, h6⟩ := solve_traj h
  obtain ⟨it, hi, hx⟩ := h6 hT
  obtain ⟨j, hj⟩ : ∃ j, r.2.iterations.length = j + 1 := ⟨r.2.iterations.length - 1, by omega⟩
  have hjl : j < r.2.iterations.length := by omega
  have hit : it = r.2.iterations[j] := by
    rw [List.getLast?_eq_getElem?, hj] at hi
    simp only [Nat.add_sub_cancel, Option.mem_def] at hi
    obtain ⟨_, rfl⟩ := List.getElem?_eq_some_iff.mp hi; rfl
  have hb := ht.body j hjl
  rw [← hit] at hb
  obtain ⟨s, hs⟩ := traj_fresh ht (j + 1) (by omega)
  have hr : r.1 = evaluateKKT p true s := by rw [h3, hj, hs]
  have hf := hb.fin
  rw [hs, computeErrors_spec] at hf
  have hrv : r.1.v = s.v := by rw [hr, evaluateKKT_v]
  obtain ⟨hx1, hx2⟩ := hx
  rw [hf] at hx1
  obtain ⟨a, b, c, d⟩ := kktMax_lt hx1
  rw [computeMu_spec] at hx2
  rw [hrv] at hx2 ⊢
  refine ⟨a, c, d, hx2, mus j, b, ?_⟩
  intro hne
  have hi' : r.2.iterations.getLast? = some it := hi
  rw [hi']
  simp only [Option.map_some, Option.some.injEq]
  obtain ⟨s1, hit', _⟩ := hb.out
  obtain ⟨st1, -, -, -, hmu, -⟩ := iterate_ok hit'
  rw [hmu]
  unfold direction
  split_ifs
  · rfl
  · rfl

theorem l2_nonneg {n : Nat} (v : Fin n → ℝ) : 0 ≤ l2 v := Real.sqrt_nonneg _

theorem abs_le_l2 {n : Nat} (v : Fin n → ℝ) (i : Fin n) : |v i| ≤ l2 v := by
  unfold l2
  rw [← Real.sqrt_sq_eq_abs]
  exact Real.sqrt_le_sqrt (Finset.single_le_sum (f := fun i => v i ^ 2) (fun j _ => sq_nonneg _)
    (Finset.mem_univ i))

/-- **C11**, per constraint: the returned point violates no constraint by more than the tolerance. -/
theorem C11_nearly_feasible (E : Eigen N K ℝ) (p : QP N M K ℝ) (prm : QPParams ℝ)
    (st : IPState N M K ℝ) (hg : GoodStart prm st) (r : IPState N M K ℝ × QPOutputs ℝ)
    (h : solve E p prm st = .ok r) (hT : r.2.termination = .satisfiedKktTol) :
    (∀ m, -prm.terminationKktTol < ineqVal p r.1.v.x m) ∧
    ∀ k, |eqVal p r.1.v.x k| < prm.terminationKktTol := by
  obtain ⟨_, h2, h3, _⟩ := C11_satisfied_truthful E p prm st r h hT
  have hpos := (C07_slacks_positive E p prm st hg).1 r h
  refine ⟨fun m => ?_, fun k => lt_of_le_of_lt (abs_le_l2 _ k) h2⟩
  have := lt_of_le_of_lt (abs_le_l2 _ m) h3
  have := (abs_lt.mp this).1
  have := hpos.1 m
  linarith

/-- Cauchy–Schwarz for `l2`. -/
theorem sum_mul_le_l2 {n : Nat} (u v : Fin n → ℝ) : ∑ i, u i * v i ≤ l2 u * l2 v := by
  unfold l2
  exact Real.sum_mul_le_sqrt_mul_sqrt _ _ _

/-- Weak duality with residuals: how far a point can be from optimal, from its residuals and any multipliers `z ≥ 0`. -/
theorem gap_bound (p : QP N M K ℝ) (hG : PSDG p) (v : Blocks N M K ℝ) (hz : ∀ m, 0 ≤ v.z m) (x' : Fin N → ℝ)
    (hx' : Feasible p x') :
    objective p v.x - objective p x' ≤ (∑ m, v.s m * v.z m) + l2 (gradLagrangian p v) * l2 (fun i => v.x i - x' i)
      + l2 (eqVal p v.x) * l2 v.y + l2 (fun m => ineqVal p v.x m - v.s m) * l2 v.z := by
  have hexp := objective_expand p v.x x'
  have hq := hG (x' - v.x)
  have hgrad : ∀ i, (∑ j, Gsym p i j * v.x j) + p.c i = gradLagrangian p v i + (∑ k, p.A k i * v.y k)
      + ∑ m, if (p.con m).var = i then (p.con m).a * v.z m else 0 := fun i => by
    unfold gradLagrangian; ring
  have e1 : ∑ i, (∑ k, p.A k i * v.y k) * (v.x i - x' i) = ∑ k, v.y k * eqVal p v.x k := by
    have : ∀ k, v.y k * eqVal p v.x k = ∑ i, p.A k i * v.y k * (v.x i - x' i) := by
      intro k
      have hk := hx'.2 k
      unfold eqVal at hk ⊢
      have : ∑ i, p.A k i * v.y k * (v.x i - x' i)
          = v.y k * ((∑ i, p.A k i * v.x i) - ∑ i, p.A k i * x' i) := by
        rw [← Finset.sum_sub_distrib, Finset.mul_sum]
        exact Finset.sum_congr rfl fun i _ => by ring
      rw [this]; congr 1; linarith
    simp only [this, Finset.sum_mul]
    exact Finset.sum_comm
  have e2 : ∑ i, (∑ m, if (p.con m).var = i then (p.con m).a * v.z m else 0) * (v.x i - x' i)
      = ∑ m, v.z m * (ineqVal p v.x m - ineqVal p x' m) := by
    simp only [Finset.sum_mul]
    rw [Finset.sum_comm]
    refine Finset.sum_congr rfl fun m _ => ?_
    simp only [ite_mul, zero_mul, Finset.sum_ite_eq, Finset.mem_univ, if_true]
    unfold ineqVal; ring
  have e3 : ∑ i, ((∑ j, Gsym p i j * v.x j) + p.c i) * (v.x i - x' i)
      = (∑ i, gradLagrangian p v i * (v.x i - x' i)) + (∑ k, v.y k * eqVal p v.x k)
        + ∑ m, v.z m * (ineqVal p v.x m - ineqVal p x' m) := by
    rw [← e1, ← e2, ← Finset.sum_add_distrib, ← Finset.sum_add_distrib]
    exact Finset.sum_congr rfl fun i _ => by rw [hgrad i]; ring
  have e4 : ∑ i, ((∑ j, Gsym p i j * v.x j) + p.c i) * (x' i - v.x i)
      = - ∑ i, ((∑ j, Gsym p i j * v.x j) + p.c i) * (v.x i - x' i) := by
    rw [← Finset.sum_neg_distrib]
    exact Finset.sum_congr rfl fun i _ => by ring
  have b1 := sum_mul_le_l2 (gradLagrangian p v) fun i => v.x i - x' i
  have b2 := sum_mul_le_l2 v.y (eqVal p v.x)
  have b3 : ∑ m, v.z m * (ineqVal p v.x m - ineqVal p x' m)
      ≤ (∑ m, v.z m * (ineqVal p v.x m - v.s m)) + ∑ m, v.s m * v.z m := by
    rw [← Finset.sum_add_distrib]
    refine Finset.sum_le_sum fun m _ => ?_
    have : 0 ≤ v.z m * ineqVal p x' m := mul_nonneg (hz m) (hx'.1 m)
    nlinarith
  have b4 := sum_mul_le_l2 v.z fun m => ineqVal p v.x m - v.s m
  rw [mul_comm (l2 v.y)] at b2
  rw [mul_comm (l2 v.z)] at b4
  linarith [hexp, e3, e4]

/-- **C12**. For a convex objective, when `SATISFIED_KKT_TOL` is reported the objective at the returned
`x` exceeds the objective at any feasible point by at most
`M * comp_tol + tol * (‖x - x'‖ + ‖y‖ + ‖z‖)`. -/
theorem C12_near_optimal (E : Eigen N K ℝ) (p : QP N M K ℝ) (hG : PSDG p) (prm : QPParams ℝ)
    (st : IPState N M K ℝ) (hg : GoodStart prm st) (r : IPState N M K ℝ × QPOutputs ℝ)
    (h : solve E p prm st = .ok r) (hT : r.2.termination = .satisfiedKktTol)
    (x' : Fin N → ℝ) (hx' : Feasible p x') :
    objective p r.1.v.x - objective p x' ≤
      M * prm.terminationComplementarityTol + prm.terminationKktTol * l2 (fun i => r.1.v.x i - x' i)
        + prm.terminationKktTol * l2 r.1.v.y + prm.terminationKktTol * l2 r.1.v.z := by
  obtain ⟨h1, h2, h3, h4, _⟩ := C11_satisfied_truthful E p prm st r h hT
  obtain ⟨hs, hz⟩ := (C07_slacks_positive E p prm st hg).1 r h
  generalize r.1.v = v at *
  have hb := gap_bound p hG v (fun m => (hz m).le) x' hx'
  have b1 := mul_le_mul_of_nonneg_right h1.le (l2_nonneg fun i => v.x i - x' i)
  have b2 := mul_le_mul_of_nonneg_right h2.le (l2_nonneg v.y)
  have b4 := mul_le_mul_of_nonneg_right h3.le (l2_nonneg v.z)
  have b5 : ∑ m, v.s m * v.z m ≤ M * prm.terminationComplementarityTol := by
    by_cases hM : 0 < M
    · have hM' : (0 : ℝ) < M := by exact_mod_cast hM
      unfold avgComp at h4
      rw [div_lt_iff₀ hM'] at h4
      linarith
    · obtain rfl : M = 0 := by omega
      simp
  linarith

/-- Hypotheses of C11/C12 are met with an active inequality problem: for some tolerances the demo
problem is reported as solved (and for every run there are such tolerances). -/
theorem exists_satisfied (E : Eigen N K ℝ) (p : QP N M K ℝ) (prm : QPParams ℝ) (st : IPState N M K ℝ)
    (r : IPState N M K ℝ × QPOutputs ℝ) (h : solve E p prm st = .ok r) :
    ∃ t c, 0 < t ∧ 0 < c ∧ ∃ r', solve E p { prm with
      terminationKktTol := t, terminationComplementarityTol := c } st = .ok r' ∧ r'.2.termination = .satisfiedKktTol := by
  obtain ⟨hc, -⟩ := solve_ok h
  have hp := (checkParams_ok_iff prm).mp hc
  obtain ⟨st0, sts, mus, h0, ht, h1, -⟩ := solve_traj h
  obtain ⟨s1, hb, hs1⟩ := (ht.body 0 h1).out
  rw [ht.s0, ht.m0] at hb
  obtain ⟨n, hn⟩ : ∃ n, prm.maxIterations.toNat = n + 1 := ⟨prm.maxIterations.toNat - 1, by omega⟩
  set e := (computeErrors (initialMu prm (evaluateKKT p true st0)) (evaluateKKT p true s1)).max with he
  set q := computeMu (evaluateKKT p true s1) with hq
  obtain ⟨te, h0t, hte⟩ : ∃ t : ℝ, 0 < t ∧ e < t := ⟨|e| + 1, by positivity, by linarith [le_abs_self e]⟩
  obtain ⟨tq, h0q, htq⟩ : ∃ t : ℝ, 0 < t ∧ q < t := ⟨|q| + 1, by positivity, by linarith [le_abs_self q]⟩
  refine ⟨te, tq, h0t, h0q, ?_⟩
  have hc' : checkParams { prm with
      terminationKktTol := te, terminationComplementarityTol := tq } = .ok () := by
    rw [checkParams_ok_iff]; exact ⟨hp.1, hp.2.1, hp.2.2.1, h0t, hp.2.2.2.2⟩
  refine ⟨(evaluateKKT p true s1, ⟨.satisfiedKktTol, [⟨computeErrors (initialMu prm (evaluateKKT p true st0)) (evaluateKKT p true st0), computeErrors (initialMu prm (evaluateKKT p true st0)) (evaluateKKT p true s1), (r.2.iterations[0]'h1).ip⟩], lagrangeSummary (evaluateKKT p true s1).v.y⟩), ?_, rfl⟩
  unfold solve
  rw [hc']; simp only
  rw [h0]; simp only [hn]
  rw [solveLoop]
  have hb' : iterate E p (initialMu { prm with
      terminationKktTol := te, terminationComplementarityTol := tq } (evaluateKKT p true st0)) prm.barrierStrategy
      (evaluateKKT p true st0) = .ok (s1, (r.2.iterations[0]'h1).ip) := hb
  simp only [hb']
  rw [if_pos]
  · rfl
  · exact ⟨hte, htq⟩

example : PSDG demoQP ∧ ∃ t c r, solve exactEigen demoQP
      { (QPParams.default : QPParams ℝ) with terminationKktTol := t, terminationComplementarityTol := c }
      (setupState demoJunk) = .ok r ∧ r.2.termination = .satisfiedKktTol := by
  refine ⟨fun x => ?_, ?_⟩
  · by_cases hx : x = 0
    · subst hx; simp
    · exact (demo_posdef x hx).le
  · obtain ⟨r, hr⟩ := demo_returns QPParams.default default_valid (by simp [QPParams.default])
    obtain ⟨t, c, _, _, r', h, hT⟩ := exists_satisfied _ _ _ _ r hr
    exact ⟨t, c, r', h, hT⟩

end MiniOpt.Props
