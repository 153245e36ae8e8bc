import Verif.Props.QPDualStep
import Verif.Props.QPMore
import Verif.Spec.InexactSpec

/-!
# C105: linear solves that are not exact

C09, C10, C15 and C95 assume that Eigen's factorisation gives the exact inverse. Here nothing is assumed about it: the error
of the linear solve appears in the dual and equality rows of the Newton system and nowhere else, and enters the residuals of
the next iterate multiplied by the step length. Without inequality constraints the iterations of the solver are an iterative
refinement: a solver that is right up to a relative error `ε < 1` still converges, by a factor `ε` per iteration.
-/

set_option autoImplicit false

namespace MiniOpt.Props

open MiniOpt MiniOpt.Spec MiniOpt.IP

variable {N M K : Nat}

/-- `(dx, -dy)` solves the reduced system up to `solveError`. -/
theorem applyInv_error (st : IPState N M K ℝ) (rx : Fin N → ℝ) (H : Matrix (Red N K) (Red N K) ℝ) (r : Red N K) :
    (∑ j, H r (.inl j) * applyInvX st rx j) - ∑ k, H r (.inr k) * applyInvY st rx k
      = - Sum.elim rx st.r.y r + (Sum.elim rx st.r.y r - ∑ c, H r c * ∑ d, st.Hinv c d * Sum.elim rx st.r.y d) := by
  have h := congrArg (fun v => H.mulVec v r) (applyInv_eq st rx)
  simp only [Matrix.mulVec, dotProduct, Matrix.of_apply] at h
  have e1 : ∑ c, H r c * (Sum.elim (applyInvX st rx) (fun k => - applyInvY st rx k) : Red N K → ℝ) c
      = (∑ j, H r (.inl j) * applyInvX st rx j) - ∑ k, H r (.inr k) * applyInvY st rx k := by
    rw [Fintype.sum_sum_type]
    simp [sub_eq_add_neg, Finset.sum_neg_distrib]
  have e2 : ∑ c, H r c * ∑ d, st.Hinv c d * -(Sum.elim rx st.r.y d)
      = -∑ c, H r c * ∑ d, st.Hinv c d * Sum.elim rx st.r.y d := by
    rw [← Finset.sum_neg_distrib]
    exact Finset.sum_congr rfl fun c _ => by
      rw [← mul_neg, ← Finset.sum_neg_distrib]
      exact congrArg _ (Finset.sum_congr rfl fun d _ => by ring)
  rw [← e1, h, e2]; ring

/-- `SolveForUpdate` solves the full Newton system up to the error of the linear solve. -/
theorem solveForUpdate_inexact (p : QP N M K ℝ) (mu : ℝ) (st : IPState N M K ℝ)
    (hs : ∀ m, st.v.s m ≠ 0)
    (hrx : ∀ i, st.r.x i = gradLagrangian p st.v i)
    (hrs : ∀ m, st.r.s m = st.v.s m * st.v.z m)
    (hry : ∀ k, st.r.y k = eqVal p st.v.x k)
    (hrz : ∀ m, st.r.z m = ineqVal p st.v.x m - st.v.s m) :
    InexactNewton p st.v mu (fun m => st.deltaAff.s m * st.deltaAff.z m) (solveForUpdate p mu st).delta
      (solveError p st.v (Matrix.of st.Hinv)
        (reducedRhs p st.v mu fun m => st.deltaAff.s m * st.deltaAff.z m)) := by
  have hw : (Sum.elim (dualAug p mu st) st.r.y : Red N K → ℝ)
      = reducedRhs p st.v mu fun m => st.deltaAff.s m * st.deltaAff.z m := by
    funext r
    rcases r with i | k
    · simp only [Sum.elim_inl, reducedRhs, dualAug_eq, hrx, hrz, hrs]
      congr 1
      refine Finset.sum_congr rfl fun m _ => ?_
      split_ifs
      · have := hs m
        field_simp
      · rfl
    · simp only [Sum.elim_inr, reducedRhs, hry]
  have hsol := applyInv_error st (dualAug p mu st) (reducedMatrix p st.v)
  rw [hw] at hsol
  have herr : ∀ r, solveError p st.v (Matrix.of st.Hinv) (reducedRhs p st.v mu fun m => st.deltaAff.s m * st.deltaAff.z m) r
      = reducedRhs p st.v mu (fun m => st.deltaAff.s m * st.deltaAff.z m) r - ∑ c, reducedMatrix p st.v r c * ∑ d,
        st.Hinv c d * reducedRhs p st.v mu (fun m => st.deltaAff.s m * st.deltaAff.z m) d := fun r => rfl
  refine ⟨?_, ?_, ?_, ?_⟩
  · intro i
    have h := hsol (.inl i)
    rw [← herr, ← hw] at h
    rw [← hw]
    generalize solveError p st.v (Matrix.of st.Hinv) _ (Sum.inl i : Red N K) = err at h ⊢
    simp only [Sum.elim_inl, reducedMatrix, dualAug_eq, hrx, add_mul, Finset.sum_add_distrib] at h
    have hite : (∑ j, (if i = j then ∑ m, (if (p.con m).var = i then
        (p.con m).a * (st.v.z m / st.v.s m) * (p.con m).a else 0) else 0) *
          applyInvX st (dualAug p mu st) j)
        = ∑ m, (if (p.con m).var = i then (p.con m).a * (st.v.z m / st.v.s m) * (p.con m).a *
          applyInvX st (dualAug p mu st) (p.con m).var else 0) := by
      rw [Finset.sum_eq_single i]
      · rw [if_pos rfl, Finset.sum_mul]
        apply Finset.sum_congr rfl
        intro m _
        split_ifs with h
        · rw [h]
        · simp
      · intro j _ hj; simp [Ne.symm hj]
      · simp
    rw [hite] at h
    have hz : (∑ m, if (p.con m).var = i then (p.con m).a * (solveForUpdate p mu st).delta.z m else 0)
        = -(∑ m, (if (p.con m).var = i then (p.con m).a * (st.v.z m / st.v.s m) * (p.con m).a *
          applyInvX st (dualAug p mu st) (p.con m).var else 0))
          - ∑ m, (if (p.con m).var = i then (p.con m).a * (st.v.z m / st.v.s m) * st.r.z m +
            (p.con m).a * (st.r.s m + st.deltaAff.s m * st.deltaAff.z m - mu) / st.v.s m else 0) := by
      rw [← Finset.sum_neg_distrib, ← Finset.sum_sub_distrib]
      apply Finset.sum_congr rfl
      intro m _
      split_ifs
      · simp only [solveForUpdate]; ring
      · simp
    rw [hz]
    show (∑ j, Gsym p i j * applyInvX st (dualAug p mu st) j) -
      (∑ k, p.A k i * applyInvY st (dualAug p mu st) k) - _ = _
    linarith
  · intro m
    have h0 := hs m
    have h1 := hrs m
    show st.v.z m * ((solveForUpdate p mu st).delta.s m) + st.v.s m *
      (-(st.v.z m / st.v.s m) * (solveForUpdate p mu st).delta.s m -
      (1 / st.v.s m) * (st.r.s m + st.deltaAff.s m * st.deltaAff.z m - mu)) = _
    rw [h1]
    field_simp
    ring
  · intro k
    have h := hsol (.inr k)
    rw [← herr, ← hw] at h
    rw [← hw]
    generalize solveError p st.v (Matrix.of st.Hinv) _ (Sum.inr k : Red N K) = err at h ⊢
    simp only [Sum.elim_inr, reducedMatrix, hry, zero_mul, Finset.sum_const_zero, sub_zero] at h
    exact h
  · intro m
    have h1 := hrz m
    show (p.con m).a * (solveForUpdate p mu st).delta.x (p.con m).var -
      ((p.con m).a * (solveForUpdate p mu st).delta.x (p.con m).var + st.r.z m) = _
    rw [h1]; ring

/-- One iteration, whatever the linear solver returns. -/
theorem iterate_inexact (E : Eigen N K ℝ) (p : QP N M K ℝ) (mu : ℝ)
    (strategy : BarrierStrategy) (st st' : IPState N M K ℝ) (out : IPIterationOutputs ℝ)
    (hwf : WF st) (h : iterate E p mu strategy st = .ok (st', out)) :
    ∃ X corr d, E.ldltInverse (reducedMatrix p st.v) = some X ∧
      InexactNewton p st.v out.mu corr d (solveError p st.v X (reducedRhs p st.v out.mu corr)) ∧
      st'.v = step st.v d out.alpha.primal out.alpha.dual ∧
      (strategy ≠ .predictorCorrector → out.mu = mu ∧ corr = 0) ∧
      (0 < M → strategy = .predictorCorrector → ∃ daff,
        InexactNewton p st.v 0 0 daff (solveError p st.v X (reducedRhs p st.v 0 0)) ∧
        ∀ m, corr m = daff.s m * daff.z m) := by
  obtain ⟨st1, h1, h2, h3, h4, -, -⟩ := iterate_ok h
  have hr := ready_of_ldlt h1
  have hX : E.ldltInverse (reducedMatrix p st.v) = some st1.Hinv := by
    obtain ⟨_, h2, _⟩ := computeLDLT_ok h1
    rwa [symRed_fillH p _ (WF_evaluateKKT hwf), evaluateKKT_v] at h2
  have hsne : ∀ m, st1.v.s m ≠ 0 := fun m => by rw [hr.v_eq]; exact (hr.spos m).ne'
  have newton : ∀ (mu : ℝ) (s : IPState N M K ℝ), s.v = st1.v → s.r = st1.r → s.Hinv = st1.Hinv →
      InexactNewton p st.v mu (fun m => s.deltaAff.s m * s.deltaAff.z m) (solveForUpdate p mu s).delta
        (solveError p st.v st1.Hinv (reducedRhs p st.v mu fun m => s.deltaAff.s m * s.deltaAff.z m)) := by
    intro mu s e1 e2 e3
    have := solveForUpdate_inexact p mu s (by rw [e1]; exact hsne)
      (by rw [e1, e2, hr.v_eq]; exact hr.rx) (by rw [e1, e2, hr.v_eq]; exact hr.rs)
      (by rw [e1, e2, hr.v_eq]; exact hr.ry) (by rw [e1, e2, hr.v_eq]; exact hr.rz)
    rw [e1, hr.v_eq, e3] at this
    exact this
  have hstep : st'.v = step st.v (direction p mu strategy st1).1.delta out.alpha.primal out.alpha.dual := by
    rw [h2]
    simp only [applyStep, step, (direction_fields p mu strategy st1).1, hr.v_eq, mul_comm]
  have hz : (fun m : Fin M => st1.deltaAff.s m * st1.deltaAff.z m) = 0 := by
    funext m; rw [hr.aff0]; simp [Blocks.zero]
  by_cases hM : 0 < M
  · by_cases hpc : strategy = .predictorCorrector
    · subst hpc
      have hd : (direction p mu .predictorCorrector st1).1 = solveForUpdate p out.mu
          { solveForUpdate p 0 st1 with deltaAff := (solveForUpdate p 0 st1).delta } := by
        rw [h4]; unfold direction; simp [hM]
      refine ⟨st1.Hinv, fun m => (solveForUpdate p 0 st1).delta.s m * (solveForUpdate p 0 st1).delta.z m, _, hX, ?_,
        hstep, fun hne => absurd rfl hne, fun _ _ => ⟨(solveForUpdate p 0 st1).delta, ?_, fun _ => rfl⟩⟩
      · rw [hd]
        exact newton out.mu
          { solveForUpdate p 0 st1 with deltaAff := (solveForUpdate p 0 st1).delta } rfl rfl rfl
      · have := newton 0 st1 rfl rfl rfl
        rwa [hz] at this
    · have hd : direction p mu strategy st1 = (solveForUpdate p mu st1, mu, none) := by
        unfold direction; simp [hM, hpc]
      refine ⟨st1.Hinv, 0, _, hX, ?_, hstep, fun _ => ⟨by rw [h4, hd], rfl⟩, fun _ h => absurd h hpc⟩
      have := newton mu st1 rfl rfl rfl
      rw [hz] at this
      rw [h4, hd]; exact this
  · have hd : direction p mu strategy st1 = (solveForUpdate p 0 st1, mu, none) := by
      unfold direction; simp [hM]
    refine ⟨st1.Hinv, 0, _, hX, ?_, hstep, fun _ => ⟨by rw [h4, hd], rfl⟩, fun h => absurd h hM⟩
    have := newton 0 st1 rfl rfl rfl
    rw [hz] at this
    obtain rfl : M = 0 := by omega
    have er : reducedRhs p st.v out.mu 0 = reducedRhs p st.v 0 0 := by
      funext r
      rcases r with i | k <;> simp [reducedRhs]
    rw [er, h4, hd]
    exact ⟨this.dual, fun m => m.elim0, this.eq, this.ineq⟩

/-- **C105**, the direction. Nothing is assumed about the linear solver. In every logged iteration the variables move by
`(α_p, α_d)` along a direction that satisfies the complementarity and slack rows of the full Newton system exactly, and the
dual and equality rows up to `w - H X w`, where `H` is the reduced matrix, `w` its right-hand side and `X` the matrix the
linear solver returned for `H`. -/
theorem C105_direction (E : Eigen N K ℝ) (p : QP N M K ℝ) (prm : QPParams ℝ) (st : IPState N M K ℝ)
    (hg : GoodStart prm st) (hwf : WF st) (r : IPState N M K ℝ × QPOutputs ℝ) (h : solve E p prm st = .ok r)
    (k : Nat) (it : QPIteration ℝ) (hk : r.2.iterations[k]? = some it) (v v' : Blocks N M K ℝ)
    (hv : IterateIs E p prm st k v) (hv' : IterateIs E p prm st (k + 1) v') :
    ∃ X corr d, E.ldltInverse (reducedMatrix p v) = some X ∧
      InexactNewton p v it.ip.mu corr d (solveError p v X (reducedRhs p v it.ip.mu corr)) ∧
      v' = step v d it.ip.alpha.primal it.ip.alpha.dual ∧
      (prm.barrierStrategy ≠ .predictorCorrector → corr = 0) ∧
      (0 < M → prm.barrierStrategy = .predictorCorrector → ∃ daff,
        InexactNewton p v 0 0 daff (solveError p v X (reducedRhs p v 0 0)) ∧ ∀ m, corr m = daff.s m * daff.z m) ∧
      (0 < it.ip.alpha.primal ∧ it.ip.alpha.primal ≤ 1) ∧ (0 < it.ip.alpha.dual ∧ it.ip.alpha.dual ≤ 1) := by
  obtain ⟨hc, -⟩ := solve_ok h
  obtain ⟨st0, sts, mus, h0, ht, -⟩ := solve_traj h
  have hpos := goodStart_pos hg h0
  have hkl := (List.getElem?_eq_some_iff.mp hk).1
  have e1 := (traj_iterate hc h0 ht hkl.le).unique hv
  have e2 := (traj_iterate hc h0 ht (Nat.succ_le_of_lt hkl)).unique hv'
  subst e1; subst e2
  have hp1 := traj_pos hpos ht k hkl.le
  have hwfk : ∀ j, j ≤ r.2.iterations.length → WF (sts j) := by
    intro j
    induction j with
    | zero => intro _; rw [ht.s0]; exact WF_evaluateKKT (WF_initialGuess hwf h0)
    | succ j ih =>
      intro hj
      obtain ⟨s1, h1, h2⟩ := (ht.body j hj).out
      rw [h2]; exact WF_evaluateKKT (WF_iterate (ih (by omega)) h1)
  have hb := ht.body k hkl
  rw [List.getElem?_eq_getElem hkl, Option.some.injEq] at hk
  rw [hk] at hb
  obtain ⟨⟨s1, hit, hs2⟩, -, -⟩ := hb
  obtain ⟨X, corr, d, hX, hN, hv1, hne, hpc⟩ := iterate_inexact E p _ _ _ _ _ (hwfk k hkl.le) hit
  obtain ⟨s2, hl, ha, hal, -⟩ := iterate_ok hit
  have hdv := (direction_fields p (mus k) prm.barrierStrategy s2).1.trans (ready_of_ldlt hl).v_eq
  have hal2 := stepAlpha_bounds (direction p (mus k) prm.barrierStrategy s2).1 (by rw [hdv]; exact hp1.1)
    (by rw [hdv]; exact hp1.2)
  rw [← hal] at hal2
  exact ⟨X, corr, d, hX, hN, by rw [hs2, evaluateKKT_v, hv1], fun e => (hne e).2, hpc, hal2⟩

theorem inexact_grad {p : QP N M K ℝ} {v d : Blocks N M K ℝ} {mu : ℝ} {corr : Fin M → ℝ} {err : Red N K → ℝ}
    (hN : InexactNewton p v mu corr d err) (ap ad : ℝ) (i : Fin N) : gradLagrangian p (step v d ap ad) i =
      (1 - ad) * gradLagrangian p v i + (ap - ad) * (∑ j, Gsym p i j * d.x j) + ad * err (.inl i) := by
  have h := hN.dual i
  have e1 : ∑ j, Gsym p i j * (v.x j + ap * d.x j) = (∑ j, Gsym p i j * v.x j) + ap * ∑ j, Gsym p i j * d.x j := by
    rw [Finset.mul_sum, ← Finset.sum_add_distrib]; exact Finset.sum_congr rfl fun j _ => by ring
  have e2 : ∑ k, p.A k i * (v.y k + ad * d.y k) = (∑ k, p.A k i * v.y k) + ad * ∑ k, p.A k i * d.y k := by
    rw [Finset.mul_sum, ← Finset.sum_add_distrib]; exact Finset.sum_congr rfl fun j _ => by ring
  have e3 : (∑ m, if (p.con m).var = i then (p.con m).a * (v.z m + ad * d.z m) else 0)
      = (∑ m, if (p.con m).var = i then (p.con m).a * v.z m else 0)
        + ad * ∑ m, if (p.con m).var = i then (p.con m).a * d.z m else 0 := by
    rw [Finset.mul_sum, ← Finset.sum_add_distrib]
    exact Finset.sum_congr rfl fun j _ => by split_ifs <;> ring
  have hg : gradLagrangian p (step v d ap ad) i = (∑ j, Gsym p i j * (v.x j + ap * d.x j)) + p.c i
      - (∑ k, p.A k i * (v.y k + ad * d.y k))
      - ∑ m, if (p.con m).var = i then (p.con m).a * (v.z m + ad * d.z m) else 0 := rfl
  have hg0 : gradLagrangian p v i = (∑ j, Gsym p i j * v.x j) + p.c i - (∑ k, p.A k i * v.y k)
      - ∑ m, if (p.con m).var = i then (p.con m).a * v.z m else 0 := rfl
  rw [hg, e1, e2, e3]
  rw [hg0] at h ⊢
  generalize (∑ j, Gsym p i j * d.x j) = a at *
  generalize (∑ k, p.A k i * d.y k) = b at *
  generalize (∑ m, if (p.con m).var = i then (p.con m).a * d.z m else 0) = c at *
  have : a = b + c - ((∑ j, Gsym p i j * v.x j) + p.c i - (∑ k, p.A k i * v.y k)
      - ∑ m, if (p.con m).var = i then (p.con m).a * v.z m else 0) + err (.inl i) := by linarith
  rw [this]; ring

theorem inexact_eq {p : QP N M K ℝ} {v d : Blocks N M K ℝ} {mu : ℝ} {corr : Fin M → ℝ} {err : Red N K → ℝ}
    (hN : InexactNewton p v mu corr d err) (ap ad : ℝ) (k : Fin K) :
    eqVal p (step v d ap ad).x k = (1 - ap) * eqVal p v.x k + ap * err (.inr k) := by
  have h := hN.eq k
  unfold eqVal step at *
  have e : ∑ j, p.A k j * (v.x j + ap * d.x j) = (∑ j, p.A k j * v.x j) + ap * ∑ j, p.A k j * d.x j := by
    rw [Finset.mul_sum, ← Finset.sum_add_distrib]; exact Finset.sum_congr rfl fun j _ => by ring
  rw [e, h]; ring

/-- **C105**, the residuals. The residuals of the next iterate are those an exact solver would give plus the step length
times the error of the linear solve; the slack residual is not affected at all. -/
theorem C105_residuals (E : Eigen N K ℝ) (p : QP N M K ℝ) (prm : QPParams ℝ) (st : IPState N M K ℝ)
    (hg : GoodStart prm st) (hwf : WF st) (r : IPState N M K ℝ × QPOutputs ℝ) (h : solve E p prm st = .ok r)
    (k : Nat) (it : QPIteration ℝ) (hk : r.2.iterations[k]? = some it) (v v' : Blocks N M K ℝ)
    (hv : IterateIs E p prm st k v) (hv' : IterateIs E p prm st (k + 1) v') :
    ∃ X corr err, E.ldltInverse (reducedMatrix p v) = some X ∧
      err = solveError p v X (reducedRhs p v it.ip.mu corr) ∧
      (prm.barrierStrategy ≠ .predictorCorrector → corr = 0) ∧
      (∀ j, eqVal p v'.x j = (1 - it.ip.alpha.primal) * eqVal p v.x j + it.ip.alpha.primal * err (.inr j)) ∧
      (∀ m, ineqVal p v'.x m - v'.s m = (1 - it.ip.alpha.primal) * (ineqVal p v.x m - v.s m)) ∧
      (∀ i, it.ip.alpha.primal * gradLagrangian p v' i =
        it.ip.alpha.primal * (1 - it.ip.alpha.dual) * gradLagrangian p v i
          + (it.ip.alpha.primal - it.ip.alpha.dual) * (∑ j, Gsym p i j * (v'.x j - v.x j))
          + it.ip.alpha.primal * it.ip.alpha.dual * err (.inl i)) := by
  obtain ⟨X, corr, d, hX, hN, hs, hne, -, -⟩ := C105_direction E p prm st hg hwf r h k it hk v v' hv hv'
  refine ⟨X, corr, _, hX, rfl, hne, fun j => ?_, fun m => ?_, fun i => ?_⟩
  · rw [hs]; exact inexact_eq hN _ _ j
  · have hm := hN.ineq m
    rw [hs]
    unfold ineqVal step at *
    have e : d.s m = (p.con m).a * d.x (p.con m).var + ((p.con m).a * v.x (p.con m).var + (p.con m).b - v.s m) := by
      linarith
    simp only [e]; ring
  · have hx : ∑ j, Gsym p i j * (v'.x j - v.x j) = it.ip.alpha.primal * ∑ j, Gsym p i j * d.x j := by
      rw [hs, Finset.mul_sum]
      exact Finset.sum_congr rfl fun j _ => by simp only [step]; ring
    rw [hx, hs, inexact_grad hN]; ring

/-- **C105**, equality constraints over a whole run. If in no iteration the linear solver misses equality row `j` by more
than `η`, then the violation of that row is at most the initial violation shrunk as for an exact solver, plus `η`. -/
theorem C105_equality_bound (E : Eigen N K ℝ) (p : QP N M K ℝ) (prm : QPParams ℝ) (st : IPState N M K ℝ)
    (hg : GoodStart prm st) (hwf : WF st) (r : IPState N M K ℝ × QPOutputs ℝ) (h : solve E p prm st = .ok r)
    (j : Fin K) (η : ℝ)
    (hη : ∀ k it v X corr, r.2.iterations[k]? = some it → IterateIs E p prm st k v →
      E.ldltInverse (reducedMatrix p v) = some X →
      (∃ d, InexactNewton p v it.ip.mu corr d (solveError p v X (reducedRhs p v it.ip.mu corr))) →
      |solveError p v X (reducedRhs p v it.ip.mu corr) (.inr j)| ≤ η)
    (v0 : Blocks N M K ℝ) (hv0 : IterateIs E p prm st 0 v0) :
    ∀ k v, k ≤ r.2.iterations.length → IterateIs E p prm st k v →
      |eqVal p v.x j| ≤ shrink (r.2.iterations.take k) * |eqVal p v0.x j|
        + (1 - shrink (r.2.iterations.take k)) * η := by
  intro k
  induction k with
  | zero =>
    intro v _ hv
    obtain rfl := hv.unique hv0
    simp [shrink]
  | succ k ih =>
    intro v' hk hv'
    obtain ⟨v, hv⟩ := run_iterates E p prm st r h k (by omega)
    have hk' : k < r.2.iterations.length := by omega
    have hit : r.2.iterations[k]? = some r.2.iterations[k] := List.getElem?_eq_getElem hk'
    obtain ⟨X, corr, d, hX, hN, hs, -, -, ⟨ha, ha1⟩, -⟩ := C105_direction E p prm st hg hwf r h k _ hit v v' hv hv'
    have he := hη k _ v X corr hit hv hX ⟨d, hN⟩
    have hI := ih v (by omega) hv
    rw [List.take_add_one, hit, Option.toList_some, shrink_append]
    generalize shrink (r.2.iterations.take k) = S at hI ⊢
    rw [hs, inexact_eq hN]
    generalize r.2.iterations[k].ip.alpha.primal = a at ha ha1 ⊢
    generalize solveError p v X (reducedRhs p v r.2.iterations[k].ip.mu corr) (.inr j) = e at he ⊢
    have h1 : |(1 - a) * eqVal p v.x j + a * e| ≤ (1 - a) * |eqVal p v.x j| + a * |e| := by
      refine (abs_add_le _ _).trans (le_of_eq ?_)
      rw [abs_mul, abs_mul, abs_of_nonneg (by linarith : (0 : ℝ) ≤ 1 - a), abs_of_pos ha]
    have h2 := mul_le_mul_of_nonneg_left hI (by linarith : (0 : ℝ) ≤ 1 - a)
    have h3 := mul_le_mul_of_nonneg_left he ha.le
    calc _ ≤ _ := h1
      _ ≤ (1 - a) * (S * |eqVal p v0.x j| + (1 - S) * η) + a * η := add_le_add h2 h3
      _ = _ := by ring

/-! ## No inequality constraints: iterative refinement -/

theorem redNorm_nonneg (w : Red N K → ℝ) : 0 ≤ redNorm w := Real.sqrt_nonneg _

theorem redNorm_congr {a b : Red N K → ℝ} (h : ∀ r, a r = b r) : redNorm a = redNorm b := by
  unfold redNorm; simp only [h]

theorem l2_le_redNorm_left (f : Fin N → ℝ) (g : Fin K → ℝ) : l2 f ≤ redNorm (Sum.elim f g : Red N K → ℝ) := by
  unfold l2 redNorm
  refine Real.sqrt_le_sqrt ?_
  rw [Fintype.sum_sum_type]
  have : (0 : ℝ) ≤ ∑ k : Fin K, (Sum.elim f g (Sum.inr k)) ^ 2 := Finset.sum_nonneg fun _ _ => sq_nonneg _
  simpa using this

theorem l2_le_redNorm_right (f : Fin N → ℝ) (g : Fin K → ℝ) : l2 g ≤ redNorm (Sum.elim f g : Red N K → ℝ) := by
  unfold l2 redNorm
  refine Real.sqrt_le_sqrt ?_
  rw [Fintype.sum_sum_type]
  have : (0 : ℝ) ≤ ∑ k : Fin N, (Sum.elim f g (Sum.inl k)) ^ 2 := Finset.sum_nonneg fun _ _ => sq_nonneg _
  simpa using this

/-- Without inequality constraints the reduced matrix is the KKT matrix. -/
theorem reducedMatrix_free (p : QP N 0 K ℝ) (v : Blocks N 0 K ℝ) : reducedMatrix p v = kktMatrix p := by
  funext r c
  rcases r with i | k <;> rcases c with j | l <;> simp [reducedMatrix, kktMatrix]

theorem reducedRhs_free (p : QP N 0 K ℝ) (v : Blocks N 0 K ℝ) (mu : ℝ) (corr : Fin 0 → ℝ) :
    reducedRhs p v mu corr = eqResidual p v := by
  funext r
  rcases r with i | k <;> simp [reducedRhs, eqResidual]

/-- One body step of the loop multiplies the residual by at most `ε`. -/
theorem refine_step {E : Eigen N K ℝ} {p : QP N 0 K ℝ} {ε : ℝ} (hE : SolvesWithin E (kktMatrix p) ε) {prm : QPParams ℝ}
    {st st2 : IPState N 0 K ℝ} {mu : ℝ} {it : QPIteration ℝ} (hwf : WF st) (hb : BodyStep E p prm st mu st2 it) :
    redNorm (eqResidual p st2.v) ≤ ε * redNorm (eqResidual p st.v) := by
  obtain ⟨⟨st1, hit, hst2⟩, -, -⟩ := hb
  obtain ⟨X, corr, d, hX, hN, hv, -, -⟩ := iterate_inexact E p _ _ _ _ _ hwf hit
  obtain ⟨s1, -, -, hal, -⟩ := iterate_ok hit
  have hp : it.ip.alpha.primal = 1 := by rw [hal]; simp [stepAlpha]
  have hd : it.ip.alpha.dual = 1 := by rw [hal]; simp [stepAlpha]
  rw [hp, hd] at hv
  rw [reducedMatrix_free] at hX
  have h := hE X hX (eqResidual p st.v)
  refine le_trans (le_of_eq (redNorm_congr fun r => ?_)) h
  rw [hst2, evaluateKKT_v, hv]
  rw [reducedRhs_free] at hN
  have he : ∀ r, solveError p st.v X (eqResidual p st.v) r
      = eqResidual p st.v r - ∑ c, kktMatrix p r c * ∑ d, X c d * eqResidual p st.v d := fun r => by
    rw [← reducedMatrix_free p st.v]; rfl
  rw [← he]
  rcases r with i | k
  · show gradLagrangian p (step st.v d 1 1) i = _
    rw [inexact_grad hN]; ring
  · show eqVal p (step st.v d 1 1).x k = _
    rw [inexact_eq hN]; ring

/-- **C105**, refinement. Without inequality constraints, let the linear solver be right up to a relative error `ε` on the
KKT matrix of the problem. Then every iteration multiplies the residual of the optimality conditions by at most `ε`; the
solver needs at most the `n` iterations for which `ε^n` times the initial residual is below `termination_kkt_tol`, and stops
with SATISFIED_KKT_TOL if it is allowed that many. -/
theorem C105_refinement (E : Eigen N K ℝ) (p : QP N 0 K ℝ) (ε : ℝ) (hε : 0 ≤ ε) (hE : SolvesWithin E (kktMatrix p) ε)
    (prm : QPParams ℝ) (st : IPState N 0 K ℝ) (hwf : WF st) (r : IPState N 0 K ℝ × QPOutputs ℝ)
    (h : solve E p prm st = .ok r) (v0 : Blocks N 0 K ℝ) (hv0 : IterateIs E p prm st 0 v0) :
    (∀ k v, k ≤ r.2.iterations.length → IterateIs E p prm st k v →
      redNorm (eqResidual p v) ≤ ε ^ k * redNorm (eqResidual p v0)) ∧
    (∀ n : Nat, 0 < n → ε ^ n * redNorm (eqResidual p v0) < prm.terminationKktTol →
      0 < prm.terminationComplementarityTol →
      r.2.iterations.length ≤ n ∧ ((n : Int) ≤ prm.maxIterations → r.2.termination = .satisfiedKktTol)) := by
  obtain ⟨hc, -⟩ := solve_ok h
  obtain ⟨st0, sts, mus, h0, ht, hpos, hle, hr, -, hmax, -⟩ := solve_traj h
  have hwfk : ∀ j, j ≤ r.2.iterations.length → WF (sts j) := by
    intro j
    induction j with
    | zero => intro _; rw [ht.s0]; exact WF_evaluateKKT (WF_initialGuess hwf h0)
    | succ j ih =>
      intro hj
      obtain ⟨s1, h1, h2⟩ := (ht.body j hj).out
      rw [h2]; exact WF_evaluateKKT (WF_iterate (ih (by omega)) h1)
  have e0 := (traj_iterate hc h0 ht (Nat.zero_le _)).unique hv0
  have main : ∀ k, k ≤ r.2.iterations.length →
      redNorm (eqResidual p (sts k).v) ≤ ε ^ k * redNorm (eqResidual p v0) := by
    intro k
    induction k with
    | zero => intro _; rw [e0]; simp
    | succ k ih =>
      intro hk
      refine (refine_step hE (hwfk k (by omega)) (ht.body k hk)).trans ?_
      rw [pow_succ', mul_assoc]
      exact mul_le_mul_of_nonneg_left (ih (by omega)) hε
  have hexit : ∀ n (hn : n < r.2.iterations.length), ε ^ (n + 1) * redNorm (eqResidual p v0) < prm.terminationKktTol →
      0 < prm.terminationComplementarityTol → ExitTest prm (sts (n + 1)) r.2.iterations[n] := by
    intro n hn ht1 ht2
    have hm := lt_of_le_of_lt (main (n + 1) hn) ht1
    obtain ⟨⟨s1, -, hs⟩, -, hf⟩ := ht.body n hn
    rw [hs, evaluateKKT_v] at hm
    refine ⟨?_, ?_⟩
    · rw [hf, hs, computeErrors_spec]
      have e3 : ∀ f : Fin 0 → ℝ, l2 f = 0 := fun f => l2_zero fun i => i.elim0
      have hz : 0 < prm.terminationKktTol := lt_of_le_of_lt (redNorm_nonneg _) hm
      have h1 : l2 (gradLagrangian p s1.v) < prm.terminationKktTol :=
        lt_of_le_of_lt (l2_le_redNorm_left _ (eqVal p s1.v.x)) hm
      have h2 : l2 (eqVal p s1.v.x) < prm.terminationKktTol :=
        lt_of_le_of_lt (l2_le_redNorm_right (gradLagrangian p s1.v) _) hm
      simp only [KKTError.max, kktError, e3, real_cmax, max_lt_iff]
      exact ⟨⟨⟨h1, hz⟩, h2⟩, hz⟩
    · rw [computeMu_spec]
      simpa [avgComp] using ht2
  refine ⟨fun k v hk hv => ?_, fun n hn ht1 ht2 => ?_⟩
  · rw [← (traj_iterate hc h0 ht hk).unique hv]; exact main k hk
  · obtain ⟨n, rfl⟩ : ∃ m, n = m + 1 := ⟨n - 1, by omega⟩
    have hlen : r.2.iterations.length ≤ n + 1 := by
      by_contra hlt
      exact ht.noexit n (by omega) (hexit n (by omega) ht1 ht2)
    refine ⟨hlen, fun hn2 => ?_⟩
    cases hT : r.2.termination with
    | satisfiedKktTol => rfl
    | maxIterations =>
      exfalso
      obtain ⟨a, b⟩ := hmax hT
      have hl : r.2.iterations.length = n + 1 := by omega
      have hx := hexit n (by omega) ht1 ht2
      have hs : r.1 = sts (n + 1) := hr.trans (congrArg sts hl)
      rw [← hs] at hx
      generalize hit : r.2.iterations[n]'(by omega) = it at hx
      refine b it ?_ hx
      rw [List.getLast?_eq_getElem?, hl, Option.mem_def, ← hit]
      exact List.getElem?_eq_getElem _

/-! ## Non-vacuity: a linear solver that is ten percent off -/

/-- Returns `1.1 H⁻¹`. -/
noncomputable def roughEigen : Eigen N K ℝ := ⟨fun H => some fun r c => 11 / 10 * matInv H r c⟩

theorem rough_error (H : Matrix (Red N K) (Red N K) ℝ) (hH : IsUnit H.det) (X : Matrix (Red N K) (Red N K) ℝ)
    (hX : roughEigen.ldltInverse H = some X) (w : Red N K → ℝ) (r : Red N K) :
    w r - ∑ c, H r c * ∑ d, X c d * w d = (1 / 10) * (- w r) := by
  have hX' : X = fun r c => 11 / 10 * matInv H r c := (Option.some.inj hX).symm
  have hinv : ∑ c, H r c * ∑ d, matInv H c d * w d = w r := by
    have h1 : H * matInv H = 1 := Matrix.mul_nonsing_inv H hH
    have h2 := congrFun (congrArg (fun A : Matrix (Red N K) (Red N K) ℝ => A.mulVec w) h1) r
    simp only [Matrix.one_mulVec, ← Matrix.mulVec_mulVec] at h2
    exact h2
  have : ∑ c, H r c * ∑ d, X c d * w d = 11 / 10 * ∑ c, H r c * ∑ d, matInv H c d * w d := by
    rw [hX', Finset.mul_sum]
    refine Finset.sum_congr rfl fun c _ => ?_
    have : ∑ d, 11 / 10 * matInv H c d * w d = 11 / 10 * ∑ d, matInv H c d * w d := by
      rw [Finset.mul_sum]; exact Finset.sum_congr rfl fun d _ => by ring
    rw [this]; ring
  rw [this, hinv]; ring

theorem rough_within (H : Matrix (Red N K) (Red N K) ℝ) (hH : IsUnit H.det) : SolvesWithin roughEigen H (1 / 10) := by
  intro X hX w
  rw [redNorm_congr (rough_error H hH X hX w)]
  refine le_of_eq ?_
  unfold redNorm
  simp only [mul_pow, neg_sq, ← Finset.mul_sum]
  rw [Real.sqrt_mul (by norm_num), Real.sqrt_sq (by norm_num)]

/-- The hypothesis of `C105_equality_bound` is met, by a problem with an inequality constraint: with the solver that is ten
percent off, no equality row is missed by more than a tenth of its initial violation. -/
example (prm : QPParams ℝ) (hg : prm.initialGuessMethod ≠ .userProvided) (r : IPState 2 1 1 ℝ × QPOutputs ℝ)
    (h : solve roughEigen demoQP prm (setupState demoJunk) = .ok r) (v0 : Blocks 2 1 1 ℝ)
    (hv0 : IterateIs roughEigen demoQP prm (setupState demoJunk) 0 v0) (j : Fin 1) :
    ∀ k it v X corr, r.2.iterations[k]? = some it → IterateIs roughEigen demoQP prm (setupState demoJunk) k v →
      roughEigen.ldltInverse (reducedMatrix demoQP v) = some X →
      (∃ d, InexactNewton demoQP v it.ip.mu corr d (solveError demoQP v X (reducedRhs demoQP v it.ip.mu corr))) →
      |solveError demoQP v X (reducedRhs demoQP v it.ip.mu corr) (.inr j)| ≤ |eqVal demoQP v0.x j| / 10 := by
  obtain ⟨hc, -⟩ := solve_ok h
  obtain ⟨st0, sts, mus, h0, ht, -⟩ := solve_traj h
  have hpos := goodStart_pos (Or.inl hg) h0
  have herr : ∀ k, k ≤ r.2.iterations.length → ∀ v X mu corr, IterateIs roughEigen demoQP prm (setupState demoJunk) k v →
      roughEigen.ldltInverse (reducedMatrix demoQP v) = some X →
      solveError demoQP v X (reducedRhs demoQP v mu corr) (.inr j) = -(1 / 10) * eqVal demoQP v.x j := by
    intro k hk v X mu corr hv hX
    have e := (traj_iterate hc h0 ht hk).unique hv
    have hp := traj_pos hpos ht k hk
    rw [e] at hp
    have := rough_error _ (reducedMatrix_nonsing demoQP v (demo_posdef.onNull.regular demo_rows) hp.1 hp.2) X hX
      (reducedRhs demoQP v mu corr) (.inr j)
    rw [show solveError demoQP v X (reducedRhs demoQP v mu corr) (.inr j) = _ from this]
    simp only [reducedRhs]; ring
  have hdec : ∀ k, k ≤ r.2.iterations.length → ∀ v, IterateIs roughEigen demoQP prm (setupState demoJunk) k v →
      |eqVal demoQP v.x j| ≤ |eqVal demoQP v0.x j| := by
    intro k
    induction k with
    | zero => intro _ v hv; rw [hv.unique hv0]
    | succ k ih =>
      intro hk v' hv'
      obtain ⟨v, hv⟩ := run_iterates _ _ _ _ r h k (by omega)
      have hk' : k < r.2.iterations.length := by omega
      obtain ⟨X, corr, d, hX, hN, hs, -, -, ⟨ha, ha1⟩, -⟩ := C105_direction _ _ _ _ (Or.inl hg) (setupState_WF _) r h k
        _ (List.getElem?_eq_getElem hk') v v' hv hv'
      refine le_trans ?_ (ih (by omega) v hv)
      rw [hs, inexact_eq hN, herr k hk'.le v X _ corr hv hX]
      generalize r.2.iterations[k].ip.alpha.primal = a at ha ha1 ⊢
      rw [show (1 - a) * eqVal demoQP v.x j + a * (-(1 / 10) * eqVal demoQP v.x j)
        = (1 - 11 / 10 * a) * eqVal demoQP v.x j by ring, abs_mul]
      exact mul_le_of_le_one_left (abs_nonneg _) (abs_le.mpr ⟨by linarith, by linarith⟩)
  intro k it v X corr hk hv hX _
  have hkl := (List.getElem?_eq_some_iff.mp hk).1
  rw [herr k hkl.le v X _ corr hv hX, abs_mul]
  have := hdec k hkl.le v hv
  rw [abs_of_neg (by norm_num : -(1 / 10 : ℝ) < 0)]
  linarith

/-- Such a run exists. -/
example : ∃ r, solve roughEigen demoQP QPParams.default (setupState demoJunk) = .ok r :=
  solve_returns roughEigen (fun H => by simp [roughEigen]) demoQP demo_slope _ default_valid _
    (Or.inl (by simp [QPParams.default]))

/-- The hypotheses of `C105_refinement` are met with an error of ten percent: the demo problem is still solved to `1e-9`
within the default ten iterations. -/
example : ∃ r, solve roughEigen demoEq QPParams.default (setupState demoJunk) = .ok r ∧
    r.2.termination = .satisfiedKktTol := by
  obtain ⟨r, hr⟩ := solve_returns roughEigen (fun H => by simp [roughEigen]) demoEq (fun m => m.elim0)
    (QPParams.default : QPParams ℝ) default_valid (setupState demoJunk) (Or.inl (by simp [QPParams.default]))
  refine ⟨r, hr, ?_⟩
  have hdet : IsUnit (Matrix.det (kktMatrix demoEq)) := by
    rw [← reducedMatrix_free demoEq (setupState demoJunk : IPState 2 0 1 ℝ).v]
    exact reducedMatrix_nonsing demoEq _ (demoEq_posdef.onNull.regular demoEq_rows) (fun m => m.elim0) (fun m => m.elim0)
  obtain ⟨v0, hv0⟩ := run_iterates _ _ _ _ r hr 0 (Nat.zero_le _)
  have hres : redNorm (eqResidual demoEq v0) ≤ 3 := by
    obtain ⟨s0, h0, rfl⟩ := (by simpa [IterateIs] using hv0 : ∃ st0, initialGuess roughEigen demoEq
      (QPParams.default : QPParams ℝ).initialGuessMethod (setupState demoJunk) = .ok st0 ∧ v0 = st0.v)
    have hx : s0.v.x = (fun _ => 0) ∧ s0.v.y = (fun _ => 0) := by
      simp only [QPParams.default, initialGuess, finishGuess] at h0
      cases h0
      exact ⟨rfl, rfl⟩
    have h1 : eqResidual demoEq s0.v (.inl 0) = -1 := by
      simp [eqResidual, gradLagrangian, hx.1, hx.2, demoEq, demoQP]
    have h2 : eqResidual demoEq s0.v (.inl 1) = -2 := by
      simp [eqResidual, gradLagrangian, hx.1, hx.2, demoEq, demoQP]
    have h3 : eqResidual demoEq s0.v (.inr 0) = -1 := by
      simp [eqResidual, eqVal, hx.1, demoEq, demoQP]
    unfold redNorm
    rw [Fintype.sum_sum_type, Fin.sum_univ_two, Fin.sum_univ_one, h1, h2, h3]
    rw [Real.sqrt_le_left (by norm_num)]
    norm_num
  refine ((C105_refinement roughEigen demoEq (1 / 10) (by norm_num) (rough_within _ hdet) _ _ (setupState_WF _) r hr v0
    hv0).2 10 (by norm_num) ?_ ?_).2 (by simp [QPParams.default])
  · simp only [QPParams.default, real_lit]
    have := mul_le_mul_of_nonneg_left hres (by norm_num : (0 : ℝ) ≤ (1 / 10) ^ 10)
    refine lt_of_le_of_lt this ?_
    norm_num
  · simp only [QPParams.default, real_lit]; norm_num

end MiniOpt.Props
