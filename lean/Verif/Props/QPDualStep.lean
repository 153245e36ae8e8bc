import Verif.Props.QPMore

/-!
# C95: what one iteration does to the dual residual and to complementarity

C10 says the primal residuals shrink by exactly `1 - α_primal`.  The dual residual behaves differently, because `x` moves
by `α_primal` and the multipliers by `α_dual`.  Everything is stated about the log of a finished `Solve` and the variables
a user can observe after `k` iterations (`IterateIs`).
-/

set_option autoImplicit false

namespace MiniOpt.Props

open MiniOpt MiniOpt.Spec MiniOpt.IP

variable {N M K : Nat}

/-- `xᵀ G x` for the lower triangle of `G`. -/
noncomputable def quadForm (p : QP N M K ℝ) (x : Fin N → ℝ) : ℝ := ∑ i, ∑ j, x i * Gsym p i j * x j

/-- The data of one logged iteration: the variables before and after are joined by a full Newton direction. -/
theorem run_step (E : Eigen N K ℝ) (hE : LDLTContract E) (p : QP N M K ℝ) (hR : Regular p) (prm : QPParams ℝ)
    (st : IPState N M K ℝ) (hg : GoodStart prm st) (hwf : WF st) (r : IPState N M K ℝ × QPOutputs ℝ)
    (h : solve E p prm st = .ok r) (k : Nat) (it : QPIteration ℝ) (hk : r.2.iterations[k]? = some it)
    (v v' : Blocks N M K ℝ) (hv : IterateIs E p prm st k v) (hv' : IterateIs E p prm st (k + 1) v') :
    ∃ mu corr d, NewtonSystem p v it.ip.mu corr d ∧ v' = step v d it.ip.alpha.primal it.ip.alpha.dual ∧
      (prm.barrierStrategy ≠ .predictorCorrector → corr = 0) ∧
      it.kktInitial = kktError p v mu ∧ it.kktFinal = kktError p v' mu ∧
      ((0 < it.ip.alpha.primal ∧ it.ip.alpha.primal ≤ 1) ∧ 0 < it.ip.alpha.dual ∧ it.ip.alpha.dual ≤ 1) ∧
      ((∀ m, 0 < v.s m) ∧ ∀ m, 0 < v.z m) ∧ ((∀ m, 0 < v'.s m) ∧ ∀ m, 0 < v'.z m) ∧
      ((∀ m, 0 < v.z m + d.z m) → it.ip.alpha.dual = 1) ∧ ((∀ m, 0 < v.s m + d.s m) → it.ip.alpha.primal = 1) := by
  obtain ⟨hc, -⟩ := solve_ok h
  obtain ⟨st0, sts, mus, h0, ht, -⟩ := solve_traj h
  have hpos := goodStart_pos hg h0
  have hkl := (List.getElem?_eq_some_iff.mp hk).1
  have e1 := (traj_iterate hc h0 ht hkl.le).unique hv
  have e2 := (traj_iterate hc h0 ht (Nat.succ_le_of_lt hkl)).unique hv'
  subst e1; subst e2
  have hp1 := traj_pos hpos ht k hkl.le
  have hp2 := traj_pos hpos ht (k + 1) hkl
  have hwfk : ∀ j, j ≤ r.2.iterations.length → WF (sts j) := by
    intro j
    induction j with
    | zero => intro _; rw [ht.s0]; exact WF_evaluateKKT (WF_initialGuess hwf h0)
    | succ j ih =>
      intro hj
      obtain ⟨s1, h1, h2⟩ := (ht.body j hj).out
      rw [h2]; exact WF_evaluateKKT (WF_iterate (ih (by omega)) h1)
  have hb := ht.body k hkl
  rw [List.getElem?_eq_getElem hkl, Option.some.injEq] at hk
  rw [hk] at hb
  have herr : ∀ j, j ≤ r.2.iterations.length → ∀ mu, computeErrors mu (sts j) = kktError p (sts j).v mu := by
    intro j hj mu
    obtain ⟨s, hs⟩ := traj_fresh ht j hj
    rw [hs, computeErrors_spec, evaluateKKT_v]
  obtain ⟨⟨s1, hit, hs2⟩, hi, hf⟩ := hb
  obtain ⟨corr, d, hN, hv1, hne, -⟩ := C09_newton_direction E hE p _ _ _ _ _ (hwfk k hkl.le)
    (reducedMatrix_nonsing p _ hR hp1.1 hp1.2) hit
  obtain ⟨s2, hl, ha, hal, -⟩ := iterate_ok hit
  have hdv := (direction_fields p (mus k) prm.barrierStrategy s2).1.trans (ready_of_ldlt hl).v_eq
  have hal2 := stepAlpha_bounds (direction p (mus k) prm.barrierStrategy s2).1 (by rw [hdv]; exact hp1.1)
    (by rw [hdv]; exact hp1.2)
  rw [← hal] at hal2
  refine ⟨mus k, corr, d, hN, ?_, fun e => (hne e).2, ?_, ?_, hal2, hp1, hp2, ?_, ?_⟩
  · rw [hs2, evaluateKKT_v, hv1]
  · rw [hi, herr k hkl.le]
  · rw [hf, herr (k + 1) hkl]
  · intro hz
    have hzz : ∀ m, d.z m = (direction p (mus k) prm.barrierStrategy s2).1.delta.z m := by
      intro m
      have q1 := congrArg (fun b : Blocks N M K ℝ => b.z m) hv1
      rw [ha] at q1
      simp only [applyStep, step, hdv] at q1
      have q3 : it.ip.alpha.dual * d.z m
          = it.ip.alpha.dual * (direction p (mus k) prm.barrierStrategy s2).1.delta.z m := by linarith
      exact mul_left_cancel₀ hal2.2.1.ne' q3
    rw [hal]
    unfold stepAlpha
    split_ifs with hM
    · have := (C08_step_length (direction p (mus k) prm.barrierStrategy s2).1.v.z
        (direction p (mus k) prm.barrierStrategy s2).1.delta.z (tauStep : ℝ) (by rw [hdv]; exact hp1.2)
        tauStep_bounds.1 tauStep_bounds.2.le).2.2.2.2.1 (by intro i; rw [hdv, ← hzz i]; exact hz i)
      exact this
    · rfl
  · intro hz
    have hzz : ∀ m, d.s m = (direction p (mus k) prm.barrierStrategy s2).1.delta.s m := by
      intro m
      have q1 := congrArg (fun b : Blocks N M K ℝ => b.s m) hv1
      rw [ha] at q1
      simp only [applyStep, step, hdv] at q1
      have q3 : it.ip.alpha.primal * d.s m
          = it.ip.alpha.primal * (direction p (mus k) prm.barrierStrategy s2).1.delta.s m := by linarith
      exact mul_left_cancel₀ hal2.1.1.ne' q3
    rw [hal]
    unfold stepAlpha
    split_ifs with hM
    · have := (C08_step_length (direction p (mus k) prm.barrierStrategy s2).1.v.s
        (direction p (mus k) prm.barrierStrategy s2).1.delta.s (tauStep : ℝ) (by rw [hdv]; exact hp1.1)
        tauStep_bounds.1 tauStep_bounds.2.le).2.2.2.2.1 (by intro i; rw [hdv, ← hzz i]; exact hz i)
      exact this
    · rfl

theorem grad_step {p : QP N M K ℝ} {v d : Blocks N M K ℝ} {mu : ℝ} {corr : Fin M → ℝ} (hN : NewtonSystem p v mu corr d)
    (ap ad : ℝ) (i : Fin N) : gradLagrangian p (step v d ap ad) i =
      (1 - ad) * gradLagrangian p v i + (ap - ad) * ∑ j, Gsym p i j * d.x j := by
  have h := hN.dual i
  have e1 : ∑ j, Gsym p i j * (v.x j + ap * d.x j) = (∑ j, Gsym p i j * v.x j) + ap * ∑ j, Gsym p i j * d.x j := by
    rw [Finset.mul_sum, ← Finset.sum_add_distrib]; exact Finset.sum_congr rfl fun j _ => by ring
  have e2 : ∑ k, p.A k i * (v.y k + ad * d.y k) = (∑ k, p.A k i * v.y k) + ad * ∑ k, p.A k i * d.y k := by
    rw [Finset.mul_sum, ← Finset.sum_add_distrib]; exact Finset.sum_congr rfl fun j _ => by ring
  have e3 : (∑ m, if (p.con m).var = i then (p.con m).a * (v.z m + ad * d.z m) else 0)
      = (∑ m, if (p.con m).var = i then (p.con m).a * v.z m else 0)
        + ad * ∑ m, if (p.con m).var = i then (p.con m).a * d.z m else 0 := by
    rw [Finset.mul_sum, ← Finset.sum_add_distrib]
    exact Finset.sum_congr rfl fun j _ => by split_ifs <;> ring
  have hg : gradLagrangian p (step v d ap ad) i = (∑ j, Gsym p i j * (v.x j + ap * d.x j)) + p.c i
      - (∑ k, p.A k i * (v.y k + ad * d.y k))
      - ∑ m, if (p.con m).var = i then (p.con m).a * (v.z m + ad * d.z m) else 0 := rfl
  have hg0 : gradLagrangian p v i = (∑ j, Gsym p i j * v.x j) + p.c i - (∑ k, p.A k i * v.y k)
      - ∑ m, if (p.con m).var = i then (p.con m).a * v.z m else 0 := rfl
  rw [hg, e1, e2, e3]
  rw [hg0] at h ⊢
  generalize (∑ j, Gsym p i j * d.x j) = a at *
  generalize (∑ k, p.A k i * d.y k) = b at *
  generalize (∑ m, if (p.con m).var = i then (p.con m).a * d.z m else 0) = c at *
  have : a = b + c - ((∑ j, Gsym p i j * v.x j) + p.c i - (∑ k, p.A k i * v.y k)
      - ∑ m, if (p.con m).var = i then (p.con m).a * v.z m else 0) := by linarith
  rw [this]; ring

/-- **C95**, one iteration. With `x` the variables before and `x'` those after, the gradient of the Lagrangian becomes
`(1 - α_dual)` times the old one, plus a term `(α_primal - α_dual) / α_primal * G (x' - x)` which vanishes only when the two
step lengths agree or the step is flat for `G`. -/
theorem C95_dual_residual (E : Eigen N K ℝ) (hE : LDLTContract E) (p : QP N M K ℝ) (hR : Regular p) (prm : QPParams ℝ)
    (st : IPState N M K ℝ) (hg : GoodStart prm st) (hwf : WF st) (r : IPState N M K ℝ × QPOutputs ℝ)
    (h : solve E p prm st = .ok r) (k : Nat) (it : QPIteration ℝ) (hk : r.2.iterations[k]? = some it)
    (v v' : Blocks N M K ℝ) (hv : IterateIs E p prm st k v) (hv' : IterateIs E p prm st (k + 1) v') :
    (∀ i, it.ip.alpha.primal * gradLagrangian p v' i =
      it.ip.alpha.primal * (1 - it.ip.alpha.dual) * gradLagrangian p v i
        + (it.ip.alpha.primal - it.ip.alpha.dual) * ∑ j, Gsym p i j * (v'.x j - v.x j)) ∧
    (it.ip.alpha.primal = it.ip.alpha.dual ∨ (∀ i, ∑ j, Gsym p i j * (v'.x j - v.x j) = 0) →
      (∀ i, gradLagrangian p v' i = (1 - it.ip.alpha.dual) * gradLagrangian p v i) ∧
      it.kktFinal.rDual = (1 - it.ip.alpha.dual) * it.kktInitial.rDual) := by
  obtain ⟨mu, corr, d, hN, hs, -, hi, hf, ⟨hap, had⟩, -⟩ := run_step E hE p hR prm st hg hwf r h k it hk v v' hv hv'
  have hx : ∀ i, ∑ j, Gsym p i j * (v'.x j - v.x j) = it.ip.alpha.primal * ∑ j, Gsym p i j * d.x j := by
    intro i
    rw [hs, Finset.mul_sum]
    exact Finset.sum_congr rfl fun j _ => by simp only [step]; ring
  have hgr := fun i => grad_step hN it.ip.alpha.primal it.ip.alpha.dual i
  rw [← hs] at hgr
  refine ⟨fun i => by rw [hgr i, hx i]; ring, fun hc => ?_⟩
  have key : ∀ i, gradLagrangian p v' i = (1 - it.ip.alpha.dual) * gradLagrangian p v i := by
    intro i
    rw [hgr i]
    rcases hc with hc | hc
    · rw [hc]; ring
    · have h0 := hc i
      rw [hx i] at h0
      rw [(mul_eq_zero.mp h0).resolve_left hap.1.ne']; ring
  refine ⟨key, ?_⟩
  rw [hi, hf]
  show l2 (gradLagrangian p v') = (1 - it.ip.alpha.dual) * l2 (gradLagrangian p v)
  unfold l2
  rw [← Real.sqrt_sq (by linarith [had.2] : (0 : ℝ) ≤ 1 - it.ip.alpha.dual), ← Real.sqrt_mul (sq_nonneg _), Finset.mul_sum]
  congr 1
  exact Finset.sum_congr rfl fun i _ => by rw [key i]; ring

/-- The iterates exist for every logged iteration. -/
theorem run_iterates (E : Eigen N K ℝ) (p : QP N M K ℝ) (prm : QPParams ℝ) (st : IPState N M K ℝ)
    (r : IPState N M K ℝ × QPOutputs ℝ) (h : solve E p prm st = .ok r) (k : Nat) (hk : k ≤ r.2.iterations.length) :
    ∃ v, IterateIs E p prm st k v := by
  obtain ⟨hc, -⟩ := solve_ok h
  obtain ⟨st0, sts, mus, h0, ht, -⟩ := solve_traj h
  exact ⟨_, traj_iterate hc h0 ht hk⟩

theorem eq_step {p : QP N M K ℝ} {v d : Blocks N M K ℝ} {mu : ℝ} {corr : Fin M → ℝ} (hN : NewtonSystem p v mu corr d)
    (ap ad : ℝ) (k : Fin K) : eqVal p (step v d ap ad).x k = (1 - ap) * eqVal p v.x k := by
  have h := hN.eq k
  unfold eqVal step at *
  have e : ∑ j, p.A k j * (v.x j + ap * d.x j) = (∑ j, p.A k j * v.x j) + ap * ∑ j, p.A k j * d.x j := by
    rw [Finset.mul_sum, ← Finset.sum_add_distrib]; exact Finset.sum_congr rfl fun j _ => by ring
  rw [e, h]; ring

theorem ineq_step {p : QP N M K ℝ} {v d : Blocks N M K ℝ} {mu : ℝ} {corr : Fin M → ℝ} (hN : NewtonSystem p v mu corr d)
    (ap ad : ℝ) (m : Fin M) : ineqVal p (step v d ap ad).x m - (step v d ap ad).s m
      = (1 - ap) * (ineqVal p v.x m - v.s m) := by
  have h := hN.ineq m
  unfold ineqVal step at *
  have e : d.s m = (p.con m).a * d.x (p.con m).var + ((p.con m).a * v.x (p.con m).var + (p.con m).b - v.s m) := by linarith
  simp only [e]; ring

/-- **C95**, full steps. An iteration that logs step lengths `1, 1` ends with a dual residual of exactly zero; after one
that logs a primal step length of `1`, both primal residuals are exactly zero and stay zero in every later iteration. -/
theorem C95_full_step (E : Eigen N K ℝ) (hE : LDLTContract E) (p : QP N M K ℝ) (hR : Regular p) (prm : QPParams ℝ)
    (st : IPState N M K ℝ) (hg : GoodStart prm st) (hwf : WF st) (r : IPState N M K ℝ × QPOutputs ℝ)
    (h : solve E p prm st = .ok r) (k : Nat) (it : QPIteration ℝ) (hk : r.2.iterations[k]? = some it)
    (hp : it.ip.alpha.primal = 1) :
    (it.ip.alpha.dual = 1 → it.kktFinal.rDual = 0) ∧
    ∀ l it', k ≤ l → r.2.iterations[l]? = some it' → it'.kktFinal.rPrimalEq = 0 ∧ it'.kktFinal.rPrimalIneq = 0 := by
  have hkl := (List.getElem?_eq_some_iff.mp hk).1
  constructor
  · intro hd
    obtain ⟨v, hv⟩ := run_iterates E p prm st r h k hkl.le
    obtain ⟨v', hv'⟩ := run_iterates E p prm st r h (k + 1) hkl
    rw [((C95_dual_residual E hE p hR prm st hg hwf r h k it hk v v' hv hv').2 (Or.inl (by rw [hp, hd]))).2, hd]; ring
  · have key : ∀ l, k ≤ l → l < r.2.iterations.length → ∀ v', IterateIs E p prm st (l + 1) v' →
        (∀ i, eqVal p v'.x i = 0) ∧ ∀ m, ineqVal p v'.x m - v'.s m = 0 := by
      intro l hl
      induction l, hl using Nat.le_induction with
      | base =>
        intro _ v' hv'
        obtain ⟨v, hv⟩ := run_iterates E p prm st r h k hkl.le
        obtain ⟨mu, corr, d, hN, hs, -⟩ := run_step E hE p hR prm st hg hwf r h k it hk v v' hv hv'
        rw [hs, hp]
        exact ⟨fun i => by rw [eq_step hN]; ring, fun m => by rw [ineq_step hN]; ring⟩
      | succ l hl ih =>
        intro hlt v' hv'
        obtain ⟨v, hv⟩ := run_iterates E p prm st r h (l + 1) hlt.le
        obtain ⟨h1, h2⟩ := ih (by omega) v hv
        obtain ⟨mu, corr, d, hN, hs, -⟩ := run_step E hE p hR prm st hg hwf r h (l + 1) _
          (List.getElem?_eq_getElem hlt) v v' hv hv'
        rw [hs]
        exact ⟨fun i => by rw [eq_step hN, h1]; ring, fun m => by rw [ineq_step hN, h2]; ring⟩
    intro l it' hl hit
    have hll := (List.getElem?_eq_some_iff.mp hit).1
    obtain ⟨v, hv⟩ := run_iterates E p prm st r h l hll.le
    obtain ⟨v', hv'⟩ := run_iterates E p prm st r h (l + 1) hll
    obtain ⟨mu, corr, d, -, -, -, -, hf, -⟩ := run_step E hE p hR prm st hg hwf r h l it' hit v v' hv hv'
    obtain ⟨h1, h2⟩ := key l hl hll v' hv'
    rw [hf]
    exact ⟨l2_zero h1, l2_zero h2⟩

theorem l2_eq_zero {n : Nat} {v : Fin n → ℝ} (h : l2 v = 0) (i : Fin n) : v i = 0 := by
  have := abs_le_l2 v i
  rw [h] at this
  exact abs_nonpos_iff.mp this

/-- **C95**, duality gap. For a convex objective, whenever an iteration logs zero dual and primal residuals, the variables it
ends with are feasible and their objective exceeds that of any feasible point by at most `sᵀ z`. -/
theorem C95_gap (E : Eigen N K ℝ) (hE : LDLTContract E) (p : QP N M K ℝ) (hR : Regular p) (hG : PSDG p) (prm : QPParams ℝ)
    (st : IPState N M K ℝ) (hg : GoodStart prm st) (hwf : WF st) (r : IPState N M K ℝ × QPOutputs ℝ)
    (h : solve E p prm st = .ok r) (k : Nat) (it : QPIteration ℝ) (hk : r.2.iterations[k]? = some it)
    (h1 : it.kktFinal.rDual = 0) (h2 : it.kktFinal.rPrimalEq = 0) (h3 : it.kktFinal.rPrimalIneq = 0)
    (v : Blocks N M K ℝ) (hv : IterateIs E p prm st (k + 1) v) :
    Feasible p v.x ∧ ∀ x', Feasible p x' → objective p v.x - objective p x' ≤ ∑ m, v.s m * v.z m := by
  have hkl := (List.getElem?_eq_some_iff.mp hk).1
  obtain ⟨v0, hv0⟩ := run_iterates E p prm st r h k hkl.le
  obtain ⟨mu, corr, d, -, -, -, -, hf, -, -, ⟨hs, hz⟩, -⟩ := run_step E hE p hR prm st hg hwf r h k it hk v0 v hv0 hv
  rw [hf] at h1 h2 h3
  have g1 : ∀ i, gradLagrangian p v i = 0 := l2_eq_zero h1
  have g2 : ∀ i, eqVal p v.x i = 0 := l2_eq_zero h2
  have g3 : ∀ m, ineqVal p v.x m - v.s m = 0 := l2_eq_zero (v := fun m => ineqVal p v.x m - v.s m) h3
  refine ⟨⟨fun m => by linarith [g3 m, hs m], g2⟩, fun x' hx' => ?_⟩
  have hexp := objective_expand p v.x x'
  have hq := hG (x' - v.x)
  have hgrad : ∀ i, (∑ j, Gsym p i j * v.x j) + p.c i = (∑ k, p.A k i * v.y k)
      + ∑ m, if (p.con m).var = i then (p.con m).a * v.z m else 0 := fun i => by
    have := g1 i
    unfold gradLagrangian at this; linarith
  have e1 : ∑ i, (∑ k, p.A k i * v.y k) * (x' i - v.x i) = 0 := by
    have : ∀ k, ∑ i, p.A k i * v.y k * (x' i - v.x i) = 0 := by
      intro k
      have hk := hx'.2 k
      have hk2 := g2 k
      unfold eqVal at hk hk2
      have : ∑ i, p.A k i * v.y k * (x' i - v.x i)
          = v.y k * ((∑ i, p.A k i * x' i) - ∑ i, p.A k i * v.x i) := by
        rw [← Finset.sum_sub_distrib, Finset.mul_sum]
        exact Finset.sum_congr rfl fun i _ => by ring
      rw [this]
      have : (∑ i, p.A k i * x' i) - ∑ i, p.A k i * v.x i = 0 := by linarith
      rw [this, mul_zero]
    simp only [Finset.sum_mul]
    rw [Finset.sum_comm]
    exact Finset.sum_eq_zero fun k _ => this k
  have e2 : ∑ i, (∑ m, if (p.con m).var = i then (p.con m).a * v.z m else 0) * (x' i - v.x i)
      = ∑ m, v.z m * (ineqVal p x' m - ineqVal p v.x m) := by
    simp only [Finset.sum_mul]
    rw [Finset.sum_comm]
    refine Finset.sum_congr rfl fun m _ => ?_
    simp only [ite_mul, zero_mul, Finset.sum_ite_eq, Finset.mem_univ, if_true]
    unfold ineqVal; ring
  have e3 : ∑ i, ((∑ j, Gsym p i j * v.x j) + p.c i) * (x' i - v.x i)
      = ∑ m, v.z m * (ineqVal p x' m - ineqVal p v.x m) := by
    rw [← e2]
    have : ∑ i, ((∑ j, Gsym p i j * v.x j) + p.c i) * (x' i - v.x i)
      = (∑ i, (∑ k, p.A k i * v.y k) * (x' i - v.x i))
        + ∑ i, (∑ m, if (p.con m).var = i then (p.con m).a * v.z m else 0) * (x' i - v.x i) := by
      rw [← Finset.sum_add_distrib]
      exact Finset.sum_congr rfl fun i _ => by rw [hgrad i]; ring
    rw [this, e1, zero_add]
  have e4 : -∑ m, v.z m * (ineqVal p x' m - ineqVal p v.x m) ≤ ∑ m, v.s m * v.z m := by
    rw [← Finset.sum_neg_distrib]
    refine Finset.sum_le_sum fun m _ => ?_
    have q1 := mul_nonneg (hz m).le (hx'.1 m)
    have q2 : ineqVal p v.x m = v.s m := by linarith [g3 m]
    rw [q2]; nlinarith
  linarith [hexp, e3]

/-- **C95**, complementarity. Without the predictor-corrector, an iteration that starts with zero residuals and takes equal
step lengths `α` moves the total complementarity `sᵀ z` to `(1 - α) sᵀ z + α M μ` plus the curvature of the step
`(x' - x)ᵀ G (x' - x)`. -/
theorem C95_complementarity (E : Eigen N K ℝ) (hE : LDLTContract E) (p : QP N M K ℝ) (hR : Regular p)
    (prm : QPParams ℝ) (hpc : prm.barrierStrategy ≠ .predictorCorrector)
    (st : IPState N M K ℝ) (hg : GoodStart prm st) (hwf : WF st) (r : IPState N M K ℝ × QPOutputs ℝ)
    (h : solve E p prm st = .ok r) (k : Nat) (it : QPIteration ℝ) (hk : r.2.iterations[k]? = some it)
    (h1 : it.kktInitial.rDual = 0) (h2 : it.kktInitial.rPrimalEq = 0) (h3 : it.kktInitial.rPrimalIneq = 0)
    (α : ℝ) (hp : it.ip.alpha.primal = α) (hd : it.ip.alpha.dual = α)
    (v v' : Blocks N M K ℝ) (hv : IterateIs E p prm st k v) (hv' : IterateIs E p prm st (k + 1) v') :
    ∑ m, v'.s m * v'.z m = (1 - α) * (∑ m, v.s m * v.z m) + α * M * it.ip.mu + quadForm p (fun i => v'.x i - v.x i) := by
  obtain ⟨mu, corr, d, hN, hs, hcorr, hi, -⟩ := run_step E hE p hR prm st hg hwf r h k it hk v v' hv hv'
  have hc0 := hcorr hpc
  subst hc0
  rw [hi] at h1 h2 h3
  have g1 : ∀ i, gradLagrangian p v i = 0 := l2_eq_zero h1
  have g2 : ∀ i, eqVal p v.x i = 0 := l2_eq_zero h2
  have g3 : ∀ m, ineqVal p v.x m - v.s m = 0 := l2_eq_zero (v := fun m => ineqVal p v.x m - v.s m) h3
  have hds : ∀ m, d.s m = (p.con m).a * d.x (p.con m).var := fun m => by
    have := hN.ineq m; rw [g3 m] at this; linarith
  -- the second-order term is the curvature
  have hdual : ∀ i, (∑ j, Gsym p i j * d.x j) = (∑ k, p.A k i * d.y k)
      + ∑ m, if (p.con m).var = i then (p.con m).a * d.z m else 0 := fun i => by
    have := hN.dual i; rw [g1 i] at this; linarith
  have e1 : ∑ i, d.x i * (∑ k, p.A k i * d.y k) = 0 := by
    simp only [Finset.mul_sum]
    rw [Finset.sum_comm]
    refine Finset.sum_eq_zero fun k _ => ?_
    have h := hN.eq k
    rw [g2 k] at h
    have : ∑ i, d.x i * (p.A k i * d.y k) = d.y k * ∑ i, p.A k i * d.x i := by
      rw [Finset.mul_sum]; exact Finset.sum_congr rfl fun i _ => by ring
    rw [this, h]; ring
  have e2 : ∑ i, d.x i * (∑ m, if (p.con m).var = i then (p.con m).a * d.z m else 0) = ∑ m, d.s m * d.z m := by
    simp only [Finset.mul_sum]
    rw [Finset.sum_comm]
    refine Finset.sum_congr rfl fun m _ => ?_
    simp only [mul_ite, mul_zero, Finset.sum_ite_eq, Finset.mem_univ, if_true]
    rw [hds m]; ring
  have hq : quadForm p d.x = ∑ m, d.s m * d.z m := by
    unfold quadForm
    rw [← e2]
    have : ∑ i, ∑ j, d.x i * Gsym p i j * d.x j = ∑ i, d.x i * ((∑ k, p.A k i * d.y k)
      + ∑ m, if (p.con m).var = i then (p.con m).a * d.z m else 0) := by
      refine Finset.sum_congr rfl fun i _ => ?_
      rw [← hdual i, Finset.mul_sum]
      exact Finset.sum_congr rfl fun j _ => by ring
    rw [this]
    simp only [mul_add, Finset.sum_add_distrib]
    rw [e1, zero_add]
  have hqx : quadForm p (fun i => v'.x i - v.x i) = α ^ 2 * quadForm p d.x := by
    unfold quadForm
    rw [hs, Finset.mul_sum]
    refine Finset.sum_congr rfl fun i _ => ?_
    rw [Finset.mul_sum]
    refine Finset.sum_congr rfl fun j _ => ?_
    simp only [step, hp]; ring
  have hM : α * M * it.ip.mu = ∑ _m : Fin M, α * it.ip.mu := by
    rw [Finset.sum_const, Finset.card_univ, Fintype.card_fin, nsmul_eq_mul]; ring
  rw [hqx, hq, hM, hs, Finset.mul_sum, Finset.mul_sum, ← Finset.sum_add_distrib, ← Finset.sum_add_distrib]
  refine Finset.sum_congr rfl fun m _ => ?_
  have hcm := hN.comp m
  simp only [Pi.zero_apply, add_zero] at hcm
  simp only [step, hp, hd]
  have : v.z m * d.s m = -(v.s m * v.z m - it.ip.mu) - v.s m * d.z m := by linarith
  calc (v.s m + α * d.s m) * (v.z m + α * d.z m)
      = v.s m * v.z m + α * (v.z m * d.s m) + α * (v.s m * d.z m) + α ^ 2 * (d.s m * d.z m) := by ring
    _ = _ := by rw [this]; ring

/-! ## The dual residual can appear from nothing -/

/-- `min ½ x² + 2 x` subject to `x ≥ 0`. -/
noncomputable def halfLine : QP 1 1 0 ℝ where
  G := fun _ _ => 1
  c := fun _ => 2
  A := fun k => k.elim0
  b := fun k => k.elim0
  con := fun _ => ⟨0, 1, 0⟩

theorem halfLine_regular : Regular halfLine := by
  refine PosDefG.regular ?_ fun y _ => funext fun k => k.elim0
  intro x hx
  have h0 : x 0 ≠ 0 := fun h => hx (funext fun i => by rw [Fin.fin_one_eq_zero i]; exact h)
  simp only [Fin.sum_univ_one, Gsym, halfLine, mul_one]
  exact mul_self_pos.mpr h0

/-- A starting point given by the user. -/
noncomputable def halfStart (x s z : ℝ) (junk : IPState 1 1 0 ℝ) : IPState 1 1 0 ℝ :=
  { (setupState junk) with v := ⟨fun _ => x, fun _ => s, Fin.elim0, fun _ => z⟩ }

/-- One iteration from the user's guess with the given `initial_mu`. -/
noncomputable def halfParams (mu : ℝ) : QPParams ℝ :=
  { (QPParams.default : QPParams ℝ) with initialGuessMethod := .userProvided, maxIterations := 1, initialMu := mu,
                                          barrierStrategy := .fixedDecrease, initializeMuWithComplementarity := false }

theorem half_good {x s z : ℝ} (hs : 0 < s) (hz : 0 < z) (mu : ℝ) (junk : IPState 1 1 0 ℝ) :
    GoodStart (halfParams mu) (halfStart x s z junk) := Or.inr ⟨fun _ => hs, fun _ => hz⟩

/-- The single iteration of such a run, with the Newton direction spelled out. -/
theorem half_run (x s z mu : ℝ) (hs : 0 < s) (hz : 0 < z) (hmu : 0 < mu) (junk : IPState 1 1 0 ℝ) :
    ∃ r it v v' d, solve exactEigen halfLine (halfParams mu) (halfStart x s z junk) = .ok r ∧
      r.2.iterations[0]? = some it ∧ IterateIs exactEigen halfLine (halfParams mu) (halfStart x s z junk) 0 v ∧
      IterateIs exactEigen halfLine (halfParams mu) (halfStart x s z junk) 1 v' ∧
      v = (halfStart x s z junk).v ∧ v' = step v d it.ip.alpha.primal it.ip.alpha.dual ∧ it.ip.mu = mu ∧
      d.x 0 - d.z 0 = -(x + 2 - z) ∧ z * d.s 0 + s * d.z 0 = -(s * z - mu) ∧ d.x 0 - d.s 0 = -(x - s) ∧
      it.kktInitial.rDual = l2 (gradLagrangian halfLine v) ∧ it.kktFinal.rDual = l2 (gradLagrangian halfLine v') ∧
      (it.kktInitial.rPrimalEq = 0 ∧ it.kktInitial.rPrimalIneq = l2 fun m => ineqVal halfLine v.x m - v.s m) ∧
      (0 < it.ip.alpha.primal ∧ it.ip.alpha.primal ≤ 1) ∧ (0 < v'.s 0 ∧ 0 < v'.z 0) ∧
      (0 < z + d.z 0 → it.ip.alpha.dual = 1) ∧ (0 < s + d.s 0 → it.ip.alpha.primal = 1) := by
  have hprm : checkParams (halfParams mu) = .ok () := by
    rw [checkParams_ok_iff]
    have := (checkParams_ok_iff (QPParams.default : QPParams ℝ)).mp default_valid
    exact ⟨hmu, this.2.1, this.2.2.1, this.2.2.2.1, by norm_num [halfParams]⟩
  have hg := half_good hs hz mu (x := x) junk
  have hwf : WF (halfStart x s z junk) := fun k => k.elim0
  obtain ⟨r, hr⟩ := solve_returns exactEigen exactEigen_total halfLine (fun _ => by simp [halfLine]) (halfParams mu) hprm
    (halfStart x s z junk) hg
  obtain ⟨st0, sts, mus, h0, ht, hlen, -⟩ := solve_traj hr
  obtain ⟨hc, -⟩ := solve_ok hr
  have hk := List.getElem?_eq_getElem hlen
  set it := r.2.iterations[0] with hit
  have hv := traj_iterate hc h0 ht (k := 0) (Nat.zero_le _)
  have hv' := traj_iterate hc h0 ht (k := 1) hlen
  have hv0 : (sts 0).v = (halfStart x s z junk).v := by
    rw [ht.s0, evaluateKKT_v]
    have : st0 = halfStart x s z junk := by
      simp only [halfParams, initialGuess] at h0
      cases h0; rfl
    rw [this]
  have hx0 : (sts 0).v.x 0 = x := by rw [hv0]; rfl
  have hs0 : (sts 0).v.s 0 = s := by rw [hv0]; rfl
  have hz0 : (sts 0).v.z 0 = z := by rw [hv0]; rfl
  have hm : it.ip.mu = mu := by
    obtain ⟨⟨s1, h1, -⟩, -⟩ := ht.body 0 hlen
    have := (C09_newton_direction exactEigen exactEigen_contract halfLine _ _ _ _ _
      (by rw [ht.s0]; exact fun k => k.elim0)
      (reducedMatrix_nonsing _ _ halfLine_regular (fun m => by rw [Fin.fin_one_eq_zero m, hs0]; exact hs)
        (fun m => by rw [Fin.fin_one_eq_zero m, hz0]; exact hz)) h1)
    obtain ⟨corr, d, -, -, hne, -⟩ := this
    rw [hit, (hne (by simp [halfParams])).1, ht.m0, initialMu]
    simp [halfParams]
  obtain ⟨mu', corr, d, hN, hs', hcorr, hi, hf, ⟨hap, had⟩, -, hp2, hfull, hfullp⟩ := run_step exactEigen
    exactEigen_contract halfLine halfLine_regular (halfParams mu) (halfStart x s z junk) hg hwf r hr 0 it hk _ _ hv hv'
  have hc0 := hcorr (by simp [halfParams])
  subst hc0
  have n1 := hN.dual 0
  have n2 := hN.comp 0
  have n3 := hN.ineq 0
  simp only [gradLagrangian, Fin.sum_univ_one, Gsym, halfLine, if_true, Finset.univ_eq_empty, Finset.sum_empty, ineqVal,
    hx0, hs0, hz0, hm, Pi.zero_apply] at n1 n2 n3
  refine ⟨r, it, (sts 0).v, (sts 1).v, d, hr, hk, hv, hv', hv0, hs', hm, by linarith, by linarith, by linarith, by rw [hi]; rfl,
    by rw [hf]; rfl, ⟨by rw [hi]; exact l2_zero fun k => k.elim0, by rw [hi]; rfl⟩, hap, ⟨hp2.1 0, hp2.2 0⟩,
    fun h => hfull fun m => by rw [Fin.fin_one_eq_zero m, hz0]; exact h,
    fun h => hfullp fun m => by rw [Fin.fin_one_eq_zero m, hs0]; exact h⟩

theorem half_grad (v : Blocks 1 1 0 ℝ) (i : Fin 1) : gradLagrangian halfLine v i = v.x 0 + 2 - v.z 0 := by
  have : i = 0 := Fin.fin_one_eq_zero i
  subst this
  simp only [gradLagrangian, Fin.sum_univ_one, Gsym, halfLine, if_true, Finset.univ_eq_empty, Finset.sum_empty]
  ring

/-- **C95**, what does *not* hold: the dual residual is not monotone. Here an iteration starts (from `x = -1`, outside the
constraint) with a dual residual of zero, cuts the primal step but not the dual one, and ends with a nonzero one. -/
theorem C95_dual_can_appear (junk : IPState 1 1 0 ℝ) :
    ∃ r it, solve exactEigen halfLine (halfParams (1 / 10)) (halfStart (-1) 1 1 junk) = .ok r ∧
      r.2.iterations[0]? = some it ∧
      it.kktInitial.rDual = 0 ∧ it.ip.alpha.primal < it.ip.alpha.dual ∧ it.kktFinal.rDual ≠ 0 := by
  obtain ⟨r, it, v, v', d, hr, hk, -, -, hv, hv', -, n1, n2, n3, hi, hf, -, hap, hp2, hfull, -⟩ :=
    half_run (-1) 1 1 (1 / 10) one_pos one_pos (by norm_num) junk
  have hdx : d.x 0 = 11 / 20 := by linarith
  have hdz : d.z 0 = 11 / 20 := by linarith
  have hds : d.s 0 = -29 / 20 := by linarith
  have hx0 : v.x 0 = -1 := by rw [hv]; rfl
  have hs0 : v.s 0 = 1 := by rw [hv]; rfl
  have hz0 : v.z 0 = 1 := by rw [hv]; rfl
  have hd1 : it.ip.alpha.dual = 1 := hfull (by rw [hdz]; norm_num)
  have hlt : it.ip.alpha.primal < 1 := by
    have := hp2.1
    rw [hv'] at this
    simp only [step, hs0, hds] at this
    nlinarith
  refine ⟨r, it, hr, hk, ?_, by rw [hd1]; exact hlt, ?_⟩
  · rw [hi]; exact l2_zero fun i => by rw [half_grad, hx0, hz0]; norm_num
  · rw [hf]
    intro h
    have h1 := l2_eq_zero h 0
    rw [half_grad, hv'] at h1
    simp only [step, hx0, hz0, hdx, hdz, hd1] at h1
    nlinarith

/-- Non-vacuity of **C95**: from the feasible point `x = 1` with barrier parameter `2`, all hypotheses of the theorems above
hold together: zero residuals, full equal steps, and the total complementarity goes from `3` to `2 + 1/16`. -/
example (junk : IPState 1 1 0 ℝ) : Regular halfLine ∧ PSDG halfLine ∧ LDLTContract (exactEigen : Eigen 1 0 ℝ) ∧
    GoodStart (halfParams 2) (halfStart 1 1 3 junk) ∧ WF (halfStart 1 1 3 junk) ∧
    (halfParams 2).barrierStrategy ≠ .predictorCorrector ∧
    ∃ r it v v', solve exactEigen halfLine (halfParams 2) (halfStart 1 1 3 junk) = .ok r ∧
      r.2.iterations[0]? = some it ∧
      IterateIs exactEigen halfLine (halfParams 2) (halfStart 1 1 3 junk) 0 v ∧
      IterateIs exactEigen halfLine (halfParams 2) (halfStart 1 1 3 junk) 1 v' ∧
      it.kktInitial.rDual = 0 ∧ it.kktInitial.rPrimalEq = 0 ∧ it.kktInitial.rPrimalIneq = 0 ∧
      it.ip.alpha.primal = 1 ∧ it.ip.alpha.dual = 1 ∧ v.s 0 * v.z 0 = 3 ∧ v'.s 0 * v'.z 0 = 2 + 1 / 16 := by
  refine ⟨halfLine_regular, ?_, exactEigen_contract, half_good one_pos (by norm_num) _ junk,
    fun k => k.elim0, by simp [halfParams], ?_⟩
  · intro x
    simp only [Fin.sum_univ_one, Gsym, halfLine, mul_one]
    exact mul_self_nonneg _
  · obtain ⟨r, it, v, v', d, hr, hk, hit, hit', hv, hv', -, n1, n2, n3, hi, hf, ⟨he, hq⟩, hap, hp2, hfull, hfullp⟩ :=
      half_run 1 1 3 2 one_pos (by norm_num) (by norm_num) junk
    have hdx : d.x 0 = -1 / 4 := by linarith
    have hdz : d.z 0 = -1 / 4 := by linarith
    have hds : d.s 0 = -1 / 4 := by linarith
    have hx0 : v.x 0 = 1 := by rw [hv]; rfl
    have hs0 : v.s 0 = 1 := by rw [hv]; rfl
    have hz0 : v.z 0 = 3 := by rw [hv]; rfl
    have hd1 := hfull (by rw [hdz]; norm_num)
    have hp1 := hfullp (by rw [hds]; norm_num)
    refine ⟨r, it, v, v', hr, hk, hit, hit', ?_, he, ?_, hp1, hd1, by rw [hs0, hz0]; norm_num, ?_⟩
    · rw [hi]; exact l2_zero fun i => by rw [half_grad, hx0, hz0]; norm_num
    · rw [hq]
      refine l2_zero fun m => ?_
      rw [Fin.fin_one_eq_zero m, hs0]
      simp only [ineqVal, halfLine, hx0]; norm_num
    · rw [hv', hp1, hd1]
      simp only [step, hs0, hz0, hds, hdz]; norm_num

end MiniOpt.Props
