import Verif.Props.EigenLDLT

/-!
# C112: `FailedFactorization` from the nonlinear solver
-/

set_option autoImplicit false

namespace MiniOpt.Props

open MiniOpt.Spec MiniOpt.NLS

variable {n D : Nat}

/-- The equality Jacobian at `x` has full row rank: the linearised constraints can be given any values. -/
def FullRank (p : Problem D ℝ) (x : Fin n → ℝ) : Prop :=
  ∀ t : Fin p.K → ℝ, ∃ dx : Fin D → ℝ, stackedModel x dx p.eqs = List.ofFn t

/-- Some cost residual changes to first order along `d`. -/
def CostSees (p : Problem D ℝ) (x : Fin n → ℝ) (d : Fin D → ℝ) : Prop := ∃ r ∈ p.costs, ∃ k, slopeAt r x d k ≠ 0

/-- Some bound constrains a variable that changes along `d`. -/
def BoundSees (p : Problem D ℝ) (d : Fin D → ℝ) : Prop := ∃ c ∈ p.ineq, ∃ i : Fin D, (i.val : Int) = c.var ∧ d i ≠ 0

theorem full_rank_rows {p : Problem D ℝ} (hp : WellPosed p n) {x : Fin n → ℝ} {lam : ℝ} {qp0 qp : QPData D p.M p.K ℝ}
    {pre : Errors ℝ} (hl : linearize p x lam qp0 = .ok (qp, pre)) (hf : FullRank p x)
    (h : ∀ i, 0 ≤ (qp.con i).var ∧ (qp.con i).var < (D : Int)) : IndependentRows (qp.typed h) := by
  intro y hy
  obtain ⟨-, -, hA, -⟩ := linearize_facts hp hl
  obtain ⟨dx, hdx⟩ := hf fun k => y k + qp.b k
  have e : (fun k => (∑ j, qp.A k j * dx j) + qp.b k) = fun k => y k + qp.b k := List.ofFn_injective ((hA dx).trans hdx)
  have hAy : ∀ k, ∑ j, qp.A k j * dx j = y k := fun k => by have := congrFun e k; linarith
  have hzero : ∑ k, y k * y k = 0 := by
    have : ∑ k, y k * y k = ∑ j, dx j * ∑ k, qp.A k j * y k := by
      simp_rw [Finset.mul_sum]
      rw [Finset.sum_comm]
      refine Finset.sum_congr rfl fun k _ => ?_
      nth_rw 2 [← hAy k]
      rw [Finset.mul_sum]
      exact Finset.sum_congr rfl fun j _ => by ring
    rw [this]
    exact Finset.sum_eq_zero fun j _ => by rw [show ∑ k, qp.A k j * y k = 0 from hy j, mul_zero]
  funext k
  have := (Finset.sum_eq_zero_iff_of_nonneg (fun i _ => mul_self_nonneg (y i))).mp hzero k (Finset.mem_univ k)
  exact mul_self_eq_zero.mp this

theorem cost_form {p : Problem D ℝ} (x : Fin n → ℝ) (d : Fin D → ℝ) :
    0 ≤ (p.costs.map fun r => ∑ k, slopeAt r x d k ^ 2).sum ∧
    (CostSees p x d → 0 < (p.costs.map fun r => ∑ k, slopeAt r x d k ^ 2).sum) ∧
    (¬ CostSees p x d → (p.costs.map fun r => ∑ k, slopeAt r x d k ^ 2).sum = 0) := by
  have hnn : ∀ v ∈ p.costs.map fun r => ∑ k, slopeAt r x d k ^ 2, 0 ≤ v := by
    intro v hv
    obtain ⟨r, _, rfl⟩ := List.mem_map.mp hv
    exact Finset.sum_nonneg fun k _ => sq_nonneg _
  refine ⟨List.sum_nonneg hnn, ?_, ?_⟩
  · rintro ⟨r, hr, k, hk⟩
    have h1 : 0 < ∑ k, slopeAt r x d k ^ 2 :=
      lt_of_lt_of_le (by positivity) (Finset.single_le_sum (f := fun k => slopeAt r x d k ^ 2) (fun i _ => sq_nonneg _) (Finset.mem_univ k))
    exact lt_of_lt_of_le h1 (List.single_le_sum hnn _ (List.mem_map.mpr ⟨r, hr, rfl⟩))
  · intro hn
    refine List.sum_eq_zero fun v hv => ?_
    obtain ⟨r, hr, rfl⟩ := List.mem_map.mp hv
    refine Finset.sum_eq_zero fun k _ => ?_
    by_contra h
    exact hn ⟨r, hr, k, fun h0 => h (by rw [h0]; ring)⟩

theorem form_typed {p : Problem D ℝ} (hp : WellPosed p n) {x : Fin n → ℝ} {lam : ℝ} {qp0 qp : QPData D p.M p.K ℝ}
    {pre : Errors ℝ} (hl : linearize p x lam qp0 = .ok (qp, pre))
    (h : ∀ i, 0 ≤ (qp.con i).var ∧ (qp.con i).var < (D : Int)) (d : Fin D → ℝ) :
    ∑ i, ∑ j, d i * Gsym (qp.typed h) i j * d j
      = (p.costs.map fun r => ∑ k, slopeAt r x d k ^ 2).sum + max lam 0 * ∑ i, d i ^ 2 :=
  (linearize_facts hp hl).2.2.2.2.2 d

/-- The QP subproblem is solved without exception. -/
theorem step_returns {env : Env n D ℝ} (hE : env.E = LDLT.eigen D env.p.K 0) (hp : WellPosed env.p n)
    (ha : ∀ c ∈ env.p.ineq, c.a ≠ 0) {prm : NLSParams ℝ} (hprm : NLSParamsValid prm)
    {x : Fin n → ℝ} {lam : ℝ} {o : env.Obj} {qp : QPData D env.p.M env.p.K ℝ} {pre : Errors ℝ}
    (hl : linearize env.p x lam o.qp = .ok (qp, pre)) {st : IPState D env.p.M env.p.K ℝ} (hs : o.solver = .ip st)
    (hf : FullRank env.p x)
    (hseen : ∀ d : Fin D → ℝ, d ≠ 0 → 0 < lam ∨ CostSees env.p x d ∨ (env.p.eqs = [] ∧ BoundSees env.p d)) :
    ∃ o1 out st', stepDirection env prm { o with qp := qp } = .ok (o1, out) ∧ o1.solver = .ip st' := by
  have hcon := linearize_con' hp hl
  have hix : ∀ i, 0 ≤ (qp.con i).var ∧ (qp.con i).var < (D : Int) := by
    intro i
    rw [hcon i]
    exact ⟨(hp.ineq _ (List.get_mem _ _)).1, (hp.ineq _ (List.get_mem _ _)).2.2⟩
  have hci : checkIndices D (List.ofFn qp.con) = .ok () := by
    rcases checkIndices_ok D (List.ofFn qp.con) with h | ⟨-, h⟩
    · exact h.1
    · exfalso
      apply h
      intro c hc
      obtain ⟨i, rfl⟩ := (List.mem_ofFn' _ _).mp hc
      exact (hix i).2
  have hform := form_typed hp hl hix
  have hsq : ∀ d : Fin D → ℝ, 0 ≤ max lam 0 * ∑ i, d i ^ 2 := fun d =>
    mul_nonneg (le_max_right _ _) (Finset.sum_nonneg fun i _ => sq_nonneg _)
  have hP : PSDG (qp.typed hix) := fun d => by rw [hform]; exact add_nonneg (cost_form x d).1 (hsq d)
  have hrows := full_rank_rows hp hl hf hix
  have hdamp : ∀ d : Fin D → ℝ, d ≠ 0 → 0 < lam → 0 < ∑ i, ∑ j, d i * Gsym (qp.typed hix) i j * d j := by
    intro d hd hlam
    rw [hform]
    obtain ⟨i, hi⟩ := Function.ne_iff.mp hd
    have h1 : 0 < ∑ i, d i ^ 2 :=
      lt_of_lt_of_le (by have : d i ≠ 0 := hi; positivity)
        (Finset.single_le_sum (f := fun i => d i ^ 2) (fun i _ => sq_nonneg _) (Finset.mem_univ i))
    have h2 : 0 < max lam 0 * ∑ i, d i ^ 2 := mul_pos (lt_of_lt_of_le hlam (le_max_left _ _)) h1
    linarith [(cost_form (p := env.p) x d).1]
  have hcost : ∀ d : Fin D → ℝ, CostSees env.p x d → 0 < ∑ i, ∑ j, d i * Gsym (qp.typed hix) i j * d j := by
    intro d hc
    rw [hform]
    linarith [(cost_form (p := env.p) x d).2.1 hc, hsq d]
  have hslope : ∀ m, ((qp.typed hix).con m).a ≠ 0 := fun m => by
    show (qp.con m).a ≠ 0
    rw [hcon m]; exact ha (env.p.ineq.get m) (List.get_mem _ _)
  have hrun : ∃ r, IP.solve env.E (qp.typed hix) (qpParams env.p prm) (IP.setupState st) = .ok r := by
    rw [hE]
    by_cases he : env.p.eqs = []
    · have hpin : Pinned (qp.typed hix) := by
        intro d hd hc
        rcases hseen d hd with h | h | ⟨_, c, hcm, i, hi, hdi⟩
        · exact hdamp d hd h
        · exact hcost d h
        · exfalso
          obtain ⟨m, hm⟩ := List.mem_iff_get.mp hcm
          have := hc m
          have hvar : ((qp.typed hix).con m).var = i := by
            apply Fin.ext
            show (qp.con m).var.toNat = i.val
            rw [hcon m]
            show (env.p.ineq.get m).var.toNat = _
            rw [hm, ← hi]; rfl
          rw [hvar] at this
          exact (mul_ne_zero (hslope m) hdi) this
      exact ((C111_solve (qp.typed hix) hP (hpin.regular hP hrows) hslope _ (qpParams_valid env.p hprm) (IP.setupState st)
        (setupState_WF st) (Or.inl (by simp [qpParams, he]))).1).mpr hpin
    · have hpd : PosDefG (qp.typed hix) := by
        intro d hd
        rcases hseen d hd with h | h | ⟨h, _⟩
        · exact hdamp d hd h
        · exact hcost d h
        · exact absurd h he
      exact ((C111_equality_guess (qp.typed hix) hP hrows hpd.onNull hslope _ (qpParams_valid env.p hprm) (IP.setupState st)
        (setupState_WF st) (by simp [qpParams, he])).1).mpr hpd
  obtain ⟨⟨st', out⟩, hr⟩ := hrun
  unfold stepDirection
  simp only [hs]
  rw [hci]
  dsimp only
  rw [dif_pos hix, hr]
  exact ⟨_, _, st', rfl, rfl⟩

/-- **C112** (nonlinear solver, returns). Take a well-posed problem solved by the interior point method (bounds, or no equality
constraints), with nonzero bound slopes, documented parameters with a positive initial penalty, user code that does not throw,
and equality constraints with a Jacobian of full row rank everywhere. If `min_lambda` is positive, or if everywhere every
direction is seen by the costs (or, without equality constraints, by a bound), the nonlinear `Solve` returns. -/
theorem C112_returns (env : Env n D ℝ) (hE : env.E = LDLT.eigen D env.p.K 0) (hp : WellPosed env.p n)
    (hr : n = D ∨ env.retraction ≠ none) (ha : ∀ c ∈ env.p.ineq, c.a ≠ 0) (hu : env.p.eqs = [] ∨ env.p.ineq ≠ [])
    (prm : NLSParams ℝ) (hprm : NLSParamsValid prm) (hpen : 0 < prm.equalityPenaltyInitial) (hq : ¬ UserThrows env)
    (hf : ∀ x : Fin n → ℝ, FullRank env.p x)
    (hseen : 0 < prm.minLambda ∨
      ∀ (x : Fin n → ℝ) (d : Fin D → ℝ), d ≠ 0 → CostSees env.p x d ∨ (env.p.eqs = [] ∧ BoundSees env.p d))
    (x0 : Fin n → ℝ) (o : env.Obj) : ∃ r, solve env prm x0 o = .ok r := by
  have hns : ¬ UsesNullSpace env.p := fun h => by
    rcases hu with hu | hu
    · exact h.2 hu
    · exact hu h.1
  have hloop : ∀ (fuel iter : Nat) (s : Loop env), Good env s → (0 < prm.minLambda → prm.minLambda ≤ s.lambda) →
      ∃ r, loop env prm fuel iter s = .ok r := by
    intro fuel
    induction fuel with
    | zero => intro iter s _ _; exact ⟨_, rfl⟩
    | succ f ih =>
      intro iter s hs hlam
      unfold loop
      rcases body_total_gen hp hr hprm iter hs (T := fun _ => False) (fun _ _ h => hq h) (by
        intro qp pre hl
        left
        rcases hs.kind with ⟨h, _⟩ | ⟨_, st, hst⟩
        · exact absurd h hns
        · obtain ⟨o1, out, st', h1, h2⟩ := step_returns hE hp ha hprm hl hst (hf _) (by
            intro d hd
            rcases hseen with h | h
            · exact Or.inl (lt_of_lt_of_le h (hlam h))
            · exact Or.inr (h _ d hd))
          exact ⟨o1, out, h1, Or.inr ⟨hns, st', h2⟩⟩) with ⟨s', t, hb, hs'⟩ | ⟨e, _, he⟩
      · rw [hb]
        cases t with
        | some t => exact ⟨_, rfl⟩
        | none =>
          refine ih _ _ hs' fun hmin => ?_
          rcases body_ok hb with ⟨qp, pre, o1, out, _, _, _, rfl, ht⟩ | ⟨w, hw⟩
          · exact hlam hmin
          · rw [hw.lambda]
            have h0 := hlam hmin
            have h10 : prm.minLambda ≤ s.lambda * 10 := by linarith
            unfold nextLambda
            have e10 : (Scalar.lit 10 : ℝ) = 10 := by rw [real_lit]; norm_num
            split <;> try rw [real_cmax]
            · exact le_max_right _ _
            · exact le_max_right _ _
            · rw [e10]; exact le_trans h10 (le_max_right _ _)
            · rw [e10]; exact le_trans h10 (le_max_right _ _)
            · rw [e10]; exact h10
            · rw [e10]; exact h10
            · exact h0
      · exact he.elim
  unfold solve
  rw [(checkParams_iff prm).mpr hprm]
  dsimp only
  have hstart : Good env (start env prm x0 o) := by
    refine ⟨hpen, Or.inr ⟨hns, ?_⟩⟩
    unfold start chooseSolver
    dsimp only
    rw [if_neg (show ¬ (env.p.ineq = [] ∧ env.p.eqs ≠ []) from hns)]
    cases o.solver <;> exact ⟨_, rfl⟩
  obtain ⟨⟨s, t⟩, h⟩ := hloop prm.maxIterations.toNat 0 _ hstart fun _ => hprm.lambdaInitial.1
  rw [h]; exact ⟨_, rfl⟩

theorem stacked_slopes (x : Fin n → ℝ) (d : Fin D → ℝ) : ∀ l : List (Residual ℝ), stackedModel x d l = stackedValues x l →
    ∀ r ∈ l, ∀ k, slopeAt r x d k = 0
  | [], _, r, hr, _ => by simp at hr
  | r0 :: l, h, r, hr, k => by
    unfold stackedModel stackedValues at h
    obtain ⟨h1, h2⟩ := List.append_inj h (by simp)
    rcases List.mem_cons.mp hr with rfl | hr
    · have := congrFun (List.ofFn_injective h1) k
      unfold linAt at this
      unfold slopeAt
      linarith
    · exact stacked_slopes x d l h2 r hr k

/-- **C112** (nonlinear solver, throws). Take a well-posed problem with bounds *and* equality constraints, whose equality
Jacobian at the start has full row rank, and start without damping. Suppose the linearised problem has a unique solution
(every direction the equality constraints leave free is seen by the costs), but some direction is not seen by the costs alone.
Then the first iteration throws `FailedFactorization`, whatever the bounds are. -/
theorem C112_throws (env : Env n D ℝ) (hE : env.E = LDLT.eigen D env.p.K 0) (hp : WellPosed env.p n)
    (ha : ∀ c ∈ env.p.ineq, c.a ≠ 0) (hi : env.p.ineq ≠ []) (he : env.p.eqs ≠ [])
    (prm : NLSParams ℝ) (hprm : NLSParamsValid prm) (hk : 1 ≤ prm.maxIterations) (hlam : prm.lambdaInitial ≤ 0)
    (hq : ¬ UserThrows env) (x0 : Fin n → ℝ) (hf : FullRank env.p x0)
    (hunique : ∀ d : Fin D → ℝ, d ≠ 0 → (∀ r ∈ env.p.eqs, ∀ k, slopeAt r x0 d k = 0) → CostSees env.p x0 d)
    (hblind : ∃ d : Fin D → ℝ, d ≠ 0 ∧ ¬ CostSees env.p x0 d) (o : env.Obj) :
    ∃ o', solve env prm x0 o = .error (.failedFactorization, o') := by
  have hns : ¬ UsesNullSpace env.p := fun h => hi h.1
  obtain ⟨m, hm⟩ : ∃ m, prm.maxIterations.toNat = m + 1 := ⟨prm.maxIterations.toNat - 1, by omega⟩
  obtain ⟨st, hst⟩ : ∃ st, (start env prm x0 o).obj.solver = .ip st := by
    unfold start chooseSolver
    dsimp only
    rw [if_neg (show ¬ (env.p.ineq = [] ∧ env.p.eqs ≠ []) from hns)]
    cases o.solver <;> exact ⟨_, rfl⟩
  rcases linearize_total hp.idx hp.idxD (fun c hc => ⟨(hp.ineq c hc).1, (hp.ineq c hc).2.1⟩) x0 prm.lambdaInitial o.qp with
    ⟨qp, pre, hl⟩ | ⟨_, h⟩
  swap
  · exact absurd h hq
  have hcon := linearize_con' hp hl
  have hix : ∀ i, 0 ≤ (qp.con i).var ∧ (qp.con i).var < (D : Int) := by
    intro i
    rw [hcon i]
    exact ⟨(hp.ineq _ (List.get_mem _ _)).1, (hp.ineq _ (List.get_mem _ _)).2.2⟩
  have hci : checkIndices D (List.ofFn qp.con) = .ok () := by
    rcases checkIndices_ok D (List.ofFn qp.con) with h | ⟨-, h⟩
    · exact h.1
    · exfalso
      apply h
      intro c hc
      obtain ⟨i, rfl⟩ := (List.mem_ofFn' _ _).mp hc
      exact (hix i).2
  have hform : ∀ d : Fin D → ℝ, ∑ i, ∑ j, d i * Gsym (qp.typed hix) i j * d j
      = (env.p.costs.map fun r => ∑ k, slopeAt r x0 d k ^ 2).sum := fun d => by
    rw [form_typed hp hl hix, max_eq_right hlam, zero_mul, add_zero]
  have hP : PSDG (qp.typed hix) := fun d => by rw [hform]; exact (cost_form x0 d).1
  have hrows := full_rank_rows hp hl hf hix
  have hnull : PosDefOnNull (qp.typed hix) := by
    intro d hd hnd
    rw [hform]
    refine (cost_form (p := env.p) x0 d).2.1 (hunique d hd ?_)
    obtain ⟨-, -, hA, hb, -⟩ := linearize_facts hp hl
    refine stacked_slopes x0 d env.p.eqs ?_
    rw [← hA d, ← hb]
    congr 1
    funext k
    rw [show ∑ j, qp.A k j * d j = 0 from hnd k, zero_add]
  have hnot : ¬ PosDefG (qp.typed hix) := by
    intro h
    obtain ⟨d, hd, hc⟩ := hblind
    have := h d hd
    rw [hform, (cost_form (p := env.p) x0 d).2.2 hc] at this
    exact lt_irrefl _ this
  have hslope : ∀ m, ((qp.typed hix).con m).a ≠ 0 := fun m => by
    show (qp.con m).a ≠ 0
    rw [hcon m]; exact ha (env.p.ineq.get m) (List.get_mem _ _)
  obtain ⟨st', hthrow⟩ := (C111_equality_guess (qp.typed hix) hP hrows hnull hslope _ (qpParams_valid env.p hprm)
    (IP.setupState st) (setupState_WF st) (by simp [qpParams, he])).2 hnot
  have hdir : ∃ o1, stepDirection env prm { (start env prm x0 o).obj with qp := qp } = .error (.failedFactorization, o1) := by
    unfold stepDirection
    simp only [hst]
    rw [hci]
    dsimp only
    rw [dif_pos hix, hE, hthrow]
    exact ⟨_, rfl⟩
  obtain ⟨o1, hdir⟩ := hdir
  have hl' : linearize env.p (start env prm x0 o).obj.vars (start env prm x0 o).lambda (start env prm x0 o).obj.qp = .ok (qp, pre) := hl
  refine ⟨o1, ?_⟩
  unfold solve
  rw [(checkParams_iff prm).mpr hprm, hm]
  dsimp only
  unfold loop body
  rw [hl']
  dsimp only
  rw [hdir]

end MiniOpt.Props
