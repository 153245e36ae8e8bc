import Verif.Props.FirstOrder
import Verif.Props.QPMore
import Verif.Props.FirstOrderExamples
import Verif.Lemmas.DemoHill

/-!
# C84: how the nonlinear solver runs its QP subproblems

`ComputeStepDirection` (`nonlinear.cc:216-259`) fills in the parameters of the interior point solver.  The theorems say
what the user sees of this in the QP outputs logged with every nonlinear iteration.
-/

set_option autoImplicit false

namespace MiniOpt.Props

open MiniOpt MiniOpt.Spec MiniOpt.NLS

variable {n D : Nat}

/-- The iterates of an interior point run (`vs 0` is the initial guess) and its log, as the nonlinear solver configures
it: at most `maxQP` iterations, `mu = 1` first and `0.1 sᵀz / M` later, exit at `tol` and `1e-6`, initial slacks
`s = max(a x + b, 1e-9)` and multipliers `z = 1/s`. -/
structure SubproblemRun {N M K : Nat} (Q : QP N M K ℝ) (maxQP : Int) (tol : ℝ) (q : QPOutputs ℝ) (vs : Nat → Blocks N M K ℝ) :
    Prop where
  nonempty : 0 < q.iterations.length
  budget : (q.iterations.length : Int) ≤ maxQP
  errors : ∀ j iq, q.iterations[j]? = some iq →
    iq.kktInitial = kktError Q (vs j) iq.ip.mu ∧ iq.kktFinal = kktError Q (vs (j + 1)) iq.ip.mu
  barrier : ∀ j iq, q.iterations[j]? = some iq → iq.ip.mu = if j = 0 then 1 else 0.1 * avgComp (vs j)
  exit : q.termination = .satisfiedKktTol ↔ ∃ iq, q.iterations.getLast? = some iq ∧
    iq.kktFinal.max < tol ∧ avgComp (vs q.iterations.length) < 1e-6
  slack : ∀ m, (vs 0).s m = max (ineqVal Q (vs 0).x m) 1e-9 ∧ (vs 0).z m = 1 / (vs 0).s m

/-- Where the run starts: at the point of the box nearest to the origin when the problem has no equality constraints,
otherwise at the point of the box nearest to the solution of the problem without its inequalities. -/
def SubproblemStart {N M K : Nat} (Q : QP N M K ℝ) (hasEq : Prop) (v : Blocks N M K ℝ) : Prop :=
  ∀ w : Fin N → ℝ, (∀ m, 0 ≤ ineqVal Q w m) → (∀ m, 0 ≤ ineqVal Q v.x m) ∧
    (¬ hasEq → (∀ k, v.y k = 0) ∧ ∀ j, |v.x j| ≤ |w j|) ∧
    (hasEq → PosDefOnNull Q → IndependentRows Q →
      ∃ x1, EqualityKKT Q x1 v.y ∧ ∀ j, |v.x j - x1 j| ≤ |w j - x1 j|)

/-- **C84**. Every interior point run logged by the nonlinear solver is a run of the QP linearised at the variables of
that iteration (`b.qp`, see C34), configured as `SubproblemRun` and `SubproblemStart` say, and the direction is its last
iterate. -/
theorem C84_subproblem (env : Env n D ℝ) (hE : LDLTContract env.E) (prm : NLSParams ℝ) (x0 : Fin n → ℝ) (o o' : env.Obj)
    (out : NLSOutputs ℝ) (calls : List (NLSIteration ℝ)) (h : solve env prm x0 o = .ok (o', out, calls))
    (k : Nat) (it : NLSIteration ℝ) (hit : out.iterations[k]? = some it) (q : QPOutputs ℝ)
    (hq : it.qpOutputs = .interiorPoint q) (a b : env.Obj) (ha : After env prm x0 o k a)
    (hb : After env prm x0 o (k + 1) b) :
    linearize env.p a.vars it.lambda a.qp = .ok (b.qp, it.errorsInitial) ∧
    ∃ (hcon : ∀ i, 0 ≤ (b.qp.con i).var ∧ (b.qp.con i).var < (D : Int)) (vs : Nat → Blocks D env.p.M env.p.K ℝ),
      SubproblemRun (b.qp.typed hcon) prm.maxQPIterations prm.terminationKktTol q vs ∧
      SubproblemStart (b.qp.typed hcon) (env.p.eqs ≠ []) (vs 0) ∧ (vs q.iterations.length).x = b.dx := by
  obtain ⟨h1, -, h3⟩ := C38_direction env prm x0 o o' out calls h k it hit a b ha hb
  refine ⟨h1, ?_⟩
  rcases h3 with ⟨hcon, s, s', q', hs, hq', hdx⟩ | ⟨s, s', _, hq', _⟩
  swap
  · rw [hq] at hq'; cases hq'
  rw [hq] at hq'
  cases hq'
  have hg : GoodStart (qpParams env.p prm) (IP.setupState s) := Or.inl (NLS.qpParams_guess env.p prm)
  obtain ⟨vs, m, hvs, hlast, hm0, -, hlog⟩ := C16_barrier_schedule env.E _ _ _ hg _ hs
  obtain ⟨c1, c2, c3, c4⟩ := C13_iteration_count env.E _ _ _ _ hs
  have hmu : ∀ j iq, q.iterations[j]? = some iq → iq.ip.mu = m j := fun j iq hj =>
    (hlog j iq hj).2.2.1 (by simp [qpParams, QPParams.default])
  have h0 := hvs 0 (Nat.zero_le _)
  rw [IterateIs, if_pos rfl] at h0
  obtain ⟨st0, hg0, hv0⟩ := h0
  have hexit : ∀ iq, MeetsExit (qpParams env.p prm) iq (s'.v) ↔
      iq.max < prm.terminationKktTol ∧ avgComp s'.v < 1e-6 := by
    intro iq
    unfold MeetsExit
    have e1 : (qpParams env.p prm).terminationKktTol = prm.terminationKktTol := rfl
    have e2 : (qpParams env.p prm).terminationComplementarityTol = 1e-6 := by
      simp only [qpParams, QPParams.default, real_lit]; norm_num
    have e3 : (if 0 < env.p.M then dot s'.v.s s'.v.z / Scalar.lit env.p.M else 0) = avgComp s'.v := by
      unfold avgComp
      split_ifs with hM
      · simp [real_dot]
      · have : env.p.M = 0 := by omega
        simp [this]
    rw [e1, e2, e3]
  refine ⟨hcon, vs, ⟨c1, c2, ?_, ?_, ?_, ?_⟩, ?_, ?_⟩
  · intro j iq hj
    rw [hmu j iq hj]
    exact ⟨(hlog j iq hj).1, (hlog j iq hj).2.1⟩
  · intro j iq hj
    rw [hmu j iq hj]
    cases j with
    | zero => rw [hm0]; simp [qpParams]
    | succ j =>
      have hlt := (List.getElem?_eq_some_iff.mp hj).1
      rw [(hlog j (q.iterations[j]) (by simp)).2.2.2]
      have e4 : (qpParams env.p prm).sigma = 0.1 := by
        simp only [qpParams, real_lit]; norm_num
      rw [if_neg (by simp [qpParams, QPParams.default]), if_neg (by simp [qpParams, QPParams.default]), e4,
        if_neg (Nat.succ_ne_zero j)]
  · have hl : (vs q.iterations.length) = s'.v := hlast
    rw [hl]
    constructor
    · intro hT
      obtain ⟨iq, h1, h2⟩ := c4 hT
      exact ⟨iq, h1, (hexit _).mp h2⟩
    · rintro ⟨iq, h1, h2⟩
      cases hT : q.termination with
      | satisfiedKktTol => rfl
      | maxIterations =>
        obtain ⟨-, iq', h3, h4⟩ := c3 hT
        rw [h1] at h3
        cases h3
        exact absurd ((hexit _).mpr h2) h4
  · intro j
    obtain ⟨s1, hf⟩ := IP.initialGuess_finish (NLS.qpParams_guess env.p prm) hg0
    obtain ⟨-, -, e1, e2⟩ := IP.finishGuess_ok hf
    rw [IP.minSlack_val] at e1
    rw [hv0, max_comm]
    exact ⟨e1 j, e2 j⟩
  · intro w hw
    rw [hv0]
    refine ⟨(C22_initial_guess env.E _ _ _ _ (NLS.qpParams_guess env.p prm) ⟨w, hw⟩ hg0).1, fun hne => ?_, fun hne hpd hind => ?_⟩
    · have e : (qpParams env.p prm).initialGuessMethod = .naive := by simp [qpParams, hne]
      rw [e] at hg0
      exact C22_nearest env.E hE _ .naive _ _ (setupState_WF s) (fun h => by cases h) hg0 w hw
    · have e : (qpParams env.p prm).initialGuessMethod = .solveEqualityConstrained := by simp [qpParams, hne]
      rw [e] at hg0
      exact C22_nearest env.E hE _ .solveEqualityConstrained _ _ (setupState_WF s) (fun _ => ⟨hpd, hind⟩) hg0 w hw
  · have hl : (vs q.iterations.length) = s'.v := hlast
    rw [hl, hdx]

/-- **C84** (linearised equality constraints). Suppose the linearised problem has independent equality rows and is
convex along the directions they leave free. If its minimiser without the inequalities violates none of them, then the
equality residual is zero in every logged error of the run and the direction satisfies the linearised equality
constraints exactly, whether or not the QP converged. -/
theorem C84_equalities_met (env : Env n D ℝ) (hE : LDLTContract env.E) (prm : NLSParams ℝ) (x0 : Fin n → ℝ) (o o' : env.Obj)
    (out : NLSOutputs ℝ) (calls : List (NLSIteration ℝ)) (h : solve env prm x0 o = .ok (o', out, calls))
    (k : Nat) (it : NLSIteration ℝ) (hit : out.iterations[k]? = some it) (q : QPOutputs ℝ)
    (hq : it.qpOutputs = .interiorPoint q) (a b : env.Obj) (ha : After env prm x0 o k a)
    (hb : After env prm x0 o (k + 1) b) (heq : env.p.eqs ≠ [])
    (hcon : ∀ i, 0 ≤ (b.qp.con i).var ∧ (b.qp.con i).var < (D : Int))
    (hG : PosDefOnNull (b.qp.typed hcon)) (hA : IndependentRows (b.qp.typed hcon))
    (x1 : Fin D → ℝ) (y1 : Fin env.p.K → ℝ) (hx1 : EqualityKKT (b.qp.typed hcon) x1 y1)
    (hin : ∀ m, 0 ≤ ineqVal (b.qp.typed hcon) x1 m) :
    (∀ iq ∈ q.iterations, iq.kktInitial.rPrimalEq = 0 ∧ iq.kktFinal.rPrimalEq = 0) ∧
    ∀ r, (∑ j, b.qp.A r j * b.dx j) + b.qp.b r = 0 := by
  obtain ⟨-, -, h3⟩ := C38_direction env prm x0 o o' out calls h k it hit a b ha hb
  rcases h3 with ⟨_, s, s', q', hs, hq', hdx⟩ | ⟨s, s', _, hq', _⟩
  swap
  · rw [hq] at hq'; cases hq'
  rw [hq] at hq'
  cases hq'
  have hg : GoodStart (qpParams env.p prm) (IP.setupState s) := Or.inl (NLS.qpParams_guess env.p prm)
  have e : (qpParams env.p prm).initialGuessMethod = .solveEqualityConstrained := by simp [qpParams, heq]
  obtain ⟨-, st0, h0, -⟩ := IP.solve_ok hs
  have hzero : ∀ r, eqVal (b.qp.typed hcon) st0.v.x r = 0 := by
    have h0' := h0
    rw [e] at h0'
    obtain ⟨x2, hk2, -, hx2⟩ := C22_solve_equality env.E hE _ _ _ (setupState_WF s) hG hA h0'
    have hx : x2 = x1 := by
      by_contra hne
      have l1 := C22_kkt_is_minimiser _ hG x1 y1 hx1 x2 hk2.2 hne
      have l2 := C22_kkt_is_minimiser _ hG x2 _ hk2 x1 hx1.2 (Ne.symm hne)
      exact lt_asymm l1 l2
    subst hx
    rw [hx2 hin]
    exact hk2.2
  have hiter : ∀ j v, IterateIs env.E (b.qp.typed hcon) (qpParams env.p prm) (IP.setupState s) j v →
      ∀ r, eqVal (b.qp.typed hcon) v.x r = 0 := by
    intro j v hv r
    unfold IterateIs at hv
    split_ifs at hv with hj
    · obtain ⟨st0', h0', rfl⟩ := hv
      rw [h0] at h0'
      cases h0'
      exact hzero r
    · obtain ⟨r', hr', rfl⟩ := hv
      rw [C10_eq_residuals env.E hE _ { qpParams env.p prm with maxIterations := (j : Int) } _ st0 r' (Or.inl (NLS.qpParams_guess env.p prm)) (setupState_WF s) (hG.regular hA) h0 hr' r,
        hzero r, mul_zero]
  obtain ⟨vs, m, hvs, hlast, -, -, hlog⟩ := C16_barrier_schedule env.E _ _ _ hg _ hs
  constructor
  · intro iq hiq
    obtain ⟨j, hj⟩ := List.mem_iff_getElem?.mp hiq
    have hlt := (List.getElem?_eq_some_iff.mp hj).1
    obtain ⟨l1, l2, -⟩ := hlog j iq hj
    rw [l1, l2]
    exact ⟨l2_zero (hiter j _ (hvs j hlt.le)), l2_zero (hiter (j + 1) _ (hvs (j + 1) hlt))⟩
  · intro r
    rw [hdx]
    have := hiter _ _ (hvs _ le_rfl) r
    rw [hlast] at this
    exact this

/-- **C84** (defaults). The values of default-constructed parameters, as in the headers. -/
theorem C84_defaults :
    (QPParams.default : QPParams ℝ) =
      { initialMu := 1.0, sigma := 0.5, terminationKktTol := 1e-9, terminationComplementarityTol := 1e-6,
        maxIterations := 10, barrierStrategy := .complementarity, decreaseMuOnlyOnSmallError := false,
        initialGuessMethod := .naive, initializeMuWithComplementarity := false } ∧
    (NLSParams.default : NLSParams ℝ) =
      { maxIterations := 10, maxQPIterations := 10, terminationKktTol := 1e-6, absoluteExitTol := 1e-12,
        relativeExitTol := 1e-5, absoluteFirstDerivativeTol := 1e-6, maxLineSearchIterations := 2,
        lineSearchStrategy := .polynomialApproximation, armijoSearchTau := 0.8, equalityPenaltyInitial := 1.0,
        equalityPenaltyScaleFactor := 1.01, equalityPenaltyRho := 0.1, lambdaInitial := 0.0, lambdaFailureInit := 1e-2,
        lambdaDecreaseOnSuccess := 0.1, lambdaDecreaseOnRestore := 0.8, maxLambda := 1.0, minLambda := 0.0,
        logQPEigenvalues := false } := by
  constructor
  · simp only [QPParams.default, real_lit, QPParams.mk.injEq]
    norm_num
  · simp only [NLSParams.default, real_lit, NLSParams.mk.injEq]
    norm_num

open MiniOpt.DemoReal

/-- Non-vacuity of **C84**: the interior point run of the bounded problem. -/
example : ∃ (o' : boundedEnv.Obj) (out : NLSOutputs ℝ) (calls : List (NLSIteration ℝ)) (it : NLSIteration ℝ)
    (a b : boundedEnv.Obj) (q : QPOutputs ℝ), LDLTContract boundedEnv.E ∧
    solve boundedEnv dp (fun _ => 2) (mkObj _) = .ok (o', out, calls) ∧ out.iterations[0]? = some it ∧
    After boundedEnv dp (fun _ => 2) (mkObj _) 0 a ∧ After boundedEnv dp (fun _ => 2) (mkObj _) 1 b ∧
    it.qpOutputs = .interiorPoint q := by
  obtain ⟨o', out, calls, h, hne⟩ := bounded_run dp nls_default_valid dp_penalty dp_iterations fun _ => 2
  obtain ⟨it, hit⟩ := first_of hne
  obtain ⟨hex, hfirst, -⟩ := C38_after boundedEnv dp _ _ o' out calls h
  have hlen := List.length_pos_iff.mpr hne
  obtain ⟨a, ha, -⟩ := hex 0 (by omega)
  obtain ⟨b, hb, -⟩ := hex 1 (by omega)
  obtain ⟨q, hq⟩ := (C45_which_solver boundedEnv dp _ _ o' out calls h it (List.mem_of_getElem? hit)).2 (by simp [boundedEnv, mkEnv])
  exact ⟨o', out, calls, it, a, b, q, exactEigen_contract, h, hit, ha, hb, hq⟩

/-- Non-vacuity of `C84_equalities_met`: minimise `½(x₀ - 3)² + ½(x₁ - 1)²` subject to `x₀ + x₁² = 1` and `x₁ ≤ 4`
from `(0, 1)`; all hypotheses hold in the first iteration. -/
example : ∃ (o' : mixedEnv.Obj) (out : NLSOutputs ℝ) (calls : List (NLSIteration ℝ)) (it : NLSIteration ℝ)
    (a b : mixedEnv.Obj) (q : QPOutputs ℝ), LDLTContract mixedEnv.E ∧ mixedEnv.p.eqs ≠ [] ∧
    solve mixedEnv dp ![0, 1] (mkObj _) = .ok (o', out, calls) ∧ out.iterations[0]? = some it ∧
    After mixedEnv dp ![0, 1] (mkObj _) 0 a ∧ After mixedEnv dp ![0, 1] (mkObj _) 1 b ∧
    it.qpOutputs = .interiorPoint q ∧ ∃ (hcon : ∀ i, 0 ≤ (b.qp.con i).var ∧ (b.qp.con i).var < ((2 : Nat) : Int)),
      PosDefOnNull (b.qp.typed hcon) ∧ IndependentRows (b.qp.typed hcon) ∧
      ∃ x1 y1, EqualityKKT (b.qp.typed hcon) x1 y1 ∧ ∀ m, 0 ≤ ineqVal (b.qp.typed hcon) x1 m := by
  obtain ⟨o', out, calls, h, hne⟩ := mixed_run dp nls_default_valid dp_penalty dp_iterations ![0, 1]
  obtain ⟨it, hit⟩ := first_of hne
  obtain ⟨hex, hfirst, -⟩ := C38_after mixedEnv dp _ _ o' out calls h
  have hlen := List.length_pos_iff.mpr hne
  obtain ⟨a, ha, -⟩ := hex 0 (by omega)
  obtain ⟨b, hb, -⟩ := hex 1 (by omega)
  obtain ⟨q, hq⟩ := (C45_which_solver mixedEnv dp _ _ o' out calls h it (List.mem_of_getElem? hit)).2 (by simp [mixedEnv, mkEnv])
  obtain ⟨h1, -, h3⟩ := C38_direction mixedEnv dp _ _ o' out calls h 0 it hit a b ha hb
  rcases h3 with ⟨hcon, -⟩ | ⟨_, _, _, hq', _⟩
  swap
  · rw [hq] at hq'; cases hq'
  rw [hfirst a ha] at h1
  obtain ⟨-, f2, f3, f4, f5, f6⟩ := linearize_facts mixed_ok h1
  refine ⟨o', out, calls, it, a, b, q, exactEigen_contract, by simp [mixedEnv, mkEnv], h, hit, ha, hb, hq, hcon, ?_⟩
  set l := max it.lambda 0 with hl
  have hl0 : 0 ≤ l := le_max_right _ _
  have lc' : ∀ (d : Fin 2 → ℝ) (k : Fin 1), linAt curve (![0, 1] : Fin 2 → ℝ) d k = d 0 + 2 * d 1 := by
    intro d k
    have : linAt curve (![0, 1] : Fin 2 → ℝ) d k
      = valueAt curve ![0, 1] k + ∑ j : Fin 2, jacAt curve ![0, 1] 2 k j * d j := rfl
    rw [this]
    unfold curve
    rw [Fin.sum_univ_two, res2_jac, res2_jac]
    simp [valueAt, res2, params]
  have lc : linAt curve (![0, 1] : Fin 2 → ℝ) = fun (d : Fin 2 → ℝ) (k : Fin 1) => d 0 + 2 * d 1 :=
    funext fun d => funext fun k => lc' d k
  have q6 : ∀ d : Fin 2 → ℝ, (∑ i, ∑ j, d i * b.qp.G (max i j) (min i j) * d j) = (1 + l) * (d 0 ^ 2 + d 1 ^ 2) := by
    intro d
    rw [f6 d]
    have e : (mixedEnv.p.costs.map fun r => ∑ k, slopeAt r (![0, 1] : Fin 2 → ℝ) d k ^ 2).sum
        = (∑ k : Fin 1, slopeAt cost1 (![0, 1] : Fin 2 → ℝ) d k ^ 2)
          + ((∑ k : Fin 1, slopeAt cost3 (![0, 1] : Fin 2 → ℝ) d k ^ 2) + 0) := rfl
    rw [e, Fin.sum_univ_one, Fin.sum_univ_one, cost1_slope, cost3_slope, Fin.sum_univ_two]
    ring
  have q2 : ∀ d : Fin 2 → ℝ, (∑ i, b.qp.c i * d i) = -3 * d 0 := by
    intro d
    rw [f2 d]
    have e : (mixedEnv.p.costs.map fun r => ∑ k, valueAt r (![0, 1] : Fin 2 → ℝ) k * slopeAt r (![0, 1] : Fin 2 → ℝ) d k).sum
        = (∑ k : Fin 1, valueAt cost1 (![0, 1] : Fin 2 → ℝ) k * slopeAt cost1 (![0, 1] : Fin 2 → ℝ) d k)
          + ((∑ k : Fin 1, valueAt cost3 (![0, 1] : Fin 2 → ℝ) k * slopeAt cost3 (![0, 1] : Fin 2 → ℝ) d k) + 0) := rfl
    rw [e, Fin.sum_univ_one, Fin.sum_univ_one, cost1_slope, cost3_slope]
    simp [valueAt, cost1, cost3, res2, params]
  have q3 : ∀ (d : Fin 2 → ℝ) k, (∑ j, b.qp.A k j * d j) + b.qp.b k = d 0 + 2 * d 1 := by
    intro d k
    have h3 : (List.ofFn fun k => (∑ j, b.qp.A k j * d j) + b.qp.b k)
        = List.ofFn (linAt curve (![0, 1] : Fin 2 → ℝ) d) ++ [] := f3 d
    rw [lc, List.append_nil] at h3
    have hm : (∑ j, b.qp.A k j * d j) + b.qp.b k ∈ (List.ofFn fun k => (∑ j, b.qp.A k j * d j) + b.qp.b k) :=
      List.mem_ofFn.mpr ⟨k, rfl⟩
    rw [h3] at hm
    obtain ⟨i, hi⟩ := List.mem_ofFn.mp hm
    exact hi.symm
  have hK : mixedEnv.p.K = 1 := rfl
  have hb0 : ∀ k, b.qp.b k = 0 := fun k => by simpa using q3 (fun _ => 0) k
  have hA0 : ∀ k, b.qp.A k 0 = 1 := fun k => by simpa [Fin.sum_univ_two, hb0 k] using q3 ![1, 0] k
  have hA1 : ∀ k, b.qp.A k 1 = 2 := fun k => by simpa [Fin.sum_univ_two, hb0 k] using q3 ![0, 1] k
  have hc0 : b.qp.c 0 = -3 := by simpa [Fin.sum_univ_two] using q2 ![1, 0]
  have hc1 : b.qp.c 1 = 0 := by simpa [Fin.sum_univ_two] using q2 ![0, 1]
  have m01 : max (0 : Fin 2) 1 = 1 := rfl
  have m10 : max (1 : Fin 2) 0 = 1 := rfl
  have n01 : min (0 : Fin 2) 1 = 0 := rfl
  have n10 : min (1 : Fin 2) 0 = 0 := rfl
  have g00 : b.qp.G 0 0 = 1 + l := by simpa [Fin.sum_univ_two] using q6 ![1, 0]
  have g11 : b.qp.G 1 1 = 1 + l := by simpa [Fin.sum_univ_two] using q6 ![0, 1]
  have g10 : b.qp.G 1 0 = 0 := by
    have := q6 ![1, 1]
    simp only [Fin.sum_univ_two, m01, m10, n01, n10, max_self, min_self, g00, g11] at this
    simp at this
    linarith
  have hl1 : 0 < 1 + l := by linarith
  refine ⟨?_, ?_, ![12 / (5 * (1 + l)), -6 / (5 * (1 + l))], fun _ => -3 / 5, ⟨?_, ?_⟩, ?_⟩
  · intro d hd _
    refine lt_of_lt_of_eq ?_ (q6 d).symm
    refine mul_pos hl1 ?_
    by_contra hn
    apply hd
    have z0 : d 0 = 0 := by nlinarith [sq_nonneg (d 0), sq_nonneg (d 1)]
    have z1 : d 1 = 0 := by nlinarith [sq_nonneg (d 0), sq_nonneg (d 1)]
    funext i
    fin_cases i
    · exact z0
    · exact z1
  · intro y hy
    have h0 : ∑ k : Fin 1, b.qp.A k 0 * y k = 0 := hy 0
    rw [Fin.sum_univ_one] at h0
    have h0' : (1 : ℝ) * y (0 : Fin 1) = 0 := by rw [← hA0 (0 : Fin 1)]; exact h0
    funext k
    rw [show k = (0 : Fin 1) from Subsingleton.elim (α := Fin 1) k 0]
    exact (one_mul (y (0 : Fin 1))).symm.trans h0'
  · intro i
    show (∑ j, b.qp.G (max i j) (min i j) * _) + b.qp.c i - ∑ k : Fin 1, b.qp.A k i * (-3 / 5 : ℝ) = 0
    rw [Fin.sum_univ_one, Fin.sum_univ_two]
    fin_cases i
    · show b.qp.G 0 0 * (12 / (5 * (1 + l))) + b.qp.G 1 0 * (-6 / (5 * (1 + l))) + b.qp.c 0 - b.qp.A (0 : Fin 1) 0 * (-3 / 5) = 0
      rw [g00, g10, hc0, hA0 (0 : Fin 1)]
      field_simp
      ring
    · show b.qp.G 1 0 * (12 / (5 * (1 + l))) + b.qp.G 1 1 * (-6 / (5 * (1 + l))) + b.qp.c 1 - b.qp.A (0 : Fin 1) 1 * (-3 / 5) = 0
      rw [g11, g10, hc1, hA1 (0 : Fin 1)]
      field_simp
      ring
  · intro k
    have := q3 ![12 / (5 * (1 + l)), -6 / (5 * (1 + l))] k
    refine Eq.trans this ?_
    show 12 / (5 * (1 + l)) + 2 * (-6 / (5 * (1 + l))) = 0
    field_simp
    ring
  · intro m
    have hcm : b.qp.con m = ⟨1, -1, boundAt ⟨1, -1, 4⟩ (![0, 1] : Fin 2 → ℝ)⟩ := by
      rw [f5 m, show m = (0 : Fin 1) from Subsingleton.elim (α := Fin 1) m 0]
      rfl
    have hbd : boundAt (⟨1, -1, 4⟩ : Ineq ℝ) (![0, 1] : Fin 2 → ℝ) = 3 := by
      norm_num [boundAt]
    have hv : ineqVal (b.qp.typed hcon) ![12 / (5 * (1 + l)), -6 / (5 * (1 + l))] m = -1 * (-6 / (5 * (1 + l))) + 3 := by
      unfold ineqVal
      have hva : ((b.qp.typed hcon).con m).var = 1 := by
        apply Fin.ext
        show (b.qp.con m).var.toNat = 1
        rw [hcm]
        rfl
      have ha' : ((b.qp.typed hcon).con m).a = -1 := by
        show (b.qp.con m).a = -1
        rw [hcm]
      have hb' : ((b.qp.typed hcon).con m).b = 3 := by
        show (b.qp.con m).b = 3
        rw [hcm]; exact hbd
      rw [hva, ha', hb']
      rfl
    rw [hv]
    have : 0 < 6 / (5 * (1 + l)) := by positivity
    rw [neg_div]
    linarith

end MiniOpt.Props
