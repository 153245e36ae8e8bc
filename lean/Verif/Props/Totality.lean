import Verif.Lemmas.Derivative
import Verif.Props.QPSetup
import Verif.Props.NullSpace
import Verif.Lemmas.Demo
import Verif.Lemmas.NLSSim

/-!
# C64, C65: which exceptions the solvers can throw (exact arithmetic)

More concrete cases: `Props/MoreExamples.lean`.
-/

set_option autoImplicit false

namespace MiniOpt.Props

open MiniOpt.Spec MiniOpt.NLS

/-- **C64**. With valid parameters, nonzero constraint slopes and a built-in initial guess (or a user guess with
positive slacks and multipliers) the interior point `Solve` either returns, or throws `FailedFactorization` after the
factorisation routine has reported failure for some matrix. No assertion fires and nothing undefined happens. -/
theorem C64_qp_exceptions {N M K : Nat} (E : Eigen N K ℝ) (p : QP N M K ℝ) (ha : ∀ m, (p.con m).a ≠ 0)
    (prm : QPParams ℝ) (hprm : MiniOpt.checkParams prm = .ok ()) (st : IPState N M K ℝ)
    (hg : prm.initialGuessMethod ≠ .userProvided ∨ ((∀ m, 0 < st.v.s m) ∧ ∀ m, 0 < st.v.z m)) :
    (∃ r, IP.solve E p prm st = .ok r) ∨
      ∃ st', IP.solve E p prm st = .error (.failedFactorization, st') ∧ ∃ H, E.ldltInverse H = none := by
  unfold IP.solve
  rw [hprm]
  dsimp only
  cases h0 : IP.initialGuess E p prm.initialGuessMethod st with
  | error e =>
    rcases IP.initialGuess_error h0 with ⟨_, m, hm⟩ | ⟨h1, h2⟩
    · exact absurd hm (ha m)
    · obtain ⟨e1, e2⟩ := e
      dsimp only at h1
      subst h1
      exact Or.inr ⟨e2, rfl, h2⟩
  | ok st0 =>
    dsimp only
    have hpos : (∀ m, 0 < st0.v.s m) ∧ ∀ m, 0 < st0.v.z m := by
      by_cases hu : prm.initialGuessMethod = .userProvided
      · rw [hu] at h0; cases h0
        rcases hg with hg | hg
        · exact absurd hu hg
        · exact hg
      · exact IP.initialGuess_pos hu h0
    have := IP.solveLoop_rule E p prm (fun _ st _ _ => (∀ m, 0 < st.v.s m) ∧ ∀ m, 0 < st.v.z m)
      (fun _ => True) (fun e => e.1 = .failedFactorization ∧ ∃ H, E.ldltInverse H = none)
      (by
        rintro n st mu log st2 it hI ⟨⟨st1, h1, rfl⟩, _, _⟩ _
        rw [IP.evaluateKKT_v]
        exact IP.iterate_pos h1 hI.2)
      (fun _ _ _ _ _ _ _ _ _ => trivial) (fun _ _ _ _ => trivial)
      (by
        intro n st mu log e hI he
        rcases IP.iterate_error he with ⟨h1, hn⟩ | ⟨m, hm⟩
        · exact ⟨h1, _, hn⟩
        · exact absurd (hI.1 m) hm)
      prm.maxIterations.toNat (IP.evaluateKKT p true st0) (IP.initialMu prm (IP.evaluateKKT p true st0)) []
      (by rw [IP.evaluateKKT_v]; exact hpos)
    cases hr : IP.solveLoop E p prm prm.maxIterations.toNat (IP.evaluateKKT p true st0)
        (IP.initialMu prm (IP.evaluateKKT p true st0)) [] with
    | error e =>
      rw [hr] at this
      obtain ⟨e1, e2⟩ := e
      obtain ⟨h1, h2⟩ := this
      dsimp only at h1
      subst h1
      exact Or.inr ⟨e2, rfl, h2⟩
    | ok r => exact Or.inl ⟨r, rfl⟩

/-- Both outcomes of C64 occur on the demo problem. -/
example : (∃ r, IP.solve exactEigen demoQP QPParams.default (IP.setupState demoJunk) = .ok r) ∧
    ∃ e, IP.solve (⟨fun _ => none⟩ : Eigen 2 1 ℝ) demoQP QPParams.default (IP.setupState demoJunk)
      = .error (.failedFactorization, e) := by
  constructor
  · exact demo_returns _ default_valid (by simp [QPParams.default])
  · rcases C64_qp_exceptions (⟨fun _ => none⟩ : Eigen 2 1 ℝ) demoQP demo_slope QPParams.default default_valid
      (IP.setupState demoJunk) (Or.inl (by simp [QPParams.default])) with ⟨r, hr⟩ | ⟨e, he, _⟩
    · exfalso
      obtain ⟨_, st0, _, hl⟩ := IP.solve_ok hr
      have hn : (QPParams.default : QPParams ℝ).maxIterations.toNat = 9 + 1 := by simp [QPParams.default]
      rw [hn] at hl
      unfold IP.solveLoop IP.iterate IP.computeLDLT at hl
      dsimp only at hl
      split_ifs at hl
    · exact ⟨e, he⟩

variable {n D : Nat}

/-- Step sizes so far, as the line search keeps them. -/
structure LsInv (iter : Nat) (alpha : ℝ) (steps : List (LineSearchStep ℝ)) : Prop where
  len : steps.length = iter
  pos : 0 < alpha
  last : ∀ s, steps.getLast? = some s → s.alpha = alpha
  dec : ∀ s t r, steps.reverse = s :: t :: r → s.alpha < t.alpha

theorem nextAlpha_total {strategy : LineSearchStrategy} {tau : ℝ} (ht : 0 < tau ∧ tau < 1) {iter : Nat} {alpha : ℝ}
    {steps : List (LineSearchStep ℝ)} (hI : LsInv iter alpha steps) (pre : Errors ℝ) (d : DirectionalDerivatives ℝ)
    (pen : ℝ) :
    nextAlpha strategy tau iter pre d pen alpha steps = .ok none ∨
    ∃ a, nextAlpha strategy tau iter pre d pen alpha steps = .ok (some a) ∧
      ∀ es, LsInv (iter + 1) a (steps ++ [⟨a, es⟩]) := by
  have ext : ∀ a, 0 < a → (0 < iter → a < alpha) → ∀ es, LsInv (iter + 1) a (steps ++ [⟨a, es⟩]) := by
    intro a ha hlt es
    refine ⟨by simp [hI.len], ha, by simp, ?_⟩
    intro s t r hr
    rw [List.reverse_append] at hr
    simp only [List.reverse_cons, List.reverse_nil, List.nil_append, List.singleton_append, List.cons.injEq] at hr
    obtain ⟨rfl, hr⟩ := hr
    have h0 : 0 < iter := by
      rw [← hI.len]
      rcases Nat.eq_zero_or_pos steps.length with h0 | h0
      · rw [List.length_eq_zero_iff] at h0; subst h0; simp at hr
      · exact h0
    have hl : steps.getLast? = some t := by
      rw [List.getLast?_eq_head?_reverse, hr]; rfl
    rw [hI.last t hl]
    exact hlt h0
  unfold nextAlpha
  cases strategy with
  | armijoBacktrack =>
    right
    dsimp only
    by_cases h0 : 0 < iter
    · rw [if_pos h0]
      exact ⟨_, rfl, ext _ (mul_pos hI.pos ht.1) fun _ => by nlinarith [hI.pos]⟩
    · rw [if_neg h0]
      exact ⟨_, rfl, ext _ hI.pos fun h => absurd h h0⟩
  | polynomialApproximation =>
    dsimp only
    by_cases h0 : 0 < iter
    · rw [if_pos h0]
      have hpoly : ∃ oa, polyAlpha iter pre d pen steps = .ok oa := by
        unfold polyAlpha
        rw [if_neg (by omega)]
        by_cases h1 : iter = 1
        · rw [if_pos h1]
          have hl := hI.len
          rw [h1, List.length_eq_one_iff] at hl
          obtain ⟨s, rfl⟩ := hl
          exact ⟨_, rfl⟩
        · rw [if_neg h1]
          have hl := hI.len
          cases hr : steps.reverse with
          | nil => rw [List.reverse_eq_nil_iff] at hr; subst hr; simp at hl; omega
          | cons s r =>
            cases r with
            | nil =>
              have := congrArg List.length hr
              simp at this; omega
            | cons t r =>
              dsimp only
              have hs : s.alpha = alpha := hI.last s (by rw [List.getLast?_eq_head?_reverse, hr]; rfl)
              have hlt := hI.dec s t r hr
              unfold cubicApproxCoeffs
              rw [if_neg (by rw [hs]; exact not_not.mpr hI.pos), if_neg (not_not.mpr hlt)]
              exact ⟨_, rfl⟩
      obtain ⟨oa, hoa⟩ := hpoly
      rw [hoa]
      cases oa with
      | none => exact Or.inl rfl
      | some a =>
        dsimp only
        by_cases hc : ¬ Scalar.isFinite a ∨ a ≤ 0 ∨ alpha ≤ a
        · rw [if_pos hc]; exact Or.inl rfl
        · rw [if_neg hc]
          push Not at hc
          exact Or.inr ⟨a, rfl, ext a hc.2.1 fun _ => hc.2.2⟩
    · rw [if_neg h0]
      exact Or.inr ⟨_, rfl, ext _ hI.pos fun h => absurd h h0⟩

variable {α : Type} [Scalar α]

/-- The retraction can be applied: custom, or the sizes agree. -/
def CanRetract (env : Env n D α) : Prop := n = D ∨ env.retraction ≠ none

/-- Some callable of the user throws for some arguments: a residual, the retraction or the callback. -/
def UserThrows (env : Env n D α) : Prop :=
  (∃ r ∈ env.p.costs ++ env.p.eqs, ∃ q, r.throws q = true ∨ r.throwsJ q = true) ∨
  (env.retraction ≠ none ∧ ∃ x dx a, env.retractionThrows x dx a = true) ∨
  (env.callback ≠ none ∧ ∃ l, env.callbackThrows l = true)

theorem retract_total {env : Env n D α} (h : CanRetract env) (x : Fin n → α) (dx : Fin D → α) (a : α) :
    (∃ y, retract env x dx a = .ok y) ∨ (retract env x dx a = .error .user ∧ UserThrows env) := by
  unfold retract
  cases hr : env.retraction with
  | some R =>
    cases ht : env.retractionThrows x dx a with
    | true => exact .inr ⟨by simp, .inr (.inl ⟨by simp [hr], x, dx, a, ht⟩)⟩
    | false => exact .inl ⟨_, by simp; rfl⟩
  | none =>
    rcases h with rfl | h
    · exact .inl ⟨_, by simp; rfl⟩
    · exact absurd hr h

theorem errorVector_total {r : Residual α} {x : Fin n → α} (hi : IdxIn r n) :
    (∃ v, r.errorVector x r.dim = .ok v) ∨ (r.errorVector x r.dim = .error .user ∧ ∃ q, r.throws q = true) := by
  cases ht : r.throws (params r x) with
  | false => exact .inl ⟨_, (errorVector_ok_iff r x _).mpr ⟨⟨hi, ht⟩, rfl⟩⟩
  | true =>
    refine .inr ⟨?_, _, ht⟩
    unfold Residual.errorVector
    rw [if_neg (by simp), gather_ok r x hi, params_eq]
    simp only [ht, if_true]

theorem evalCosts_total {x : Fin n → α} : ∀ (l : List (Residual α)) (f : α), (∀ r ∈ l, IdxIn r n) →
    (∃ f', evalCosts x l f = .ok f') ∨ (evalCosts x l f = .error .user ∧ ∃ r ∈ l, ∃ q, r.throws q = true) := by
  intro l
  induction l with
  | nil => intro f _; exact .inl ⟨_, rfl⟩
  | cons r l ih =>
    intro f h
    simp only [evalCosts]
    rcases errorVector_total (x := x) (h r (by simp)) with ⟨v, hv⟩ | ⟨hv, q, hq⟩
    · rw [hv]
      rcases ih (f + Residual.half * squaredNorm v) (fun r hr => h r (by simp [hr])) with h' | ⟨h', r', hr', hq⟩
      · exact .inl h'
      · exact .inr ⟨h', r', by simp [hr'], hq⟩
    · rw [hv]
      exact .inr ⟨rfl, r, by simp, q, hq⟩

theorem evalEqs_total {x : Fin n → α} : ∀ (l : List (Residual α)) (f : α), (∀ r ∈ l, IdxIn r n) →
    (∃ f', evalEqs x l f = .ok f') ∨ (evalEqs x l f = .error .user ∧ ∃ r ∈ l, ∃ q, r.throws q = true) := by
  intro l
  induction l with
  | nil => intro f _; exact .inl ⟨_, rfl⟩
  | cons r l ih =>
    intro f h
    simp only [evalEqs]
    rcases errorVector_total (x := x) (h r (by simp)) with ⟨v, hv⟩ | ⟨hv, q, hq⟩
    · rw [hv]
      rcases ih (f + lpNorm1 v) (fun r hr => h r (by simp [hr])) with h' | ⟨h', r', hr', hq⟩
      · exact .inl h'
      · exact .inr ⟨h', r', by simp [hr'], hq⟩
    · rw [hv]
      exact .inr ⟨rfl, r, by simp, q, hq⟩

theorem evalErrors_total {env : Env n D α} (hi : IndicesOk env.p n) (x : Fin n → α) :
    (∃ e, evalErrors env.p x = .ok e) ∨ (evalErrors env.p x = .error .user ∧ UserThrows env) := by
  unfold evalErrors
  rcases evalCosts_total (x := x) env.p.costs 0 (fun r hr => hi r (by simp [hr])) with ⟨f, hf⟩ | ⟨hf, r, hr, q, hq⟩
  · rw [hf]
    simp only
    rcases evalEqs_total (x := x) env.p.eqs 0 (fun r hr => hi r (by simp [hr])) with ⟨g, hg⟩ | ⟨hg, r, hr, q, hq⟩
    · rw [hg]; exact .inl ⟨_, rfl⟩
    · rw [hg]; exact .inr ⟨rfl, .inl ⟨r, by simp [hr], q, .inl hq⟩⟩
  · rw [hf]; exact .inr ⟨rfl, .inl ⟨r, by simp [hr], q, .inl hq⟩⟩

theorem linCosts_total {x : Fin n → α} : ∀ (l : List (Residual α)) (G : Fin D → Fin D → α) (c : Fin D → α) (f : α),
    (∀ r ∈ l, IdxIn r n ∧ IdxIn r D) →
    (∃ q, linCosts x l G c f = .ok q) ∨ ((∃ a, linCosts x l G c f = .error (.user, a)) ∧ ∃ r ∈ l, ∃ q, r.throwsJ q = true) := by
  intro l
  induction l with
  | nil => intro G c f _; exact .inl ⟨_, rfl⟩
  | cons r l ih =>
    intro G c f h
    simp only [linCosts]
    cases ht : r.throwsJ (params r x) with
    | false =>
      have he := updateHessian_ok r x (h r (by simp)).1 (h r (by simp)).2 (by rw [params_eq]; exact ht) G c
      rw [he]
      rcases ih _ _ _ (fun r hr => h r (by simp [hr])) with
        h' | ⟨h', r', hr', hq⟩
      · exact .inl h'
      · exact .inr ⟨h', r', by simp [hr'], hq⟩
    | true =>
      have he : r.updateHessian x G c = .error (.user, G, c) := by
        unfold Residual.updateHessian
        rw [gather_ok r x (h r (by simp)).1, params_eq]
        simp only [ht, if_true]
      rw [he]
      exact .inr ⟨⟨_, rfl⟩, r, by simp, _, ht⟩

theorem linEqs_total {K : Nat} {x : Fin n → α} : ∀ (l : List (Residual α)) (row : Nat) (A : Fin K → Fin D → α)
    (b : Fin K → α) (f : α), row + (l.map (·.dim)).sum = K → (∀ r ∈ l, IdxIn r n ∧ IdxIn r D) →
    (∃ q, linEqs x l row A b f = .ok q) ∨
      ((∃ a, linEqs x l row A b f = .error (.user, a)) ∧ ∃ r ∈ l, ∃ q, r.throwsJ q = true) := by
  intro l
  induction l with
  | nil => intro row A b f _ _; exact .inl ⟨_, rfl⟩
  | cons r l ih =>
    intro row A b f hrow h
    simp only [List.map_cons, List.sum_cons] at hrow
    simp only [linEqs]
    rw [dif_pos (by omega)]
    cases ht : r.throwsJ (params r x) with
    | false =>
      obtain ⟨A', b', he⟩ : ∃ A' b', r.updateJacobian x r.dim r.dim (getRows A row (by omega)) (getRows b row (by omega))
          = .ok (A', b') :=
        ⟨_, _, updateJacobian_ok r x (h r (by simp)).1 (h r (by simp)).2 (by rw [params_eq]; exact ht) _ _⟩
      rw [he]
      rcases ih (row + r.dim) (setRows A row A') (setRows b row b') (f + lpNorm1 b') (by omega)
          (fun r hr => h r (by simp [hr])) with h' | ⟨h', r', hr', hq⟩
      · exact .inl h'
      · exact .inr ⟨h', r', by simp [hr'], hq⟩
    | true =>
      have he : ∀ A0 b0, r.updateJacobian (D := D) x r.dim r.dim A0 b0 = .error (.user, A0, b0) := by
        intro A0 b0
        unfold Residual.updateJacobian
        rw [if_neg (by simp), if_neg (by simp), gather_ok r x (h r (by simp)).1, params_eq]
        simp only [ht, if_true]
      rw [he]
      exact .inr ⟨⟨_, rfl⟩, r, by simp, _, ht⟩

theorem shiftLoop_total (x : Fin n → α) : ∀ l : List (Ineq α), (∀ c ∈ l, 0 ≤ c.var ∧ c.var < (n : Int)) →
    ∃ con, shiftLoop x l = .ok con := by
  intro l
  induction l with
  | nil => intro _; exact ⟨_, rfl⟩
  | cons c l ih =>
    intro h
    obtain ⟨con, hc⟩ := ih fun c hc => h c (by simp [hc])
    have hs : ∃ c', shiftAt x c = .ok c' := by
      obtain ⟨h1, h2⟩ := h c (by simp)
      unfold shiftAt
      rw [if_neg (not_not.mpr h2), toFin_some ⟨h1, h2⟩]
      exact ⟨_, rfl⟩
    obtain ⟨c', hc'⟩ := hs
    simp only [shiftLoop, hc', hc]
    exact ⟨_, rfl⟩

theorem linearize_total {env : Env n D α} (hi : IndicesOk env.p n) (hD : IndicesOk env.p D)
    (hc : ∀ c ∈ env.p.ineq, 0 ≤ c.var ∧ c.var < (n : Int)) (x : Fin n → α) (lam : α)
    (qp : QPData D env.p.M env.p.K α) : (∃ q pre, linearize env.p x lam qp = .ok (q, pre)) ∨
      ((∃ a, linearize env.p x lam qp = .error (.user, a)) ∧ UserThrows env) := by
  unfold linearize
  rcases linCosts_total (x := x) env.p.costs (fun _ (_ : Fin D) => (0 : α)) (fun _ => 0) 0
    (fun r hr => ⟨hi r (by simp [hr]), hD r (by simp [hr])⟩) with ⟨⟨G, c, f⟩, h1⟩ | ⟨⟨a, h1⟩, r, hr, q, hq⟩
  · rw [h1]
    simp only
    rcases linEqs_total (x := x) env.p.eqs 0 (fun (_ : Fin env.p.K) (_ : Fin D) => (0 : α)) (fun _ => 0) 0
      (by simp [Problem.K]) (fun r hr => ⟨hi r (by simp [hr]), hD r (by simp [hr])⟩) with
      ⟨⟨A, b, e⟩, h2⟩ | ⟨⟨a, h2⟩, r, hr, q, hq⟩
    · rw [h2]
      simp only
      obtain ⟨con, hshift⟩ := shiftLoop_total x env.p.ineq hc
      rw [hshift]
      exact .inl ⟨_, _, rfl⟩
    · rw [h2]
      exact .inr ⟨⟨_, rfl⟩, .inl ⟨r, by simp [hr], q, .inr hq⟩⟩
  · rw [h1]
    exact .inr ⟨⟨_, rfl⟩, .inl ⟨r, by simp [hr], q, .inr hq⟩⟩

theorem lsLoop_total {env : Env n D ℝ} (hr : CanRetract env) (hi : IndicesOk env.p n) {prm : NLSParams ℝ}
    (ht : 0 < prm.armijoSearchTau ∧ prm.armijoSearchTau < 1) (x : Fin n → ℝ) (dx : Fin D → ℝ) (pre : Errors ℝ)
    (d : DirectionalDerivatives ℝ) (pen : ℝ) :
    ∀ (fuel iter : Nat) (alpha : ℝ) (steps : List (LineSearchStep ℝ)) (cand : Fin n → ℝ), LsInv iter alpha steps →
      (∃ r, lsLoop env prm x dx pre d pen fuel iter alpha steps cand = .ok r) ∨
        ((∃ a, lsLoop env prm x dx pre d pen fuel iter alpha steps cand = .error (.user, a)) ∧ UserThrows env) := by
  intro fuel
  induction fuel with
  | zero => intros; exact .inl ⟨_, rfl⟩
  | succ f ih =>
    intro iter alpha steps cand hI
    unfold lsLoop
    rcases nextAlpha_total (strategy := prm.lineSearchStrategy) ht hI pre d pen with h | ⟨a, h, hI'⟩
    · rw [h]; exact .inl ⟨_, rfl⟩
    · rw [h]
      dsimp only
      rcases retract_total hr x dx a with ⟨y, hy⟩ | ⟨hy, hu⟩
      swap
      · rw [hy]; exact .inr ⟨⟨_, rfl⟩, hu⟩
      rw [hy]
      dsimp only
      rcases evalErrors_total hi y with ⟨e, he⟩ | ⟨he, hu⟩
      swap
      · rw [he]; exact .inr ⟨⟨_, rfl⟩, hu⟩
      rw [he]
      dsimp only
      split_ifs
      · exact .inl ⟨_, rfl⟩
      · exact .inl ⟨_, rfl⟩
      · exact .inl ⟨_, rfl⟩
      · exact .inl ⟨_, rfl⟩
      · exact ih _ _ _ _ (hI' _)

/-- Linearisation keeps the constraint's index and slope. -/
theorem linearize_con' {p : Problem D ℝ} (hp : WellPosed p n) {x : Fin n → ℝ} {lam : ℝ} {qp0 qp : QPData D p.M p.K ℝ}
    {pre : Errors ℝ} (h : linearize p x lam qp0 = .ok (qp, pre)) (i : Fin p.M) :
    qp.con i = ⟨(p.ineq.get i).var, (p.ineq.get i).a, boundAt (p.ineq.get i) x⟩ := by
  obtain ⟨qp', pre', h', -, -, -, -, hc, -⟩ := C34_gauss_newton p hp x (linearize_quiet h) lam qp0
  rw [h] at h'
  cases h'
  exact hc i

theorem qpParams_valid (p : Problem D ℝ) {prm : NLSParams ℝ} (h : NLSParamsValid prm) :
    MiniOpt.checkParams (qpParams p prm) = .ok () := by
  rw [IP.checkParams_ok_iff]
  have h1 := h.maxQPIterations
  refine ⟨?_, ?_, ?_, h.terminationKktTol, ?_⟩
  · simp [qpParams]
  · simp [qpParams]
  · simp only [qpParams, real_lit]; norm_num
  · simp only [qpParams]; omega

/-- The null-space solver is used: equality but no inequality constraints. -/
def UsesNullSpace (p : Problem D α) : Prop := p.ineq = [] ∧ p.eqs ≠ []

/-- What is thrown, and what is then wrong, when `Solve` does not return. -/
def Thrown (env : Env n D ℝ) (e : Fault × env.Obj) : Prop :=
  (¬ UsesNullSpace env.p ∧ e.1 = .failedFactorization ∧ ∃ H, env.E.ldltInverse H = none) ∨
  (UsesNullSpace env.p ∧ env.p.K = 0 ∧ ∃ tag, e.1 = .assertion tag) ∨
  (UsesNullSpace env.p ∧ 0 < env.p.K ∧ (∃ tag, e.1 = .ub tag) ∧
    (∀ dx : Fin D → ℝ, (List.ofFn fun k => (∑ j, e.2.qp.A k j * dx j) + e.2.qp.b k) = stackedModel e.2.vars dx env.p.eqs) ∧
    (QRContract env.NE → ¬ RowsIndependent e.2.qp.A)) ∨
  (e.1 = .user ∧ UserThrows env)

/-- Invariant of the outer loop. -/
structure Good (env : Env n D ℝ) (s : Loop env) : Prop where
  pen : 0 < s.penalty
  kind : (UsesNullSpace env.p ∧ ∃ st, s.obj.solver = .ns st) ∨ (¬ UsesNullSpace env.p ∧ ∃ st, s.obj.solver = .ip st)

theorem stepDirection_total {env : Env n D ℝ} (hp : WellPosed env.p n) (ha : ∀ c ∈ env.p.ineq, c.a ≠ 0)
    {prm : NLSParams ℝ} (hprm : NLSParamsValid prm) {x : Fin n → ℝ} {lam : ℝ} {o : env.Obj}
    {qp : QPData D env.p.M env.p.K ℝ} {pre : Errors ℝ} (hl : linearize env.p x lam o.qp = .ok (qp, pre)) (hx : o.vars = x)
    (hk : (UsesNullSpace env.p ∧ ∃ st, o.solver = .ns st) ∨ (¬ UsesNullSpace env.p ∧ ∃ st, o.solver = .ip st)) :
    (∃ o1 out, stepDirection env prm { o with qp := qp } = .ok (o1, out) ∧
      ((UsesNullSpace env.p ∧ ∃ st, o1.solver = .ns st) ∨ (¬ UsesNullSpace env.p ∧ ∃ st, o1.solver = .ip st))) ∨
    ∃ e, stepDirection env prm { o with qp := qp } = .error e ∧ Thrown env e := by
  have hcon := linearize_con' hp hl
  obtain ⟨-, -, hA, -⟩ := linearize_facts hp hl
  rcases hk with ⟨hu, st, hs⟩ | ⟨hu, st, hs⟩
  · -- null space
    unfold stepDirection
    simp only [hs]
    cases hn : NS.solve env.NE (⟨qp.G, qp.c, qp.A, qp.b, Fin.elim0⟩ : QP D 0 env.p.K ℝ) st with
    | ok r =>
      obtain ⟨st', t⟩ := r
      cases t with
      | success => exact Or.inl ⟨_, _, rfl, Or.inl ⟨hu, st', rfl⟩⟩
      | notPositiveDefinite => exact Or.inl ⟨_, _, rfl, Or.inl ⟨hu, st', rfl⟩⟩
    | error e =>
      obtain ⟨e1, e2⟩ := e
      refine Or.inr ⟨_, rfl, Or.inr ?_⟩
      by_cases hK : 0 < env.p.K
      · right; left
        refine ⟨hu, hK, ?_, ?_, ?_⟩
        · unfold NS.solve at hn
          rw [if_neg (not_not.mpr hK)] at hn
          dsimp only at hn
          split_ifs at hn
          · cases hn; exact ⟨_, rfl⟩
          · split at hn <;> cases hn
          · cases hn; exact ⟨_, rfl⟩
        · dsimp only
          rw [hx]; exact hA
        · intro hQ hind
          obtain ⟨-, r, hr⟩ := (C27_needs_independent_rows env.NE hQ
            (⟨qp.G, qp.c, qp.A, qp.b, Fin.elim0⟩ : QP D 0 env.p.K ℝ) st).2.2.1 hK hind
          rw [hn] at hr; cases hr
      · left
        refine ⟨hu, by omega, ?_⟩
        unfold NS.solve at hn
        rw [if_pos hK] at hn
        cases hn
        exact ⟨_, rfl⟩
  · unfold stepDirection
    simp only [hs]
    have hix : ∀ i, 0 ≤ (qp.con i).var ∧ (qp.con i).var < (D : Int) := by
      intro i
      rw [hcon i]
      exact ⟨(hp.ineq _ (List.get_mem _ _)).1, (hp.ineq _ (List.get_mem _ _)).2.2⟩
    have hci : checkIndices D (List.ofFn qp.con) = .ok () := by
      rcases checkIndices_ok D (List.ofFn qp.con) with h | ⟨-, h⟩
      · exact h.1
      · exfalso
        apply h
        intro c hc
        obtain ⟨i, rfl⟩ := (List.mem_ofFn' _ _).mp hc
        exact (hix i).2
    rw [hci]
    dsimp only
    rw [dif_pos hix]
    have hguess : (qpParams env.p prm).initialGuessMethod ≠ .userProvided := by
      unfold qpParams
      dsimp only
      split_ifs <;> simp
    rcases C64_qp_exceptions env.E (qp.typed hix) (fun m => by
        show (qp.con m).a ≠ 0
        rw [hcon m]; exact ha (env.p.ineq.get m) (List.get_mem _ _)) (qpParams env.p prm) (qpParams_valid env.p hprm)
        (IP.setupState st) (Or.inl hguess) with ⟨r, hr⟩ | ⟨st', hr, hH⟩
    · obtain ⟨st', out⟩ := r
      rw [hr]
      exact Or.inl ⟨_, _, rfl, Or.inr ⟨hu, st', rfl⟩⟩
    · rw [hr]
      exact Or.inr ⟨_, rfl, Or.inl ⟨hu, rfl, hH⟩⟩

theorem raisePenalty_pos (p : Problem D ℝ) {prm : NLSParams ℝ} (hprm : NLSParamsValid prm) (q : QPData D p.M p.K ℝ)
    (dx : Fin D → ℝ) (out : QPResult ℝ) {pen : ℝ} (h : 0 < pen) : 0 < raisePenalty p prm q dx out pen := by
  unfold raisePenalty
  dsimp only
  split_ifs with h1 h2
  · exact mul_pos (lt_trans h h2) (lt_of_lt_of_le one_pos hprm.equalityPenaltyScaleFactor)
  · exact h
  · exact h

theorem updateLambda_total {env : Env n D ℝ} (prm : NLSParams ℝ) (res : StepResult) (pre : Errors ℝ) (pen lam : ℝ)
    (o : env.Obj) (h : res = .success → o.steps ≠ []) :
    ∃ o' l t, updateLambda env prm res pre pen lam o = .ok (o', l, t) ∧ o'.solver = o.solver := by
  cases res
  case success =>
    unfold updateLambda
    dsimp only
    cases hl : o.steps.getLast? with
    | none => exact absurd (List.getLast?_eq_none_iff.mp hl) (h rfl)
    | some f => exact ⟨_, _, _, rfl, rfl⟩
  all_goals exact ⟨_, _, _, rfl, rfl⟩

theorem real_valid (e : Errors ℝ) : ¬ e.containsInvalid := by
  unfold Errors.containsInvalid; simp

theorem ite_total {ε β : Type} {c : Bool} {e0 : ε} {a0 : β} {P : β → Prop} {Q : ε → Prop} (h1 : c = true → Q e0)
    (h2 : P a0) : (∃ a, (if c = true then Except.error e0 else Except.ok a0) = Except.ok a ∧ P a) ∨
      ∃ e, (if c = true then Except.error e0 else Except.ok a0) = Except.error e ∧ Q e := by
  cases c
  · exact .inl ⟨a0, by simp, h2⟩
  · exact .inr ⟨e0, by simp, h1 rfl⟩

/-- A pass returns or throws what the QP solver or the user's code throws. -/
theorem body_total_gen {env : Env n D ℝ} (hp : WellPosed env.p n) (hr : CanRetract env)
    {prm : NLSParams ℝ} (hprm : NLSParamsValid prm) (iter : Nat) {s : Loop env} (hs : Good env s)
    {T : Fault × env.Obj → Prop} (hT : ∀ e, e.1 = .user → UserThrows env → T e)
    (hstep : ∀ qp pre, linearize env.p s.obj.vars s.lambda s.obj.qp = .ok (qp, pre) →
      (∃ o1 out, stepDirection env prm { s.obj with qp := qp } = .ok (o1, out) ∧
        ((UsesNullSpace env.p ∧ ∃ st, o1.solver = .ns st) ∨ (¬ UsesNullSpace env.p ∧ ∃ st, o1.solver = .ip st))) ∨
      ∃ e, stepDirection env prm { s.obj with qp := qp } = .error e ∧ T e) :
    (∃ s' t, body env prm iter s = .ok (s', t) ∧ Good env s') ∨ ∃ e, body env prm iter s = .error e ∧ T e := by
  unfold body
  rcases linearize_total hp.idx hp.idxD (fun c hc => ⟨(hp.ineq c hc).1, (hp.ineq c hc).2.1⟩) s.obj.vars s.lambda s.obj.qp with ⟨qp, pre, hl⟩ | ⟨⟨a, hl⟩, hu⟩
  swap
  · rw [hl]; exact .inr ⟨_, rfl, hT _ rfl hu⟩
  rw [hl]
  dsimp only
  rcases hstep qp pre hl with ⟨o1, out, hd, hk⟩ | ⟨e, hd, he⟩
  · rw [hd]
    dsimp only
    by_cases hw : wasIndefinite out = true
    · rw [if_pos hw]
      exact Or.inl ⟨_, _, rfl, ⟨hs.pen, hk⟩⟩
    · rw [if_neg hw]
      have hpen := raisePenalty_pos env.p hprm o1.qp o1.dx out hs.pen
      rcases lsLoop_total hr hp.idx hprm.armijoSearchTau o1.vars o1.dx pre
        (costDerivative o1.qp o1.dx) (raisePenalty env.p prm o1.qp o1.dx out s.penalty)
        (prm.maxLineSearchIterations + 1).toNat 0 1 [] o1.cand ⟨rfl, one_pos, by simp, by simp⟩ with
        ⟨⟨res, steps, cand⟩, hls⟩ | ⟨⟨a, hls⟩, hu⟩
      swap
      · right
        unfold selectStepSize
        rw [if_neg (not_not.mpr hpen), if_neg (real_valid _), hls]
        exact ⟨_, rfl, hT _ rfl hu⟩
      have hsel : selectStepSize env prm pre (costDerivative o1.qp o1.dx)
          (raisePenalty env.p prm o1.qp o1.dx out s.penalty) o1 = .ok ({ o1 with steps := steps, cand := cand }, res) := by
        unfold selectStepSize
        rw [if_neg (not_not.mpr hpen), if_neg (real_valid _), hls]
      rw [hsel]
      dsimp only
      obtain ⟨-, hout, -⟩ := lsLoop_start _ _ _ _ _ _ _ _ _ _ _ _ hls
      obtain ⟨o3, l, t, hup, hsol⟩ := updateLambda_total (env := env) prm res pre
        (raisePenalty env.p prm o1.qp o1.dx out s.penalty) s.lambda { o1 with steps := steps, cand := cand } (by
          intro hres hnil
          obtain ⟨st, hst, _⟩ := hout.facts.success hres
          have hnil' : steps = [] := hnil
          rw [hnil'] at hst
          cases hst)
      rw [hup]
      dsimp only
      refine Or.imp (fun ⟨a, h⟩ => ⟨a.1, a.2, h⟩) id
        (ite_total (P := fun a : Loop env × Option NLSTermination => Good env a.1) (Q := T) ?_ ?_)
      · intro hcb
        refine hT _ rfl (.inr (.inr ?_))
        unfold callbackFails at hcb
        cases hcn : env.callback with
        | none => simp [hcn] at hcb
        | some f =>
          rw [hcn] at hcb
          exact ⟨by simp, _, hcb⟩
      · refine ⟨hpen, ?_⟩
        dsimp only
        rw [hsol]
        exact hk
  · rw [hd]
    exact Or.inr ⟨e, rfl, he⟩

theorem body_total {env : Env n D ℝ} (hp : WellPosed env.p n) (hr : CanRetract env) (ha : ∀ c ∈ env.p.ineq, c.a ≠ 0)
    {prm : NLSParams ℝ} (hprm : NLSParamsValid prm) (iter : Nat) {s : Loop env} (hs : Good env s) :
    (∃ s' t, body env prm iter s = .ok (s', t) ∧ Good env s') ∨ ∃ e, body env prm iter s = .error e ∧ Thrown env e :=
  body_total_gen hp hr hprm iter hs (fun _ h hu => .inr (.inr (.inr ⟨h, hu⟩))) fun _ _ hl =>
    stepDirection_total (o := s.obj) hp ha hprm hl rfl hs.kind

/-- **C65**. For a well-posed problem (indices in range and distinct, values independent of the Jacobian request),
nonzero bound slopes, documented parameters with a positive initial penalty, and either a custom retraction or a start
vector of the problem's dimension, the nonlinear `Solve` returns, or
* throws `FailedFactorization` (interior point path) after the factorisation routine reported failure, or
* (null-space path) throws an assertion because all equality constraints are empty, or
* (null-space path) runs into the undefined block product because the equality Jacobian at the current variables has
  dependent rows, or
* passes on an exception thrown by a residual, the retraction or the callback.
No other exception or undefined behaviour is possible. -/
theorem C65_nls_exceptions (env : Env n D ℝ) (hp : WellPosed env.p n) (hr : n = D ∨ env.retraction ≠ none)
    (ha : ∀ c ∈ env.p.ineq, c.a ≠ 0) (prm : NLSParams ℝ) (hprm : NLSParamsValid prm)
    (hpen : 0 < prm.equalityPenaltyInitial) (x0 : Fin n → ℝ) (o : env.Obj) :
    (∃ r, solve env prm x0 o = .ok r) ∨ ∃ e, solve env prm x0 o = .error e ∧ Thrown env e := by
  have hloop : ∀ (fuel iter : Nat) (s : Loop env), Good env s →
      (∃ r, loop env prm fuel iter s = .ok r) ∨ ∃ e, loop env prm fuel iter s = .error e ∧ Thrown env e := by
    intro fuel
    induction fuel with
    | zero => intro iter s _; exact Or.inl ⟨_, rfl⟩
    | succ f ih =>
      intro iter s hs
      unfold loop
      rcases body_total hp hr ha hprm iter hs with ⟨s', t, hb, hs'⟩ | ⟨e, hb, he⟩
      · rw [hb]
        cases t with
        | some t => exact Or.inl ⟨_, rfl⟩
        | none => exact ih _ _ hs'
      · rw [hb]; exact Or.inr ⟨e, rfl, he⟩
  unfold solve
  rw [(checkParams_iff prm).mpr hprm]
  dsimp only
  have hstart : Good env (start env prm x0 o) := by
    refine ⟨hpen, ?_⟩
    unfold start chooseSolver
    dsimp only
    by_cases hu : env.p.ineq = [] ∧ env.p.eqs ≠ []
    · left
      refine ⟨hu, ?_⟩
      rw [if_pos hu]
      cases o.solver <;> exact ⟨_, rfl⟩
    · right
      refine ⟨hu, ?_⟩
      rw [if_neg hu]
      cases o.solver <;> exact ⟨_, rfl⟩
  rcases hloop prm.maxIterations.toNat 0 _ hstart with ⟨⟨s, t⟩, h⟩ | ⟨e, h, he⟩
  · rw [h]; exact Or.inl ⟨_, rfl⟩
  · rw [h]; exact Or.inr ⟨e, rfl, he⟩

end MiniOpt.Props
