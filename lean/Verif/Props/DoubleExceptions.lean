import Verif.Props.DoubleSigns
import Verif.Props.Totality
import Verif.Props.DoublesMore
import Verif.Lemmas.HessEntries
import Verif.Spec.DoubleThrowSpec

/-!
# C109: which exceptions the solvers can throw in binary64
-/

set_option autoImplicit false

namespace MiniOpt.Props

open MiniOpt MiniOpt.Spec MiniOpt.F64
open MiniOpt.IP (tauStep alphaLoop)

variable {L : Libm} {N M K : Nat}

theorem toRat_same (x : Dbl L) : toRat x = x.toRat := by cases x <;> rfl

theorem stepSafe_of_range {s ds : Dbl L} (h : ¬ OutOfRange s ds) : StepSafe s ds := by
  unfold OutOfRange at h
  push Not at h
  obtain ⟨h1, h2, h3, h4⟩ := h
  rw [← pow2_eq] at h3 h4
  exact ⟨h1, h2, by rw [toRat_same]; exact h3, by rw [toRat_same, toRat_same]; exact h4⟩

/-- The limits the step length loop computes for positive values are not negative. -/
theorem cand_nonneg {v dv : Dbl L} (hv : 0 < v) (h1 : v + dv ≤ 0) (h2 : 0 < Scalar.abs dv) :
    0 ≤ -(tauStep : Dbl L) * v / dv := by
  obtain ⟨t, ht, ht0, ht1⟩ := tau_value (L := L)
  have hneg : (-(tauStep : Dbl L)) = F64.fin true t := by rw [ht]; rfl
  rw [hneg]
  have hv' : F64.lt (zero false) v = true := hv
  have h1' : F64.le (add v dv) (zero false) = true := h1
  show F64.le (zero false) (div (mul (.fin true t) v) dv) = true
  cases v with
  | nan => simp [lt, zero] at hv'
  | inf s =>
    cases s
    · cases dv with
      | nan => simp [add, le, zero] at h1'
      | inf s => cases s <;> simp [add, le, zero] at h1'
      | fin s m => simp [add, le, zero] at h1'
    · simp [lt, zero] at hv'
  | fin s m =>
    have hp := zero_lt_fin.mp hv'
    obtain rfl := value_pos_sign hp
    have hm0 : 0 < m.1 := hp
    obtain ⟨a, hA, -, -⟩ := mk_finite_of_le true (q := t.1 * m.1) (m := m) (mul_nonneg ht0 hm0.le) (by nlinarith)
    have hm1 : mul (.fin true t) (.fin false m) = .fin true a := hA
    rw [hm1]
    cases dv with
    | nan => simp [add, le, zero] at h1'
    | inf s =>
      cases s
      · simp [add, le, zero] at h1'
      · simp [div, le, zero, value]
    | fin sd d =>
      have hsum := (sum_test m d false sd).mp h1'
      have hvv : value false m = m.1 := rfl
      have hsd : sd = true := value_neg_sign (m := d) (by linarith)
      subst hsd
      have hdd : value true d = -d.1 := rfl
      have hdne : ¬ d.1 = 0 := by intro h0; rw [hdd] at hsum; linarith
      simp only [div, if_neg hdne]
      exact mk_nonneg _

/-- The step length loop on doubles, one coordinate: as long as all values are positive, a value that is not out of range
stays positive, whatever the other changes are. -/
theorem alphaLoop_one {n : Nat} (val dv : Fin n → Dbl L) (hpos : ∀ j, 0 < val j) :
    0 ≤ alphaLoop val dv tauStep ∧ alphaLoop val dv tauStep ≤ 1 ∧
    ∀ i, StepSafe (val i) (dv i) → 0 < val i + dv i * alphaLoop val dv tauStep := by
  obtain ⟨t, ht, ht0, ht1⟩ := tau_value (L := L)
  have hneg : (-(tauStep : Dbl L)) = F64.fin true t := by rw [ht]; rfl
  obtain ⟨h0, h1, hle⟩ := alphaLoop_bounds val dv tauStep fun j => cand_nonneg (hpos j)
  refine ⟨h0, h1, fun i hi => ?_⟩
  obtain ⟨sa, al, hal⟩ := F64.isFinite_iff.mp
    (dbl_between (L := L) (lo := 0) (hi := 1) rfl (by rw [dbl_one]; rfl) h0 h1)
  obtain ⟨f1, f2, h3, h4⟩ := hi
  obtain ⟨s, v, hv⟩ := F64.isFinite_iff.mp f1
  obtain ⟨sd, d, hd⟩ := F64.isFinite_iff.mp f2
  rw [hv] at h3 h4
  rw [hd] at h4
  have h3' : pow2 (-1000) ≤ value s v := h3
  have hs : s = false := value_pos_sign (m := v) ((pow2_pos _).trans_le h3')
  subst hs
  have h4' : |value sd d| ≤ pow2 1000 * v.1 := h4
  rw [value_abs] at h4'
  have hv0 : 0 < v.1 := (pow2_pos _).trans_le h3'
  have hlim := hle i
  rw [hal] at h0 h1 hlim ⊢
  rw [hv, hd] at hlim ⊢
  rw [hneg] at hlim
  rw [dbl_one] at h1
  refine step_positive (v := v) (dv := d) (al := al) (t := t) h3' h4' ht1 (zero_le_fin.mp h0) ?_ ?_
  · have : value sa al ≤ value false oneMag := by
      have h1' : F64.le (.fin sa al) (.fin false oneMag) = true := h1
      simpa [le] using h1'
    exact this
  · intro hsum
    exact hlim ((sum_test v d false sd).mpr hsum) (abs_pos_of_add_nonpos hv0 hsum)

section anyScalar

variable {α : Type} [Scalar α]

theorem computeLDLT_error' {E : Eigen N K α} {p : QP N M K α} {b : Bool} {st : IPState N M K α}
    {e : Fault × IPState N M K α} (h : IP.computeLDLT E p b st = .error e) :
    (e.1 = .failedFactorization ∧ ∃ H, E.ldltInverse H = none) ∨
      (b = true ∧ e = (.assertion "Some slack variables s <= 0", st) ∧ ∃ m, ¬ 0 < st.v.s m) := by
  unfold IP.computeLDLT at h
  by_cases hs : b = false ∨ ∀ i, (0 : α) < st.v.s i
  · rw [if_pos hs] at h
    dsimp only at h
    split at h
    · rename_i hn
      cases h; exact Or.inl ⟨rfl, _, hn⟩
    · cases h
  · rw [if_neg hs] at h
    cases h
    right
    simp only [not_or, not_forall] at hs
    exact ⟨by simpa using hs.1, rfl, hs.2⟩

theorem finishGuess_error' {p : QP N M K α} {st : IPState N M K α} {e : Fault × IPState N M K α}
    (h : IP.finishGuess p st = .error e) : ∃ m, Scalar.feq (p.con m).a 0 := by
  have key : ∀ (l : List (Fin M)) (x : Fin N → α) e, IP.clampAll p l x = .error e → ∃ m, Scalar.feq (p.con m).a 0 := by
    intro l
    induction l with
    | nil => intro x e h; cases h
    | cons i l ih =>
      intro x e h
      rw [IP.clampAll] at h
      by_cases ha : Scalar.feq (p.con i).a 0
      · exact ⟨i, ha⟩
      · split at h
        · rename_i e' hc
          unfold Ineq.clampX at hc
          rw [if_neg (show ¬ Scalar.feq (p.con i).toIneq.a 0 from ha)] at hc
          split_ifs at hc
        · exact ih _ _ h
  unfold IP.finishGuess at h
  split at h
  · rename_i e' x he
    exact key _ _ _ he
  · cases h

theorem initialGuess_error' {E : Eigen N K α} {p : QP N M K α} {g : InitialGuessMethod}
    {st : IPState N M K α} {e : Fault × IPState N M K α} (h : IP.initialGuess E p g st = .error e) :
    (∃ m, Scalar.feq (p.con m).a 0) ∨ (e.1 = .failedFactorization ∧ ∃ H, E.ldltInverse H = none) := by
  unfold IP.initialGuess at h
  split at h
  · cases h
  · exact Or.inl (finishGuess_error' h)
  · split at h
    · rename_i e' he
      cases h
      rcases computeLDLT_error' he with h | ⟨h, _⟩
      · exact Or.inr h
      · cases h
    · exact Or.inl (finishGuess_error' h)

end anyScalar

/-- The slacks of the built-in guesses are positive, also in doubles (NaN is replaced by `1e-9`). -/
theorem guess_pos_double {E : Eigen N K (Dbl L)} {p : QP N M K (Dbl L)} {g : InitialGuessMethod}
    {st st' : IPState N M K (Dbl L)} (hg : g ≠ .userProvided) (h : IP.initialGuess E p g st = .ok st') (m : Fin M) :
    0 < st'.v.s m := by
  have hmin : (0 : Dbl L) < IP.minSlack := by
    have : F64.lt (zero false) (F64.round false (1 / 10 ^ 9)) = true := by decide +kernel
    exact this
  have hfin : ∀ s : IPState N M K (Dbl L), IP.finishGuess p s = .ok st' → 0 < st'.v.s m := by
    intro s hs
    unfold IP.finishGuess at hs
    split at hs
    · cases hs
    · cases hs
      dsimp only
      unfold cmax
      split_ifs with hc
      · exact dbl_lt_of_lt_of_le hmin (dbl_le_of_lt hc)
      · exact hmin
  unfold IP.initialGuess at h
  split at h
  · exact absurd rfl hg
  · exact hfin _ h
  · split at h
    · cases h
    · exact hfin _ h

/-- **C109** (QP). In binary64 - any matrices, any linear solver, any order of summation - with valid parameters, slopes that
are not zero and a built-in guess (or a user guess with positive slacks), the interior point `Solve` returns, or
* throws `FailedFactorization` after the factorisation routine reported failure, or
* throws the assertion "Some slack variables s <= 0", after overflow or underflow in the last iteration. -/
theorem C109_qp_exceptions (E : Eigen N K (Dbl L)) (p : QP N M K (Dbl L)) (ha : ∀ m, ¬ Scalar.feq (p.con m).a 0)
    (prm : QPParams (Dbl L)) (hprm : MiniOpt.checkParams prm = .ok ()) (st : IPState N M K (Dbl L))
    (hg : prm.initialGuessMethod ≠ .userProvided ∨ ∀ m, 0 < st.v.s m) :
    (∃ r, IP.solve E p prm st = .ok r) ∨
    (∃ st', IP.solve E p prm st = .error (.failedFactorization, st') ∧ ∃ H, E.ldltInverse H = none) ∨
    ∃ st' m, IP.solve E p prm st = .error (.assertion "Some slack variables s <= 0", st') ∧ SlackLost st' m := by
  unfold IP.solve
  rw [hprm]
  dsimp only
  cases h0 : IP.initialGuess E p prm.initialGuessMethod st with
  | error e =>
    rcases initialGuess_error' h0 with ⟨m, hm⟩ | ⟨h1, h2⟩
    · exact absurd hm (ha m)
    · obtain ⟨e1, e2⟩ := e
      dsimp only at h1
      subst h1
      exact Or.inr (Or.inl ⟨e2, rfl, h2⟩)
  | ok st0 =>
    dsimp only
    have hpos : ∀ m, 0 < st0.v.s m := by
      by_cases hu : prm.initialGuessMethod = .userProvided
      · rw [hu] at h0; cases h0
        rcases hg with hg | hg
        · exact absurd hu hg
        · exact hg
      · exact guess_pos_double hu h0
    have key := IP.solveLoop_rule E p prm (fun _ st _ _ => ∀ m, ¬ 0 < st.v.s m → SlackLost st m)
      (fun _ => True)
      (fun e => (e.1 = .failedFactorization ∧ ∃ H, E.ldltInverse H = none) ∨
        (e.1 = .assertion "Some slack variables s <= 0" ∧ ∃ m, SlackLost e.2 m))
      (by
        rintro n st mu log st2 it hI ⟨⟨st1, h1, rfl⟩, _, _⟩ _ m hm
        obtain ⟨st3, h3, h4, h5, -⟩ := IP.iterate_ok h1
        obtain ⟨hv, -⟩ := IP.direction_fields p mu prm.barrierStrategy st3
        have hs := (IP.computeLDLT_ok h3).1 rfl
        have hv3 : st3.v = st.v := by
          have := (IP.computeLDLT_ok h3).2.2
          rw [this]; exact IP.evaluateKKT_v' p true st
        rw [IP.evaluateKKT_v'] at hs
        have hM : 0 < M := Nat.lt_of_le_of_lt (Nat.zero_le _) m.isLt
        have hal : it.ip.alpha = IP.computeAlpha (IP.direction p mu prm.barrierStrategy st3).1 IP.tauStep := by
          rw [h5]; exact if_pos hM
        have hdel : ∀ s : IPState N M K (Dbl L), (IP.evaluateKKT p true s).delta = s.delta := fun s => rfl
        have hstep : st1.v.s m = st.v.s m + st1.delta.s m * it.ip.alpha.primal := by
          rw [h4]; simp only [IP.applyStep, hv, hv3]
        have hd : st1.delta = (IP.direction p mu prm.barrierStrategy st3).1.delta := by rw [h4]; rfl
        have hap : it.ip.alpha.primal = IP.alphaLoop st.v.s st1.delta.s IP.tauStep := by
          rw [hal, hd]; simp only [IP.computeAlpha, hv, hv3]
        obtain ⟨a0, a1, hsafe⟩ := alphaLoop_one st.v.s st1.delta.s hs
        unfold SlackLost
        rw [IP.evaluateKKT_v'] at hm ⊢
        rw [hdel]
        refine ⟨hm, st.v.s m, it.ip.alpha.primal, hs m, by rw [hap]; exact a0, by rw [hap]; exact a1, hstep, ?_⟩
        by_contra hr
        have := hsafe m (stepSafe_of_range hr)
        rw [← hap, ← hstep] at this
        exact hm this)
      (fun _ _ _ _ _ _ _ _ _ => trivial) (fun _ _ _ _ => trivial)
      (by
        intro n st mu log e hI he
        unfold IP.iterate at he
        split at he
        · rename_i e' he'
          cases he
          rcases computeLDLT_error' he' with h | ⟨_, h, m, hm⟩
          · exact Or.inl h
          · right
            rw [h]
            refine ⟨rfl, m, ?_⟩
            rw [IP.evaluateKKT_v'] at hm
            have := hI m hm
            unfold SlackLost at this ⊢
            rw [IP.evaluateKKT_v']
            exact this
        · cases he)
      prm.maxIterations.toNat (IP.evaluateKKT p true st0) (IP.initialMu prm (IP.evaluateKKT p true st0)) []
      (by intro m hm; rw [IP.evaluateKKT_v'] at hm; exact absurd (hpos m) hm)
    cases hr : IP.solveLoop E p prm prm.maxIterations.toNat (IP.evaluateKKT p true st0)
        (IP.initialMu prm (IP.evaluateKKT p true st0)) [] with
    | error e =>
      rw [hr] at key
      obtain ⟨e1, e2⟩ := e
      rcases key with ⟨h1, h2⟩ | ⟨h1, m, h2⟩
      · dsimp only at h1
        subst h1
        exact Or.inr (Or.inl ⟨e2, rfl, h2⟩)
      · dsimp only at h1
        subst h1
        exact Or.inr (Or.inr ⟨e2, m, rfl, h2⟩)
    | ok r => exact Or.inl ⟨r, rfl⟩

/-! ## The nonlinear solver -/

section nls

open MiniOpt.NLS

variable {n D : Nat}

/-- What is thrown in binary64, and what is then wrong, when the nonlinear `Solve` started at `x0` does not return. -/
def ThrownDbl (env : Env n D (Dbl L)) (x0 : Fin n → Dbl L) (e : Fault × env.Obj) : Prop :=
  (¬ UsesNullSpace env.p ∧ e.1 = .failedFactorization ∧ ∃ H, env.E.ldltInverse H = none) ∨
  (¬ UsesNullSpace env.p ∧ e.1 = .assertion "Some slack variables s <= 0" ∧
    ∃ st m, e.2.solver = .ip st ∧ SlackLost st m) ∨
  (UsesNullSpace env.p ∧ env.p.K = 0 ∧ ∃ tag, e.1 = .assertion tag) ∨
  (UsesNullSpace env.p ∧ 0 < env.p.K ∧ (∃ tag, e.1 = .ub tag) ∧
    (D < env.p.K ∨ (env.NE.qr e.2.qp.A).rank ≠ env.p.K)) ∨
  (e.1 = .assertion "!errors_pre.ContainsInvalidValues()" ∧ e.2.vars = x0 ∧
    (¬ Dbl.Finite (costAt env.p x0) ∨ ¬ Dbl.Finite (violationAt env.p x0))) ∨
  (e.1 = .user ∧ UserThrows env)

/-- Step sizes so far, as the line search keeps them (the last two fields matter for the polynomial search only). -/
structure LsInvD (strategy : LineSearchStrategy) (iter : Nat) (alpha : Dbl L) (steps : List (LineSearchStep (Dbl L))) :
    Prop where
  len : steps.length = iter
  last : ∀ s, steps.getLast? = some s → s.alpha = alpha
  pos : strategy = .polynomialApproximation → 0 < alpha
  dec : strategy = .polynomialApproximation → ∀ s t r, steps.reverse = s :: t :: r → s.alpha < t.alpha

theorem dbl_lt_of_not_le {x y : Dbl L} (hx : x ≠ F64.nan) (hy : y ≠ F64.nan) (h : ¬ x ≤ y) : y < x := by
  by_contra hc
  exact h (dbl_not_lt hy hx hc)

theorem nextAlpha_total_double {strategy : LineSearchStrategy} {tau : Dbl L} {iter : Nat} {alpha : Dbl L}
    {steps : List (LineSearchStep (Dbl L))} (hI : LsInvD strategy iter alpha steps) (pre : Errors (Dbl L))
    (d : DirectionalDerivatives (Dbl L)) (pen : Dbl L) :
    nextAlpha strategy tau iter pre d pen alpha steps = .ok none ∨
    ∃ a, nextAlpha strategy tau iter pre d pen alpha steps = .ok (some a) ∧
      ∀ es, LsInvD strategy (iter + 1) a (steps ++ [⟨a, es⟩]) := by
  have ext : ∀ a, (strategy = .polynomialApproximation → 0 < a) →
      (strategy = .polynomialApproximation → 0 < iter → a < alpha) → ∀ es, LsInvD strategy (iter + 1) a (steps ++ [⟨a, es⟩]) := by
    intro a ha hlt es
    refine ⟨by simp [hI.len], by simp, ha, ?_⟩
    intro hst s t r hr
    rw [List.reverse_append] at hr
    simp only [List.reverse_cons, List.reverse_nil, List.nil_append, List.singleton_append, List.cons.injEq] at hr
    obtain ⟨rfl, hr⟩ := hr
    have h0 : 0 < iter := by
      rw [← hI.len]
      rcases Nat.eq_zero_or_pos steps.length with h0 | h0
      · rw [List.length_eq_zero_iff] at h0; subst h0; simp at hr
      · exact h0
    have hl : steps.getLast? = some t := by
      rw [List.getLast?_eq_head?_reverse, hr]; rfl
    rw [hI.last t hl]
    exact hlt hst h0
  unfold nextAlpha
  cases strategy with
  | armijoBacktrack =>
    right
    dsimp only
    by_cases h0 : 0 < iter
    · rw [if_pos h0]
      exact ⟨_, rfl, ext _ (fun h => by cases h) fun h => by cases h⟩
    · rw [if_neg h0]
      exact ⟨_, rfl, ext _ (fun h => by cases h) fun h => by cases h⟩
  | polynomialApproximation =>
    dsimp only
    by_cases h0 : 0 < iter
    · rw [if_pos h0]
      have hpos := hI.pos rfl
      have hpoly : ∃ oa, polyAlpha iter pre d pen steps = .ok oa := by
        unfold polyAlpha
        rw [if_neg (by omega)]
        by_cases h1 : iter = 1
        · rw [if_pos h1]
          have hl := hI.len
          rw [h1, List.length_eq_one_iff] at hl
          obtain ⟨s, rfl⟩ := hl
          exact ⟨_, rfl⟩
        · rw [if_neg h1]
          have hl := hI.len
          cases hr : steps.reverse with
          | nil => rw [List.reverse_eq_nil_iff] at hr; subst hr; simp at hl; omega
          | cons s r =>
            cases r with
            | nil =>
              have := congrArg List.length hr
              simp at this; omega
            | cons t r =>
              dsimp only
              have hs : s.alpha = alpha := hI.last s (by rw [List.getLast?_eq_head?_reverse, hr]; rfl)
              have hlt := hI.dec rfl s t r hr
              unfold cubicApproxCoeffs
              rw [if_neg (by rw [hs]; exact not_not.mpr hpos), if_neg (not_not.mpr hlt)]
              exact ⟨_, rfl⟩
      obtain ⟨oa, hoa⟩ := hpoly
      rw [hoa]
      cases oa with
      | none => exact Or.inl rfl
      | some a =>
        dsimp only
        by_cases hc : ¬ Scalar.isFinite a ∨ a ≤ 0 ∨ alpha ≤ a
        · rw [if_pos hc]; exact Or.inl rfl
        · rw [if_neg hc]
          push Not at hc
          have hn := finite_ne_nan hc.1
          refine Or.inr ⟨a, rfl, ext a (fun _ => dbl_lt_of_not_le hn dbl_zero_ne_nan hc.2.1) fun _ _ =>
            dbl_lt_of_not_le (dbl_le_ne_nan (dbl_le_of_lt hpos)).2 hn hc.2.2⟩
    · rw [if_neg h0]
      exact Or.inr ⟨_, rfl, ext _ hI.pos fun _ h => absurd h h0⟩

theorem lsLoop_total_double {env : Env n D (Dbl L)} (hr : CanRetract env) (hi : IndicesOk env.p n)
    {prm : NLSParams (Dbl L)} (x : Fin n → Dbl L) (dx : Fin D → Dbl L) (pre : Errors (Dbl L))
    (d : DirectionalDerivatives (Dbl L)) (pen : Dbl L) :
    ∀ (fuel iter : Nat) (alpha : Dbl L) (steps : List (LineSearchStep (Dbl L))) (cand : Fin n → Dbl L),
      LsInvD prm.lineSearchStrategy iter alpha steps →
      (∃ r, lsLoop env prm x dx pre d pen fuel iter alpha steps cand = .ok r) ∨
        ((∃ a, lsLoop env prm x dx pre d pen fuel iter alpha steps cand = .error (.user, a)) ∧ UserThrows env) := by
  intro fuel
  induction fuel with
  | zero => intros; exact .inl ⟨_, rfl⟩
  | succ f ih =>
    intro iter alpha steps cand hI
    unfold lsLoop
    rcases nextAlpha_total_double (tau := prm.armijoSearchTau) hI pre d pen with h | ⟨a, h, hI'⟩
    · rw [h]; exact .inl ⟨_, rfl⟩
    · rw [h]
      dsimp only
      rcases retract_total hr x dx a with ⟨y, hy⟩ | ⟨hy, hu⟩
      swap
      · rw [hy]; exact .inr ⟨⟨_, rfl⟩, hu⟩
      rw [hy]
      dsimp only
      rcases evalErrors_total hi y with ⟨e, he⟩ | ⟨he, hu⟩
      swap
      · rw [he]; exact .inr ⟨⟨_, rfl⟩, hu⟩
      rw [he]
      dsimp only
      have ih' := ih _ _ _ y (hI' e)
      generalize lsLoop env prm x dx pre d pen f (iter + 1) a (steps ++ [⟨a, e⟩]) y = R at ih' ⊢
      split_ifs
      · exact .inl ⟨_, rfl⟩
      · exact .inl ⟨_, rfl⟩
      · exact .inl ⟨_, rfl⟩
      · exact .inl ⟨_, rfl⟩
      · exact ih'

theorem qpParams_valid_double (p : Problem D (Dbl L)) {prm : NLSParams (Dbl L)} (h : NLSParamsValid prm) :
    MiniOpt.checkParams (qpParams p prm) = .ok () := by
  rw [IP.checkParams_ok_iff]
  have h1 := h.maxQPIterations
  refine ⟨?_, ?_, ?_, h.terminationKktTol, ?_⟩
  · show F64.lt (zero false) (F64.round false 1) = true; decide +kernel
  · show F64.lt (zero false) (F64.round false (1 / 10)) = true; decide +kernel
  · show F64.le (F64.round false (1 / 10)) (F64.round false 1) = true; decide +kernel
  · simp only [qpParams]; omega

/-- Invariant of the outer loop: the penalty is positive, the right QP solver is in place, and after the first step the errors
at the variables are finite. -/
structure GoodD (env : Env n D (Dbl L)) (x0 : Fin n → Dbl L) (s : Loop env) : Prop where
  pen : 0 < s.penalty
  kind : (UsesNullSpace env.p ∧ ∃ st, s.obj.solver = .ns st) ∨ (¬ UsesNullSpace env.p ∧ ∃ st, s.obj.solver = .ip st)
  finite : s.obj.vars = x0 ∨ ¬ (errorsAt env.p s.obj.vars).containsInvalid

theorem stepDirection_total_double {env : Env n D (Dbl L)} {x0 : Fin n → Dbl L}
    (hc : ∀ c ∈ env.p.ineq, 0 ≤ c.var ∧ c.var < (n : Int) ∧ c.var < (D : Int))
    (ha : ∀ c ∈ env.p.ineq, ¬ Scalar.feq c.a 0) {prm : NLSParams (Dbl L)} (hprm : NLSParamsValid prm) {x : Fin n → Dbl L}
    {lam : Dbl L} {o : env.Obj} {qp : QPData D env.p.M env.p.K (Dbl L)} {pre : Errors (Dbl L)}
    (hl : linearize env.p x lam o.qp = .ok (qp, pre))
    (hk : (UsesNullSpace env.p ∧ ∃ st, o.solver = .ns st) ∨ (¬ UsesNullSpace env.p ∧ ∃ st, o.solver = .ip st)) :
    (∃ o1 out, stepDirection env prm { o with qp := qp } = .ok (o1, out) ∧ o1.vars = o.vars ∧
      ((UsesNullSpace env.p ∧ ∃ st, o1.solver = .ns st) ∨ (¬ UsesNullSpace env.p ∧ ∃ st, o1.solver = .ip st))) ∨
    ∃ e, stepDirection env prm { o with qp := qp } = .error e ∧ ThrownDbl env x0 e := by
  have hsh : shiftLoop x env.p.ineq = .ok qp.con := by
    unfold linearize at hl
    split at hl
    · cases hl
    · simp only at hl
      split at hl
      · cases hl
      · split at hl
        · cases hl
        · rename_i con hcon
          cases hl; exact hcon
  have hcon := shiftLoop_form x env.p.ineq _ hsh
  rcases hk with ⟨hu, st, hs⟩ | ⟨hu, st, hs⟩
  · unfold stepDirection
    simp only [hs]
    cases hn : NS.solve env.NE (⟨qp.G, qp.c, qp.A, qp.b, Fin.elim0⟩ : QP D 0 env.p.K (Dbl L)) st with
    | ok r =>
      obtain ⟨st', t⟩ := r
      cases t with
      | success => exact Or.inl ⟨_, _, rfl, rfl, Or.inl ⟨hu, st', rfl⟩⟩
      | notPositiveDefinite => exact Or.inl ⟨_, _, rfl, rfl, Or.inl ⟨hu, st', rfl⟩⟩
    | error e =>
      obtain ⟨e1, e2⟩ := e
      refine Or.inr ⟨_, rfl, Or.inr (Or.inr ?_)⟩
      by_cases hK : 0 < env.p.K
      · right; left
        refine ⟨hu, hK, ?_⟩
        unfold NS.solve at hn
        rw [if_neg (not_not.mpr hK)] at hn
        dsimp only at hn
        split_ifs at hn with h1 h2
        · cases hn; exact ⟨⟨_, rfl⟩, Or.inr h2⟩
        · split at hn <;> cases hn
        · cases hn; exact ⟨⟨_, rfl⟩, Or.inl (by omega)⟩
      · left
        refine ⟨hu, by omega, ?_⟩
        unfold NS.solve at hn
        rw [if_pos hK] at hn
        cases hn
        exact ⟨_, rfl⟩
  · unfold stepDirection
    simp only [hs]
    have hix : ∀ i, 0 ≤ (qp.con i).var ∧ (qp.con i).var < (D : Int) := by
      intro i
      obtain ⟨_, hi⟩ := hcon i
      rw [hi]
      exact ⟨(hc _ (List.get_mem _ _)).1, (hc _ (List.get_mem _ _)).2.2⟩
    have hci : checkIndices D (List.ofFn qp.con) = .ok () := by
      rcases checkIndices_ok D (List.ofFn qp.con) with h | ⟨-, h⟩
      · exact h.1
      · exfalso
        apply h
        intro c hc
        obtain ⟨i, rfl⟩ := (List.mem_ofFn' _ _).mp hc
        exact (hix i).2
    rw [hci]
    dsimp only
    rw [dif_pos hix]
    have hguess : (qpParams env.p prm).initialGuessMethod ≠ .userProvided := by
      unfold qpParams
      dsimp only
      split_ifs <;> simp
    rcases C109_qp_exceptions env.E (qp.typed hix) (fun m => by
        obtain ⟨_, hi⟩ := hcon m
        show ¬ Scalar.feq (qp.con m).a 0
        rw [hi]; exact ha (env.p.ineq.get m) (List.get_mem _ _)) (qpParams env.p prm) (qpParams_valid_double env.p hprm)
        (IP.setupState st) (Or.inl hguess) with ⟨r, hr⟩ | ⟨st', hr, hH⟩ | ⟨st', m, hr, hH⟩
    · obtain ⟨st', out⟩ := r
      rw [hr]
      exact Or.inl ⟨_, _, rfl, rfl, Or.inr ⟨hu, st', rfl⟩⟩
    · rw [hr]
      exact Or.inr ⟨_, rfl, Or.inl ⟨hu, rfl, hH⟩⟩
    · rw [hr]
      exact Or.inr ⟨_, rfl, Or.inr (Or.inl ⟨hu, rfl, st', m, rfl, hH⟩)⟩

theorem dbl_mul_pos_of_one_le {x t : Dbl L} (hx : 0 < x) (ht : 1 ≤ t) : 0 < x * t := by
  have hn : x * t ≠ F64.nan := by
    rw [dbl_one] at ht
    have hx' : F64.lt (zero false) x = true := hx
    have ht' : F64.le (.fin false oneMag) t = true := ht
    show F64.mul x t ≠ .nan
    have h1 : oneMag.1 = 1 := rfl
    cases x with
    | nan => simp [lt, zero] at hx'
    | inf s =>
      cases t with
      | nan => simp [le] at ht'
      | inf s' => simp [mul]
      | fin s' m =>
        have : value false oneMag ≤ value s' m := by simpa [le] using ht'
        have h2 : m.1 ≠ 0 := by
          intro h0
          have : value s' m = 0 := by cases s' <;> simp [value, h0]
          have h3 : value false oneMag = 1 := h1
          linarith
        simp [mul, h2]
    | fin s m =>
      have hp := zero_lt_fin.mp hx'
      obtain rfl := value_pos_sign hp
      have hm : m.1 ≠ 0 := (show 0 < m.1 from hp).ne'
      cases t with
      | nan => simp [le] at ht'
      | inf s' => simp [mul, hm]
      | fin s' m' => exact mk_ne_nan _ _
  exact dbl_lt_of_lt_of_le hx (dbl_le_mul_self (dbl_le_of_lt hx) ht hn)

theorem raisePenalty_pos_double (p : Problem D (Dbl L)) {prm : NLSParams (Dbl L)} (hprm : NLSParamsValid prm)
    (q : QPData D p.M p.K (Dbl L)) (dx : Fin D → Dbl L) (out : QPResult (Dbl L)) {pen : Dbl L} (h : 0 < pen) :
    0 < raisePenalty p prm q dx out pen := by
  unfold raisePenalty
  dsimp only
  split_ifs with h1 h2
  · exact dbl_mul_pos_of_one_le (dbl_lt_of_lt_of_le h (dbl_le_of_lt h2)) hprm.equalityPenaltyScaleFactor
  · exact h
  · exact h

theorem updateLambda_total_double {env : Env n D (Dbl L)} (prm : NLSParams (Dbl L)) (res : StepResult)
    (pre : Errors (Dbl L)) (pen lam : Dbl L) (o : env.Obj) (h : res = .success → o.steps ≠ []) :
    ∃ o' l t, updateLambda env prm res pre pen lam o = .ok (o', l, t) ∧ o'.solver = o.solver ∧
      o'.vars = if res = .success then o.cand else o.vars := by
  cases res
  case success =>
    unfold updateLambda
    dsimp only
    cases hl : o.steps.getLast? with
    | none => exact absurd (List.getLast?_eq_none_iff.mp hl) (h rfl)
    | some f => exact ⟨_, _, _, rfl, rfl, rfl⟩
  all_goals exact ⟨_, _, _, rfl, rfl, rfl⟩

theorem body_total_double {env : Env n D (Dbl L)} {x0 : Fin n → Dbl L} (hi : IndicesOk env.p n) (hD : IndicesOk env.p D)
    (hcons : ConsistentP env.p) (hc : ∀ c ∈ env.p.ineq, 0 ≤ c.var ∧ c.var < (n : Int) ∧ c.var < (D : Int))
    (hr : CanRetract env) (ha : ∀ c ∈ env.p.ineq, ¬ Scalar.feq c.a 0)
    {prm : NLSParams (Dbl L)} (hprm : NLSParamsValid prm) (iter : Nat) {s : Loop env} (hs : GoodD env x0 s) :
    (∃ s' t, body env prm iter s = .ok (s', t) ∧ GoodD env x0 s') ∨
      ∃ e, body env prm iter s = .error e ∧ ThrownDbl env x0 e := by
  unfold body
  rcases linearize_total hi hD (fun c h => ⟨(hc c h).1, (hc c h).2.1⟩) s.obj.vars s.lambda s.obj.qp with
    ⟨qp, pre, hl⟩ | ⟨⟨a, hl⟩, hu⟩
  swap
  · rw [hl]; exact .inr ⟨_, rfl, .inr (.inr (.inr (.inr (.inr ⟨rfl, hu⟩))))⟩
  rw [hl]
  dsimp only
  have hpre := (linearize_errors hcons hl).2
  rcases stepDirection_total_double (x0 := x0) (o := s.obj) hc ha hprm hl hs.kind with
    ⟨o1, out, hd, hv, hk⟩ | ⟨e, hd, he⟩
  · rw [hd]
    dsimp only
    by_cases hw : wasIndefinite out = true
    · rw [if_pos hw]
      exact Or.inl ⟨_, _, rfl, ⟨hs.pen, hk, by dsimp only; rw [hv]; exact hs.finite⟩⟩
    · rw [if_neg hw]
      have hpen := raisePenalty_pos_double env.p hprm o1.qp o1.dx out hs.pen
      by_cases hinv : pre.containsInvalid
      · right
        unfold selectStepSize
        rw [if_neg (not_not.mpr hpen), if_pos hinv]
        refine ⟨_, rfl, .inr (.inr (.inr (.inr (.inl ⟨rfl, ?_⟩))))⟩
        dsimp only
        rw [hv]
        rw [hpre] at hinv
        rcases hs.finite with hf | hf
        · rw [hf] at hinv ⊢
          exact ⟨rfl, hinv⟩
        · exact absurd hinv hf
      rcases lsLoop_total_double (prm := prm) hr hi o1.vars o1.dx pre
        (costDerivative o1.qp o1.dx) (raisePenalty env.p prm o1.qp o1.dx out s.penalty)
        (prm.maxLineSearchIterations + 1).toNat 0 1 [] o1.cand
        ⟨rfl, by simp, fun _ => by
          have : F64.lt (zero false) (F64.round false 1) = true := by decide +kernel
          exact this, by simp⟩ with
        ⟨⟨res, steps, cand⟩, hls⟩ | ⟨⟨a, hls⟩, hu⟩
      swap
      · right
        unfold selectStepSize
        rw [if_neg (not_not.mpr hpen), if_neg hinv, hls]
        exact ⟨_, rfl, .inr (.inr (.inr (.inr (.inr ⟨rfl, hu⟩))))⟩
      have hsel : selectStepSize env prm pre (costDerivative o1.qp o1.dx)
          (raisePenalty env.p prm o1.qp o1.dx out s.penalty) o1 = .ok ({ o1 with steps := steps, cand := cand }, res) := by
        unfold selectStepSize
        rw [if_neg (not_not.mpr hpen), if_neg hinv, hls]
      rw [hsel]
      dsimp only
      obtain ⟨htr, hout, hlast⟩ := lsLoop_start _ _ _ _ _ _ _ _ _ _ _ _ hls
      obtain ⟨o3, l, t, hup, hsol, hvars⟩ := updateLambda_total_double (env := env) prm res pre
        (raisePenalty env.p prm o1.qp o1.dx out s.penalty) s.lambda { o1 with steps := steps, cand := cand } (by
          intro hres hnil
          obtain ⟨st, hst, _⟩ := hout.facts.success hres
          have hnil' : steps = [] := hnil
          rw [hnil'] at hst
          cases hst)
      rw [hup]
      dsimp only
      refine Or.imp (fun ⟨a, h⟩ => ⟨a.1, a.2, h⟩) id
        (ite_total (P := fun a : Loop env × Option NLSTermination => GoodD env x0 a.1) (Q := ThrownDbl env x0) ?_ ?_)
      · intro hcb
        refine .inr (.inr (.inr (.inr (.inr ⟨rfl, .inr (.inr ?_)⟩))))
        unfold callbackFails at hcb
        cases hcn : env.callback with
        | none => simp [hcn] at hcb
        | some f =>
          rw [hcn] at hcb
          exact ⟨by simp, _, hcb⟩
      · refine ⟨hpen, ?_, ?_⟩
        · dsimp only
          rw [hsol]
          exact hk
        · dsimp only
          rw [hvars]
          by_cases hres : res = .success
          · right
            rw [if_pos hres]
            obtain ⟨st, hst, hval, -⟩ := hout.facts.success hres
            obtain ⟨c, hc1, hc2⟩ := htr.entry st (List.mem_of_getLast? hst)
            have := hlast st hst
            rw [hc1] at this
            cases this
            rw [← ((evalErrors_ok_iff _ _ _).mp hc2).2]
            exact hval
          · right
            rw [if_neg hres]
            dsimp only
            rw [hv, ← hpre]; exact hinv
  · rw [hd]
    exact Or.inr ⟨e, rfl, he⟩

/-- **C109**. In binary64, for residuals with indices in range and values that do not depend on whether a Jacobian is
requested, bounds whose slopes are not zero, documented parameters with a positive initial penalty, and either a custom
retraction or a start vector of the problem's dimension - whatever numbers the residuals, the retraction and the linear solver
produce, NaN and infinities included - the nonlinear `Solve` returns, or
* throws `FailedFactorization` (interior point path) after the factorisation routine reported failure, or
* throws "Some slack variables s <= 0" (interior point path) after a slack of the QP was lost to overflow or underflow, or
* (null-space path) throws an assertion because all equality constraints are empty, or
* (null-space path) runs into the undefined block product: more equality rows than variables, or a computed rank that is not
  the number of rows, or
* throws "!errors_pre.ContainsInvalidValues()" because the cost or the constraint violation at the start is not finite, or
* passes on an exception thrown by a residual, the retraction or the callback. -/
theorem C109_nls_exceptions (env : Env n D (Dbl L)) (hi : IndicesOk env.p n) (hD : IndicesOk env.p D)
    (hcons : ConsistentP env.p) (hc : ∀ c ∈ env.p.ineq, 0 ≤ c.var ∧ c.var < (n : Int) ∧ c.var < (D : Int))
    (hr : n = D ∨ env.retraction ≠ none) (ha : ∀ c ∈ env.p.ineq, ¬ Scalar.feq c.a 0)
    (prm : NLSParams (Dbl L)) (hprm : NLSParamsValid prm) (hpen : 0 < prm.equalityPenaltyInitial)
    (x0 : Fin n → Dbl L) (o : env.Obj) :
    (∃ r, solve env prm x0 o = .ok r) ∨ ∃ e, solve env prm x0 o = .error e ∧ ThrownDbl env x0 e := by
  have hloop : ∀ (fuel iter : Nat) (s : Loop env), GoodD env x0 s →
      (∃ r, loop env prm fuel iter s = .ok r) ∨ ∃ e, loop env prm fuel iter s = .error e ∧ ThrownDbl env x0 e := by
    intro fuel
    induction fuel with
    | zero => intro iter s _; exact Or.inl ⟨_, rfl⟩
    | succ f ih =>
      intro iter s hs
      unfold loop
      rcases body_total_double hi hD hcons hc hr ha hprm iter hs with ⟨s', t, hb, hs'⟩ | ⟨e, hb, he⟩
      · rw [hb]
        cases t with
        | some t => exact Or.inl ⟨_, rfl⟩
        | none => exact ih _ _ hs'
      · rw [hb]; exact Or.inr ⟨e, rfl, he⟩
  unfold solve
  rw [(checkParams_iff prm).mpr hprm]
  dsimp only
  have hstart : GoodD env x0 (start env prm x0 o) := by
    refine ⟨hpen, ?_, Or.inl rfl⟩
    unfold start chooseSolver
    dsimp only
    by_cases hu : env.p.ineq = [] ∧ env.p.eqs ≠ []
    · left
      refine ⟨hu, ?_⟩
      rw [if_pos hu]
      cases o.solver <;> exact ⟨_, rfl⟩
    · right
      refine ⟨hu, ?_⟩
      rw [if_neg hu]
      cases o.solver <;> exact ⟨_, rfl⟩
  rcases hloop prm.maxIterations.toNat 0 _ hstart with ⟨⟨s, t⟩, h⟩ | ⟨e, h, he⟩
  · rw [h]; exact Or.inl ⟨_, rfl⟩
  · rw [h]; exact Or.inr ⟨e, rfl, he⟩

/-! ## Concrete cases -/

open DemoF64

/-- `½x² - x` subject to `2^1000 x ≥ 2^1000`. -/
def steepQP : QP 1 1 0 D64 := ⟨fun _ _ => 1, fun _ => d (-1), Fin.elim0, Fin.elim0,
  fun _ => ⟨0, toDbl seqL (F64.round false (pow2 1000)), toDbl seqL (F64.neg (F64.round false (pow2 1000)))⟩⟩

set_option maxRecDepth 100000 in
set_option exponentiation.threshold 2000 in
/-- **C109** (the slack assertion is reached). All data are finite and the factorisation never fails, but the right-hand side
of the first step overflows, a slack becomes NaN, and the default parameters make `Solve` throw - although the solution
is `x = 1`. -/
theorem C109_overflow : (∃ st', IP.solve inv1 steepQP (qpPrm 10 .complementarity) (IP.setupState (zero1 1))
      = .error (.assertion "Some slack variables s <= 0", st')) ∧
    (∀ m, ¬ Scalar.feq (steepQP.con m).a 0) ∧ MiniOpt.checkParams (qpPrm 10 .complementarity) = .ok () ∧
    (qpPrm 10 .complementarity).initialGuessMethod ≠ .userProvided := by
  refine ⟨?_, by decide +kernel, by decide +kernel, by decide⟩
  have h : (match IP.solve inv1 steepQP (qpPrm 10 .complementarity) (IP.setupState (zero1 1)) with
    | .error (.assertion t, _) => decide (t = "Some slack variables s <= 0")
    | _ => false) = true := by decide +kernel
  split at h
  · rename_i t st' hs
    exact ⟨st', by rw [hs, of_decide_eq_true h]⟩
  · cases h

/-- Both remaining outcomes of the QP solver occur, too. -/
theorem C109_qp_outcomes : (∃ r, IP.solve inv1 qp1 (qpPrm 10 .complementarity) (IP.setupState (zero1 1)) = .ok r) ∧
    ∃ st', IP.solve (⟨fun _ => none⟩ : Eigen 1 0 D64) qp1 (qpPrm 10 .complementarity) (IP.setupState (zero1 1))
      = .error (.failedFactorization, st') := by
  refine ⟨⟨_, qp_run.choose_spec.1⟩, ?_⟩
  have h : (match IP.solve (⟨fun _ => none⟩ : Eigen 1 0 D64) qp1 (qpPrm 10 .complementarity) (IP.setupState (zero1 1)) with
    | .error (.failedFactorization, _) => true
    | _ => false) = true := by decide +kernel
  split at h
  · rename_i st' hs
    exact ⟨st', hs⟩
  · cases h

/-- The residual `x + 2^600`. -/
def farOff : Residual D64 := res1 (fun x => x + toDbl seqL (F64.round false (pow2 600))) fun _ => 1

set_option maxRecDepth 100000 in
set_option exponentiation.threshold 2000 in
/-- **C109** (the assertion on the initial errors is reached). A linear residual whose square overflows at the start: `Solve`
throws, although its only step would be finite and lead to the solution. All hypotheses of C109 hold. -/
theorem C109_start_overflow : (∃ ob, solve (env1 farOff) (prm 20) (fun _ => 0) (obj1 farOff)
      = .error (.assertion "!errors_pre.ContainsInvalidValues()", ob)) ∧
    IndicesOk (env1 farOff).p 1 ∧ ConsistentP (env1 farOff).p ∧ (env1 farOff).p.ineq = [] ∧
    NLSParamsValid (prm 20) ∧ (0 : D64) < (prm 20).equalityPenaltyInitial := by
  refine ⟨?_, ?_, ?_, rfl, (checkParams_iff _).mp (by decide +kernel), by decide +kernel⟩
  · have h : (match solve (env1 farOff) (prm 20) (fun _ => 0) (obj1 farOff) with
      | .error (.assertion t, _) => decide (t = "!errors_pre.ContainsInvalidValues()")
      | _ => false) = true := by decide +kernel
    split at h
    · rename_i t ob hs
      exact ⟨ob, by rw [hs, of_decide_eq_true h]⟩
    · cases h
  · intro r hr
    have : r = farOff := by simpa [env1] using hr
    subst this
    intro l
    show (0 : Int) ≤ 0 ∧ (0 : Int) < 1
    decide
  · intro r hr
    have : r = farOff := by simpa [env1] using hr
    subst this
    intro q; rfl

/-- And a run that returns. -/
example : ∃ r, solve (env1 sqrt2) (prm 20) (fun _ => d 5) (obj1 sqrt2) = .ok r := by
  obtain ⟨o', out, calls, h, -⟩ := summary_run run_sqrt2
  exact ⟨_, h⟩

end nls

end MiniOpt.Props
