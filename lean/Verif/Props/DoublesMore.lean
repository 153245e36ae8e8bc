import Verif.Props.DoublesState
import Verif.Props.AnyUserCode
import Verif.Props.NLSParams

/-!
# C44, C77, C87 in binary64

What the control flow of the nonlinear solver guarantees about the numbers in its log in double arithmetic, whatever the
user code answers.
-/

set_option autoImplicit false

namespace MiniOpt.Props

open MiniOpt.Spec MiniOpt.NLS MiniOpt.F64

variable {L : Libm} {n D : Nat}

theorem dbl_lt_of_lt_of_le {x y z : Dbl L} (h1 : x < y) (h2 : y ≤ z) : x < z := F64.lt_of_lt_of_le h1 h2
theorem dbl_lt_of_le_of_lt {x y z : Dbl L} (h1 : x ≤ y) (h2 : y < z) : x < z := F64.lt_of_le_of_lt h1 h2

/-- The step sizes of a legal search. -/
theorem search_alphas_double {prm : NLSParams (Dbl L)} (hp : NLSParamsValid prm) {it : NLSIteration (Dbl L)}
    (hs : SearchOk prm it) :
    (∀ (j : Nat) st, it.lineSearchSteps[j]? = some st → Dbl.Finite st.alpha ∧ 0 ≤ st.alpha ∧ st.alpha ≤ 1) ∧
    (∀ (j : Nat) st st', it.lineSearchSteps[j]? = some st → it.lineSearchSteps[j + 1]? = some st' →
      st'.alpha ≤ st.alpha) := by
  have htau := hp.armijoSearchTau
  have hstep : ∀ (j : Nat) st st', it.lineSearchSteps[j]? = some st → it.lineSearchSteps[j + 1]? = some st' →
      Dbl.Finite st.alpha → 0 ≤ st.alpha →
      Dbl.Finite st'.alpha ∧ 0 ≤ st'.alpha ∧ st'.alpha ≤ st.alpha := by
    intro j st st' hst hst' hf h0
    have h' := hs.next j st st' hst hst'
    cases hs : prm.lineSearchStrategy with
    | armijoBacktrack =>
      rw [hs] at h'
      simp only at h'
      have hle := dbl_mul_le_self hf h0 (dbl_le_of_lt htau.1) (dbl_le_of_lt htau.2)
      have hge := dbl_mul_nonneg h0 (dbl_le_of_lt htau.1) (dbl_le_ne_nan hle).1
      rw [h']
      exact ⟨dbl_between (lo := 0) rfl hf hge hle, hge, hle⟩
    | polynomialApproximation =>
      rw [hs] at h'
      have hn' := finite_ne_nan h'.1
      exact ⟨h'.1, dbl_le_of_lt (dbl_not_le hn' dbl_zero_ne_nan h'.2.1),
        dbl_le_of_lt (dbl_not_le (finite_ne_nan hf) hn' h'.2.2)⟩
  have hall : ∀ (j : Nat) st, it.lineSearchSteps[j]? = some st → Dbl.Finite st.alpha ∧ 0 ≤ st.alpha ∧ st.alpha ≤ 1 := by
    intro j
    induction j with
    | zero =>
      intro st hst
      rw [hs.first st hst]
      exact ⟨by rw [dbl_one]; rfl, dbl_zero_le_one, by rw [dbl_one]; exact F64.le_refl (by simp)⟩
    | succ j ih =>
      intro st' hst'
      have hj := lt_of_getElem? hst'
      obtain ⟨st, hst⟩ : ∃ st, it.lineSearchSteps[j]? = some st := ⟨_, List.getElem?_eq_getElem (by omega)⟩
      obtain ⟨a, b, c⟩ := ih st hst
      obtain ⟨a', b', c'⟩ := hstep j st st' hst hst' a b
      exact ⟨a', b', dbl_le_trans c' c⟩
  refine ⟨hall, fun j st st' hst hst' => ?_⟩
  obtain ⟨a, b, c⟩ := hall j st hst
  exact (hstep j st st' hst hst' a b).2.2

/-- The merit at an accepted step. -/
theorem accepted_merit_double {prm : NLSParams (Dbl L)} (hp : NLSParamsValid prm) {it : NLSIteration (Dbl L)}
    (hs : SearchOk prm it) (hr : it.stepResult = .success) :
    ∃ last, it.lineSearchSteps.getLast? = some last ∧
      last.errors.total it.penalty ≤ it.errorsInitial.total it.penalty ∧
      Dbl.Finite last.errors.f ∧ Dbl.Finite last.errors.equality ∧
      it.directionalDerivatives.total it.penalty ≤ 0 := by
  obtain ⟨last, hl⟩ : ∃ last, it.lineSearchSteps.getLast? = some last := by
    cases hg : it.lineSearchSteps.getLast? with
    | none => have := hs.count.1; rw [List.getLast?_eq_none_iff.mp hg] at this; simp at this
    | some st => exact ⟨st, rfl⟩
  have ho := hs.outcome last hl
  rw [hr] at ho
  obtain ⟨hval, _, hup, harm⟩ := ho
  obtain ⟨-, ha0, -⟩ := (search_alphas_double hp hs).1 (it.lineSearchSteps.length - 1) last
    (by rw [← List.getLast?_eq_getElem?]; exact hl)
  have hrhs := (dbl_le_ne_nan harm).2
  revert hrhs
  unfold Accepts at harm
  revert harm hup
  unfold Uphill
  generalize it.errorsInitial.total it.penalty = pre
  generalize it.directionalDerivatives.total it.penalty = d
  intro hup harm hrhs
  have hX : F64.add pre (F64.mul (F64.mul d last.alpha) (Scalar.lit (1 / 10 ^ 4) : Dbl L)) ≠ .nan := hrhs
  have addnan : ∀ u v : F64, F64.add u v ≠ .nan → v ≠ .nan := by
    intro u v hu hv; subst hv; exact hu (by cases u <;> rfl)
  have mulnan : ∀ u v : F64, F64.mul u v ≠ .nan → u ≠ .nan := by
    intro u v hu hv; subst hv; exact hu rfl
  have hX2 := addnan _ _ hX
  have hdn : d ≠ F64.nan := mulnan _ _ (mulnan _ _ hX2)
  have hd0 : d ≤ 0 := dbl_not_lt dbl_zero_ne_nan hdn hup
  have hda := F64.mul_nonpos_nonneg hd0 ha0 (mulnan _ _ hX2)
  have hc1 : F64.le (F64.zero false) (Scalar.lit (1 / 10 ^ 4) : Dbl L) = true := by
    show F64.le (F64.zero false) (F64.round false _) = true
    exact F64.round_nonneg _ (by norm_num)
  have hx0 := F64.mul_nonpos_nonneg hda hc1 hX2
  refine ⟨last, hl, dbl_le_trans harm (F64.add_nonpos_le hx0 hX), ?_, ?_, hd0⟩
  · by_contra hc; exact hval (Or.inl hc)
  · by_contra hc; exact hval (Or.inr hc)

/-- One iteration does not lower the penalty. -/
theorem penalty_step_double {prm : NLSParams (Dbl L)} (hp : NLSParamsValid prm) {set : Setting} {k : Nat}
    {c c' : Control (Dbl L)} {it : NLSIteration (Dbl L)} (h : IterationOk prm set k c it c') (hc : 0 ≤ c.penalty) :
    c.penalty ≤ it.penalty := by
  obtain ⟨wanted, -, hcase⟩ := h.raised
  rcases hcase with ⟨_, hlt, he⟩ | ⟨_, he⟩
  · have hpos := h.positive
    rw [he] at hpos ⊢
    have hw := dbl_le_of_lt hlt
    exact dbl_le_trans hw (dbl_le_mul_self (dbl_le_trans hc hw) hp.equalityPenaltyScaleFactor
      (dbl_le_ne_nan (dbl_le_of_lt hpos)).2)
  · rw [he]; exact dbl_le_refl (dbl_le_ne_nan hc).2

theorem raised_lambda_double {prm : NLSParams (Dbl L)} (hp : NLSParamsValid prm) (st : OptimizerState) {lam : Dbl L}
    (hf : Dbl.Finite lam) (h0 : st = .attemptingRestoreLM → 0 ≤ lam) :
    lam ≤ raisedLambda prm st lam ∧ 0 ≤ raisedLambda prm st lam := by
  unfold raisedLambda
  have hlf := (dbl_le_ne_nan hp.lambdaFailureInit).2
  have hmul := dbl_mul_ne_nan hf (dbl_ten (L := L)).1
  have hten : (0 : Dbl L) ≤ Scalar.lit 10 := dbl_le_trans dbl_zero_le_one dbl_ten.2
  cases st with
  | nominal =>
    have h2 := dbl_cmax_right hlf hmul
    have h3 : prm.lambdaFailureInit ≤ cmax prm.lambdaFailureInit (lam * Scalar.lit 10) := dbl_cmax_left hlf
    refine ⟨?_, dbl_le_trans hp.lambdaFailureInit h3⟩
    rcases dbl_total dbl_zero_ne_nan (finite_ne_nan hf) with hl | hl
    · exact dbl_le_trans (dbl_le_mul_self hl dbl_ten.2 hmul) h2
    · exact dbl_le_trans hl (dbl_le_trans hp.lambdaFailureInit h3)
  | attemptingRestoreLM =>
    have h1 := h0 rfl
    exact ⟨dbl_le_mul_self h1 dbl_ten.2 hmul, dbl_mul_nonneg h1 hten hmul⟩

/-- `lambda` stays within finite limits. -/
theorem damping_limits_double {prm : NLSParams (Dbl L)} (hp : NLSParamsValid prm) (hmin : Dbl.Finite prm.minLambda)
    (hmax : Dbl.Finite prm.maxLambda) {c : Control (Dbl L)} {r : StepResult} {l : Dbl L}
    (hc : prm.minLambda ≤ c.lambda ∧ c.lambda ≤ prm.maxLambda ∧ (c.state = .attemptingRestoreLM → 0 ≤ c.lambda))
    (hl : l = lambdaAfter prm c r)
    (hmx : r = .maxIterations ∨ r = .positiveDerivative → ¬ prm.maxLambda < l) :
    prm.minLambda ≤ l ∧ l ≤ prm.maxLambda ∧ (stateAfter c.state r = .attemptingRestoreLM → 0 ≤ l) := by
  obtain ⟨h1, h2, h3⟩ := hc
  have hf := dbl_between hmin hmax h1 h2
  have hsucc : ∀ f : Dbl L, 0 ≤ f ∧ f < 1 → l = cmax (c.lambda * f) prm.minLambda →
      prm.minLambda ≤ l ∧ l ≤ prm.maxLambda := by
    intro f hd e
    have hff : Dbl.Finite f :=
      dbl_between (lo := 0) (hi := 1) rfl (by rw [dbl_one]; rfl) hd.1 (dbl_le_of_lt hd.2)
    have hmul := dbl_mul_ne_nan hf hff
    rw [e]
    refine ⟨dbl_cmax_right hmul (finite_ne_nan hmin), dbl_cmax_le ?_ hp.minLambda⟩
    rcases dbl_total dbl_zero_ne_nan (finite_ne_nan hf) with hl | hl
    · exact dbl_le_trans (dbl_mul_le_self hf hl hd.1 (dbl_le_of_lt hd.2)) h2
    · exact dbl_le_trans (dbl_mul_nonpos hl hd.1 hmul) hp.maxLambda
  have hraise : l = raisedLambda prm c.state c.lambda → ¬ prm.maxLambda < l →
      prm.minLambda ≤ l ∧ l ≤ prm.maxLambda ∧ 0 ≤ l := by
    intro hl hle
    obtain ⟨r1, r2⟩ := raised_lambda_double hp c.state hf h3
    have r1' : c.lambda ≤ l := by rw [hl]; exact r1
    have r2' : 0 ≤ l := by rw [hl]; exact r2
    exact ⟨dbl_le_trans h1 r1', dbl_not_lt (finite_ne_nan hmax) (dbl_le_ne_nan r2').2 hle, r2'⟩
  cases r with
  | success =>
    simp only [lambdaAfter] at hl
    have hb : prm.minLambda ≤ l ∧ l ≤ prm.maxLambda := by
      cases hst : c.state with
      | nominal => rw [hst] at hl; exact hsucc _ hp.lambdaDecreaseOnSuccess hl
      | attemptingRestoreLM => rw [hst] at hl; exact hsucc _ hp.lambdaDecreaseOnRestore hl
    exact ⟨hb.1, hb.2, fun h => (by simp [stateAfter] at h)⟩
  | maxIterations =>
    have := hraise (by rw [hl]; cases hs : c.state <;> simp [lambdaAfter, raisedLambda, hs]) (hmx (.inl rfl))
    exact ⟨this.1, this.2.1, fun _ => this.2.2⟩
  | positiveDerivative =>
    have := hraise (by rw [hl]; cases hs : c.state <;> simp [lambdaAfter, raisedLambda, hs]) (hmx (.inr rfl))
    exact ⟨this.1, this.2.1, fun _ => this.2.2⟩
  | firstOrderSatisfied => simp only [lambdaAfter, stateAfter] at hl ⊢; rw [hl]; exact ⟨h1, h2, h3⟩
  | failureNonFiniteCost => simp only [lambdaAfter, stateAfter] at hl ⊢; rw [hl]; exact ⟨h1, h2, h3⟩
  | failureInvalidAlpha => simp only [lambdaAfter, stateAfter] at hl ⊢; rw [hl]; exact ⟨h1, h2, h3⟩

/-- What a legal log implies about penalties and merits in doubles. -/
theorem legal_double {prm : NLSParams (Dbl L)} (hp : NLSParamsValid prm) {set : Setting} {k : Nat}
    {c : Control (Dbl L)} {log : List (NLSIteration (Dbl L))} {t : NLSTermination} (h : LegalLog prm set k c log t)
    (hc : 0 ≤ c.penalty) :
    (∀ it ∈ log, c.penalty ≤ it.penalty ∧ 0 < it.penalty ∧ SearchOk prm it ∧ (¬ set.equalities → it.penalty = c.penalty)) ∧
    log.Pairwise (fun a b => a.penalty ≤ b.penalty) := by
  have hconst : ∀ {k : Nat} {c c' : Control (Dbl L)} {it : NLSIteration (Dbl L)}, IterationOk prm set k c it c' →
      ¬ set.equalities → it.penalty = c.penalty := by
    intro k c c' it hit hn
    obtain ⟨wanted, -, hcase⟩ := hit.raised
    rcases hcase with ⟨he, _⟩ | ⟨_, he⟩
    · exact absurd he hn
    · exact he
  induction h with
  | limit k c hk => simp
  | indefinite k c hk _ _ => simp
  | stop k c c' it t hk hit hst =>
    simp only [List.mem_singleton, forall_eq, List.pairwise_singleton, and_true]
    exact ⟨penalty_step_double hp hit hc, hit.positive, hit.search, hconst hit⟩
  | user k c c' it hk hit _ _ =>
    simp only [List.mem_singleton, forall_eq, List.pairwise_singleton, and_true]
    exact ⟨penalty_step_double hp hit hc, hit.positive, hit.search, hconst hit⟩
  | next k c c' it rest t hk hit hns _ ih =>
    have hpen := penalty_step_double hp hit hc
    obtain ⟨h1, h2⟩ := ih (hit.penalty ▸ dbl_le_trans hc hpen)
    refine ⟨?_, ?_⟩
    · intro it' hit'
      rcases List.mem_cons.mp hit' with rfl | hm
      · exact ⟨hpen, hit.positive, hit.search, hconst hit⟩
      · obtain ⟨a1, a2, a3, a4⟩ := h1 it' hm
        exact ⟨dbl_le_trans hpen (hit.penalty ▸ a1), a2, a3, fun hn => (a4 hn).trans (hit.penalty ▸ hconst hit hn)⟩
    · exact List.pairwise_cons.mpr ⟨fun it' hm => hit.penalty ▸ (h1 it' hm).1, h2⟩

/-- What a legal log implies about `lambda` in doubles. -/
theorem legal_lambda_double {prm : NLSParams (Dbl L)} (hp : NLSParamsValid prm) (hmin : Dbl.Finite prm.minLambda)
    (hmax : Dbl.Finite prm.maxLambda) {set : Setting} {k : Nat}
    {c : Control (Dbl L)} {log : List (NLSIteration (Dbl L))} {t : NLSTermination} (h : LegalLog prm set k c log t)
    (hc : prm.minLambda ≤ c.lambda ∧ c.lambda ≤ prm.maxLambda ∧ (c.state = .attemptingRestoreLM → 0 ≤ c.lambda)) :
    ∀ it ∈ log, Dbl.Finite it.lambda ∧ prm.minLambda ≤ it.lambda ∧ it.lambda ≤ prm.maxLambda := by
  induction h with
  | limit k c hk => simp
  | indefinite k c hk _ _ => simp
  | stop k c c' it t hk hit hst =>
    simp only [List.mem_singleton, forall_eq]
    rw [hit.lambda]
    exact ⟨dbl_between hmin hmax hc.1 hc.2.1, hc.1, hc.2.1⟩
  | user k c c' it hk hit _ _ =>
    simp only [List.mem_singleton, forall_eq]
    rw [hit.lambda]
    exact ⟨dbl_between hmin hmax hc.1 hc.2.1, hc.1, hc.2.1⟩
  | next k c c' it rest t hk hit hns _ ih =>
    have hc' := damping_limits_double hp hmin hmax hc hit.damping (fun hr hn => hns .maxLambda ⟨hr, hn⟩)
    rw [← hit.state.2] at hc'
    intro it' hit'
    rcases List.mem_cons.mp hit' with rfl | hm
    · rw [hit.lambda]
      exact ⟨dbl_between hmin hmax hc.1 hc.2.1, hc.1, hc.2.1⟩
    · exact ih hc' it' hm

/-- **C87** in binary64. Whatever the user code answers (NaN and infinities included): the penalties are positive, at least
`equality_penalty_initial` and never decrease, and stay `equality_penalty_initial` without equality constraints; every step
size is a finite double in `[0, 1]`, and not above its predecessor; at a success the merit is, as doubles, at most what it
was, its errors are finite and the slope of the merit is `≤ 0`; and every `lambda` is a finite double within the limits if
these are finite. -/
theorem C87_double {W : Type} (u : World W n D (Dbl L)) (env : Env n D (Dbl L)) (prm : NLSParams (Dbl L))
    (x0 : Fin n → Dbl L) (o o' : env.Obj) (w w' : W) (out : NLSOutputs (Dbl L)) (calls : List (NLSIteration (Dbl L)))
    (h : solveW u env prm x0 o w = (w', .ok (o', out, calls))) :
    (∀ it ∈ out.iterations, prm.equalityPenaltyInitial ≤ it.penalty ∧ 0 < it.penalty ∧
      (env.p.eqs = [] → it.penalty = prm.equalityPenaltyInitial)) ∧
    out.iterations.Pairwise (fun a b => a.penalty ≤ b.penalty) ∧
    (∀ it ∈ out.iterations, (∀ st ∈ it.lineSearchSteps, Dbl.Finite st.alpha ∧ 0 ≤ st.alpha ∧ st.alpha ≤ 1) ∧
      ∀ (j : Nat) st st', it.lineSearchSteps[j]? = some st → it.lineSearchSteps[j + 1]? = some st' →
        st'.alpha ≤ st.alpha) ∧
    (∀ it ∈ out.iterations, it.stepResult = .success → ∃ last, it.lineSearchSteps.getLast? = some last ∧
      last.errors.total it.penalty ≤ it.errorsInitial.total it.penalty ∧ Dbl.Finite last.errors.f ∧
      Dbl.Finite last.errors.equality ∧ it.directionalDerivatives.total it.penalty ≤ 0) ∧
    (Dbl.Finite prm.minLambda → Dbl.Finite prm.maxLambda → ∀ it ∈ out.iterations,
      Dbl.Finite it.lambda ∧ prm.minLambda ≤ it.lambda ∧ it.lambda ≤ prm.maxLambda) := by
  have hp : NLSParamsValid prm := by
    unfold solveW at h
    cases hc : NLS.checkParams prm with
    | error e => rw [hc] at h; cases h
    | ok _ => exact (checkParams_iff prm).mp (by rw [hc])
  have hl := (C87_log u env prm x0 o o' w w' out calls h).1
  obtain ⟨h1, h2⟩ := legal_double hp hl hp.equalityPenaltyInitial
  refine ⟨fun it hm => ?_, h2, fun it hm => ?_, fun it hm hs => ?_, fun hmin hmax => ?_⟩
  · obtain ⟨a, b, c, d⟩ := h1 it hm
    exact ⟨a, b, fun he => d (by simp [settingOf, he])⟩
  · obtain ⟨a, b⟩ := search_alphas_double hp (h1 it hm).2.2.1
    refine ⟨fun st hst => ?_, b⟩
    obtain ⟨j, hj⟩ := List.mem_iff_getElem?.mp hst
    exact a j st hj
  · exact accepted_merit_double hp (h1 it hm).2.2.1 hs
  · exact legal_lambda_double hp hmin hmax hl ⟨hp.lambdaInitial.1, hp.lambdaInitial.2, fun h => (by cases h)⟩

/-- **C44** in binary64. The logged penalties are positive doubles (possibly infinite, never NaN), at least
`equality_penalty_initial`, never decrease, and are constant without equality constraints. -/
theorem C44_double (env : Env n D (Dbl L)) (prm : NLSParams (Dbl L)) (x0 : Fin n → Dbl L) (o o' : env.Obj)
    (out : NLSOutputs (Dbl L)) (calls : List (NLSIteration (Dbl L))) (h : solve env prm x0 o = .ok (o', out, calls)) :
    (∀ it ∈ out.iterations, it.penalty ≠ F64.nan ∧ 0 < it.penalty ∧ prm.equalityPenaltyInitial ≤ it.penalty ∧
      (env.p.eqs = [] → it.penalty = prm.equalityPenaltyInitial)) ∧
    (∀ (i j : Nat) it it', i ≤ j → out.iterations[i]? = some it → out.iterations[j]? = some it' →
      it.penalty ≤ it'.penalty) := by
  obtain ⟨_, _, hw⟩ := C86_record env prm x0 o o' out calls h
  obtain ⟨h1, h2, -⟩ := C87_double _ env prm x0 o o' _ _ out calls hw
  have hn : ∀ it ∈ out.iterations, it.penalty ≠ F64.nan := fun it hm => (dbl_le_ne_nan (h1 it hm).1).2
  refine ⟨fun it hm => ⟨hn it hm, (h1 it hm).2.1, (h1 it hm).1, (h1 it hm).2.2⟩, fun i j it it' hij hit hit' => ?_⟩
  rcases Nat.lt_or_ge i j with hlt | hge
  · have hj := lt_of_getElem? hit'
    have := List.pairwise_iff_getElem.mp h2 i j (by omega) hj hlt
    rw [List.getElem?_eq_getElem (by omega)] at hit hit'
    rw [Option.some.inj hit, Option.some.inj hit'] at this
    exact this
  · have : i = j := by omega
    subst this
    rw [hit] at hit'
    cases hit'
    exact dbl_le_refl (hn it (List.mem_of_getElem? hit))

/-! ## NaN as a parameter -/

theorem dbl_nan_le {x y : Dbl L} (h : x ≤ y) : x ≠ F64.nan ∧ y ≠ F64.nan := dbl_le_ne_nan h
theorem dbl_nan_lt {x y : Dbl L} (h : x < y) : x ≠ F64.nan ∧ y ≠ F64.nan := dbl_le_ne_nan (dbl_le_of_lt h)

/-- **C52** in binary64. `Solve` throws an assertion, without evaluating anything, if any of the numeric parameters is NaN. -/
theorem C52_double (env : Env n D (Dbl L)) (prm : NLSParams (Dbl L)) (x0 : Fin n → Dbl L) (o : env.Obj)
    (h : ∃ v ∈ [prm.terminationKktTol, prm.absoluteExitTol, prm.relativeExitTol, prm.absoluteFirstDerivativeTol,
      prm.armijoSearchTau, prm.equalityPenaltyInitial, prm.equalityPenaltyScaleFactor, prm.equalityPenaltyRho,
      prm.lambdaInitial, prm.lambdaFailureInit, prm.lambdaDecreaseOnSuccess, prm.lambdaDecreaseOnRestore, prm.maxLambda,
      prm.minLambda], v = F64.nan) : ∃ tag, solve env prm x0 o = .error (.assertion tag, o) := by
  refine C52_rejected env prm x0 o fun hv => ?_
  obtain ⟨v, hm, e⟩ := h
  simp only [List.mem_cons, List.not_mem_nil, or_false] at hm
  rcases hm with rfl | rfl | rfl | rfl | rfl | rfl | rfl | rfl | rfl | rfl | rfl | rfl | rfl | rfl
  · exact (dbl_nan_lt hv.terminationKktTol).2 e
  · exact (dbl_nan_lt hv.absoluteExitTol).2 e
  · exact (dbl_nan_le hv.relativeExitTol.1).2 e
  · exact (dbl_nan_le hv.absoluteFirstDerivativeTol).2 e
  · exact (dbl_nan_lt hv.armijoSearchTau.1).2 e
  · exact (dbl_nan_le hv.equalityPenaltyInitial).2 e
  · exact (dbl_nan_le hv.equalityPenaltyScaleFactor).2 e
  · exact (dbl_nan_le hv.equalityPenaltyRho.1).2 e
  · exact (dbl_nan_le hv.lambdaInitial.1).2 e
  · exact (dbl_nan_le hv.lambdaFailureInit).2 e
  · exact (dbl_nan_le hv.lambdaDecreaseOnSuccess.1).2 e
  · exact (dbl_nan_le hv.lambdaDecreaseOnRestore.1).2 e
  · exact (dbl_nan_le hv.maxLambda).2 e
  · exact (dbl_nan_le hv.minLambda).1 e

/-- **C06** in binary64. The QP solver throws a parameter assertion if `initial_mu`, `sigma` or `termination_kkt_tol` is NaN.
A NaN `termination_complementarity_tol` is accepted, and then the solver never reports `SATISFIED_KKT_TOL`. -/
theorem C06_double {N M K : Nat} (E : Eigen N K (Dbl L)) (p : QP N M K (Dbl L)) (prm : QPParams (Dbl L))
    (st : IPState N M K (Dbl L)) :
    ((∃ v ∈ [prm.initialMu, prm.sigma, prm.terminationKktTol], v = F64.nan) →
      ∃ tag ∈ paramTags, IP.solve E p prm st = .error (.assertion tag, st)) ∧
    (prm.terminationComplementarityTol = F64.nan → ∀ r, IP.solve E p prm st = .ok r →
      r.2.termination = .maxIterations) := by
  refine ⟨fun h => (C06_params_validated E p prm st).1 fun hv => ?_, fun h r hr => ?_⟩
  · obtain ⟨v, hm, e⟩ := h
    simp only [List.mem_cons, List.not_mem_nil, or_false] at hm
    rcases hm with rfl | rfl | rfl
    · exact (dbl_nan_lt hv.1).2 e
    · exact (dbl_nan_lt hv.2.1).2 e
    · exact (dbl_nan_lt hv.2.2.2.1).2 e
  · cases ht : r.2.termination with
    | maxIterations => rfl
    | satisfiedKktTol =>
      obtain ⟨it, -, -, -, -, hc, -⟩ := C63_qp_exit E p prm st r hr ht
      exact absurd h (dbl_nan_lt hc).2

/-- The problem that is solved with the default tolerances, solved with a NaN tolerance. -/
example : ∃ r, IP.solve DemoF64.inv1 DemoF64.qp1 { DemoF64.qpPrm 4 .complementarity with
      terminationComplementarityTol := F64.nan } (IP.setupState (DemoF64.zero1 1)) = .ok r ∧
    r.2.termination = .maxIterations := by
  have h : (match IP.solve DemoF64.inv1 DemoF64.qp1 { DemoF64.qpPrm 4 .complementarity with
      terminationComplementarityTol := F64.nan } (IP.setupState (DemoF64.zero1 1)) with
    | .ok _ => true
    | .error _ => false) = true := by decide +kernel
  split at h
  · rename_i r hr
    exact ⟨r, hr, (C06_double _ _ _ _).2 rfl r hr⟩
  · cases h

end MiniOpt.Props
