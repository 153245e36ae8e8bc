import Verif.Props.Doubles

/-!
# C43, C63 in binary64
-/

set_option autoImplicit false

namespace MiniOpt.Props

open MiniOpt.Spec MiniOpt.NLS MiniOpt.F64

variable {L : Libm} {n D : Nat}

theorem dbl_cmax_right {x y : Dbl L} (hx : x ≠ F64.nan) (hy : y ≠ F64.nan) : y ≤ cmax x y := by
  unfold cmax
  split_ifs with h
  · exact dbl_le_refl hy
  · exact dbl_not_lt hx hy h

theorem dbl_cmax_left {x y : Dbl L} (hx : x ≠ F64.nan) : x ≤ cmax x y := by
  unfold cmax
  split_ifs with h
  · exact dbl_le_of_lt h
  · exact dbl_le_refl hx

theorem dbl_cmax_le {x y z : Dbl L} (hx : x ≤ z) (hy : y ≤ z) : cmax x y ≤ z := by
  unfold cmax
  split_ifs
  · exact hy
  · exact hx

theorem dbl_between {x lo hi : Dbl L} (hlo : Dbl.Finite lo) (hhi : Dbl.Finite hi) (h1 : lo ≤ x) (h2 : x ≤ hi) :
    Dbl.Finite x := by
  obtain ⟨s, a, rfl⟩ := F64.isFinite_iff.mp hlo
  obtain ⟨t, b, rfl⟩ := F64.isFinite_iff.mp hhi
  exact F64.isFinite_iff.mpr (F64.finite_between h1 h2)

theorem dbl_mul_ne_nan {x y : Dbl L} (hx : Dbl.Finite x) (hy : Dbl.Finite y) : x * y ≠ F64.nan := by
  obtain ⟨s, a, rfl⟩ := F64.isFinite_iff.mp hx
  obtain ⟨t, b, rfl⟩ := F64.isFinite_iff.mp hy
  exact F64.mul_fin_ne_nan _ _ _ _

theorem dbl_mul_nonneg {x y : Dbl L} (hx : 0 ≤ x) (hy : 0 ≤ y) (h : x * y ≠ F64.nan) : 0 ≤ x * y :=
  F64.mul_nonneg' hx hy h

theorem dbl_mul_nonpos {x y : Dbl L} (hx : x ≤ 0) (hy : 0 ≤ y) (h : x * y ≠ F64.nan) : x * y ≤ 0 :=
  F64.mul_nonpos_nonneg hx hy h

theorem dbl_mul_le_self {x t : Dbl L} (hf : Dbl.Finite x) (hx : 0 ≤ x) (h0 : 0 ≤ t) (h1 : t ≤ 1) : x * t ≤ x := by
  obtain ⟨s, a, rfl⟩ := F64.isFinite_iff.mp hf
  exact F64.mul_le_self (F64.zero_le_fin.mp hx) h0 (dbl_one (L := L) ▸ h1)

theorem dbl_le_mul_self {x t : Dbl L} (hx : 0 ≤ x) (h1 : 1 ≤ t) (h : x * t ≠ F64.nan) : x ≤ x * t :=
  F64.le_mul_self hx (dbl_one (L := L) ▸ h1) h

theorem dbl_total {x y : Dbl L} (hx : x ≠ F64.nan) (hy : y ≠ F64.nan) : x ≤ y ∨ y ≤ x := by
  by_cases h : x ≤ y
  · exact Or.inl h
  · exact Or.inr (dbl_le_of_lt (dbl_not_le hx hy h))

theorem dbl_ten : Dbl.Finite (Scalar.lit 10 : Dbl L) ∧ (1 : Dbl L) ≤ Scalar.lit 10 := by
  constructor
  · show F64.isFinite (F64.round false 10) = true; decide +kernel
  · show F64.le (F64.round false 1) (F64.round false 10) = true; decide +kernel

/-- **C43** (limits) in binary64. If `min_lambda` and `max_lambda` are finite, every `lambda` used is a finite double
in `[min_lambda, max_lambda]`, a success never raises a nonnegative `lambda`, a line-search failure never lowers it. -/
theorem C43_double (env : Env n D (Dbl L)) (prm : NLSParams (Dbl L)) (x0 : Fin n → Dbl L) (o o' : env.Obj)
    (out : NLSOutputs (Dbl L)) (calls : List (NLSIteration (Dbl L))) (h : solve env prm x0 o = .ok (o', out, calls))
    (hmin : Dbl.Finite prm.minLambda) (hmax : Dbl.Finite prm.maxLambda) :
    (∀ it ∈ out.iterations, Dbl.Finite it.lambda ∧ prm.minLambda ≤ it.lambda ∧ it.lambda ≤ prm.maxLambda) ∧
    ∀ (k : Nat) it it', out.iterations[k]? = some it → out.iterations[k + 1]? = some it' →
      (it.stepResult = .success → 0 ≤ it.lambda → it'.lambda ≤ it.lambda) ∧
      (it.stepResult = .maxIterations ∨ it.stepResult = .positiveDerivative → it.lambda ≤ it'.lambda) := by
  obtain ⟨hfirst, hstep⟩ := C43_state_machine env prm x0 o o' out calls h
  obtain ⟨S, T, W, hv⟩ := solve_view h
  have hv' := hv.prmOk
  have hlf := (dbl_le_ne_nan hv'.lambdaFailureInit).2
  -- the raised value is a number and not below the old one
  have hraise : ∀ before (lam : Dbl L), Dbl.Finite lam → (before = OptimizerState.attemptingRestoreLM → 0 ≤ lam) →
      lam ≤ raisedLambda prm before lam ∧ 0 ≤ raisedLambda prm before lam := by
    intro before lam hf h0
    have hmul := dbl_mul_ne_nan hf (dbl_ten (L := L)).1
    have hten : (0 : Dbl L) ≤ Scalar.lit 10 := dbl_le_trans dbl_zero_le_one dbl_ten.2
    unfold raisedLambda
    cases before with
    | nominal =>
      have h2 := dbl_cmax_right hlf hmul
      have h3 : prm.lambdaFailureInit ≤ cmax prm.lambdaFailureInit (lam * Scalar.lit 10) := dbl_cmax_left hlf
      refine ⟨?_, dbl_le_trans hv'.lambdaFailureInit h3⟩
      rcases dbl_total dbl_zero_ne_nan (finite_ne_nan hf) with hl | hl
      · exact dbl_le_trans (dbl_le_mul_self hl dbl_ten.2 hmul) h2
      · exact dbl_le_trans hl (dbl_le_trans hv'.lambdaFailureInit h3)
    | attemptingRestoreLM =>
      have h1 := h0 rfl
      exact ⟨dbl_le_mul_self h1 dbl_ten.2 hmul, dbl_mul_nonneg h1 hten hmul⟩
  have hdecf : ∀ dec : Dbl L, 0 ≤ dec ∧ dec < 1 → Dbl.Finite dec := by
    intro dec hd
    refine dbl_between (lo := 0) (hi := 1) rfl (by rw [dbl_one]; rfl) hd.1 (dbl_le_of_lt hd.2)
  have hinv : ∀ (k : Nat) it, out.iterations[k]? = some it → Dbl.Finite it.lambda ∧ prm.minLambda ≤ it.lambda ∧
      it.lambda ≤ prm.maxLambda ∧ (stateBefore out.iterations k = .attemptingRestoreLM → 0 ≤ it.lambda) := by
    intro k
    induction k with
    | zero =>
      intro it hit
      rw [hfirst it hit]
      exact ⟨dbl_between hmin hmax hv'.lambdaInitial.1 hv'.lambdaInitial.2, hv'.lambdaInitial.1, hv'.lambdaInitial.2,
        fun hs => by simp [stateBefore] at hs⟩
    | succ k ih =>
      intro it' hit'
      have hk := lt_of_getElem? hit'
      obtain ⟨it, hit⟩ : ∃ it, out.iterations[k]? = some it := ⟨_, List.getElem?_eq_getElem (by omega)⟩
      obtain ⟨hf, h1, h2, h3⟩ := ih it hit
      have hs := hstep k it hit
      simp only at hs
      have hnext : out.iterations[k + 1]?.map (·.lambda) = some it'.lambda := by rw [hit']; rfl
      have hbef : stateBefore out.iterations (k + 1) = it.optimizerState := by
        simp [stateBefore, hit]
      rw [hbef]
      have hup : ∀ hres : it'.lambda = raisedLambda prm (stateBefore out.iterations k) it.lambda ∧
          ¬ prm.maxLambda < it'.lambda, Dbl.Finite it'.lambda ∧ prm.minLambda ≤ it'.lambda ∧
          it'.lambda ≤ prm.maxLambda ∧ 0 ≤ it'.lambda := by
        rintro ⟨e, hle⟩
        obtain ⟨r1, r2⟩ := hraise _ it.lambda hf h3
        rw [← e] at r1 r2
        have hn := (dbl_le_ne_nan r2).2
        have hmx := dbl_not_lt (finite_ne_nan hmax) hn hle
        have hmn := dbl_le_trans h1 r1
        exact ⟨dbl_between hmin hmax hmn hmx, hmn, hmx, r2⟩
      cases hr : it.stepResult with
      | success =>
        rw [hr] at hs
        simp only at hs
        have e := hs.2 _ hnext
        rw [hs.1]
        have hdec : ∀ dec : Dbl L, 0 ≤ dec ∧ dec < 1 → it'.lambda = cmax (it.lambda * dec) prm.minLambda →
            prm.minLambda ≤ it'.lambda ∧ it'.lambda ≤ prm.maxLambda := by
          intro dec hd e
          have hmul := dbl_mul_ne_nan hf (hdecf dec hd)
          rw [e]
          refine ⟨dbl_cmax_right hmul (finite_ne_nan hmin), dbl_cmax_le ?_ hv'.minLambda⟩
          rcases dbl_total dbl_zero_ne_nan (finite_ne_nan hf) with hl | hl
          · exact dbl_le_trans (dbl_mul_le_self hf hl hd.1 (dbl_le_of_lt hd.2)) h2
          · exact dbl_le_trans (dbl_mul_nonpos hl hd.1 hmul) hv'.maxLambda
        have hb2 := by
          cases hb : stateBefore out.iterations k with
          | nominal => rw [hb] at e; exact hdec _ hv'.lambdaDecreaseOnSuccess e
          | attemptingRestoreLM => rw [hb] at e; exact hdec _ hv'.lambdaDecreaseOnRestore e
        exact ⟨dbl_between hmin hmax hb2.1 hb2.2, hb2.1, hb2.2, fun hh => by cases hh⟩
      | maxIterations =>
        rw [hr] at hs
        simp only at hs
        have := hup (hs.2 _ hnext)
        exact ⟨this.1, this.2.1, this.2.2.1, fun _ => this.2.2.2⟩
      | positiveDerivative =>
        rw [hr] at hs
        simp only at hs
        have := hup (hs.2 _ hnext)
        exact ⟨this.1, this.2.1, this.2.2.1, fun _ => this.2.2.2⟩
      | firstOrderSatisfied =>
        rw [hr] at hs
        simp only at hs
        rw [hnext] at hs
        exact absurd hs.2 (by simp)
      | failureNonFiniteCost =>
        rw [hr] at hs
        simp only at hs
        rw [hs.2 _ hnext, hs.1]
        exact ⟨hf, h1, h2, h3⟩
      | failureInvalidAlpha =>
        rw [hr] at hs
        simp only at hs
        rw [hs.2 _ hnext, hs.1]
        exact ⟨hf, h1, h2, h3⟩
  refine ⟨?_, ?_⟩
  · intro it hit
    obtain ⟨k, hk⟩ := List.mem_iff_getElem?.mp hit
    obtain ⟨a, b, c, _⟩ := hinv k it hk
    exact ⟨a, b, c⟩
  · intro k it it' hit hit'
    have hnext : out.iterations[k + 1]?.map (·.lambda) = some it'.lambda := by rw [hit']; rfl
    have hs := hstep k it hit
    simp only at hs
    obtain ⟨hf, h1, h2, h3⟩ := hinv k it hit
    constructor
    · intro hr hl
      rw [hr] at hs
      simp only at hs
      rw [hs.2 _ hnext]
      refine dbl_cmax_le ?_ h1
      cases stateBefore out.iterations k with
      | nominal => exact dbl_mul_le_self hf hl hv'.lambdaDecreaseOnSuccess.1 (dbl_le_of_lt hv'.lambdaDecreaseOnSuccess.2)
      | attemptingRestoreLM =>
        exact dbl_mul_le_self hf hl hv'.lambdaDecreaseOnRestore.1 (dbl_le_of_lt hv'.lambdaDecreaseOnRestore.2)
    · intro hr
      have e : it'.lambda = raisedLambda prm (stateBefore out.iterations k) it.lambda := by
        rcases hr with hr | hr <;> rw [hr] at hs <;> exact (hs.2 _ hnext).1
      rw [e]
      exact (hraise _ it.lambda hf h3).1

/-- Non-vacuity: the default parameters have finite limits, and there is a run with several iterations. -/
example : Dbl.Finite (DemoF64.prm 20).minLambda ∧ Dbl.Finite (DemoF64.prm 20).maxLambda ∧
    ∃ o' out calls, solve (DemoF64.env1 DemoF64.sqrt2) (DemoF64.prm 20) (fun _ => DemoF64.d 5)
      (DemoF64.obj1 DemoF64.sqrt2) = .ok (o', out, calls) := by
  obtain ⟨o', out, calls, h, _, hr⟩ := DemoF64.summary_run DemoF64.run_sqrt2
  exact ⟨by decide +kernel, by decide +kernel, o', out, calls, h⟩

/-! ## C63 -/

theorem dbl_cmax_lt {x y t : Dbl L} (h : cmax x y < t) : x < t ∧ (y < t ∨ y = F64.nan) := by
  unfold cmax at h
  split_ifs at h with hxy
  · exact ⟨F64.lt_of_le_of_lt (F64.le_of_lt hxy) h, Or.inl h⟩
  · refine ⟨h, ?_⟩
    by_cases hy : y = F64.nan
    · exact Or.inr hy
    · exact Or.inl (F64.lt_of_le_of_lt (dbl_not_lt (F64.lt_ne_nan h).1 hy hxy) h)

/-- **C63** (QP). If the interior point solver reports `SATISFIED_KKT_TOL`, the logged dual residual norm is a number
below the tolerance, and every other logged norm is below the tolerance *or NaN*; the average complementarity is a
number below its tolerance. -/
theorem C63_qp_exit {N M K : Nat} (E : Eigen N K (Dbl L)) (p : QP N M K (Dbl L)) (prm : QPParams (Dbl L))
    (st : IPState N M K (Dbl L)) (r : IPState N M K (Dbl L) × QPOutputs (Dbl L)) (h : IP.solve E p prm st = .ok r)
    (hT : r.2.termination = .satisfiedKktTol) :
    ∃ it, r.2.iterations.getLast? = some it ∧
      it.kktFinal.rDual ≠ F64.nan ∧ it.kktFinal.rDual < prm.terminationKktTol ∧
      (∀ e ∈ [it.kktFinal.rComp, it.kktFinal.rPrimalEq, it.kktFinal.rPrimalIneq],
        e < prm.terminationKktTol ∨ e = F64.nan) ∧
      (if 0 < M then dot r.1.v.s r.1.v.z / Scalar.lit M else 0) < prm.terminationComplementarityTol ∧
      (if 0 < M then dot r.1.v.s r.1.v.z / Scalar.lit M else 0) ≠ F64.nan := by
  obtain ⟨it, hit, hx, hc⟩ := (C13_iteration_count E p prm st r h).2.2.2 hT
  refine ⟨it, hit, ?_⟩
  unfold KKTError.max at hx
  obtain ⟨h1, h4⟩ := dbl_cmax_lt hx
  obtain ⟨h2, h3⟩ := dbl_cmax_lt h1
  obtain ⟨h5, h6⟩ := dbl_cmax_lt h2
  refine ⟨(F64.lt_ne_nan h5).1, h5, ?_, hc, (F64.lt_ne_nan hc).1⟩
  intro e he
  simp only [List.mem_cons, List.not_mem_nil, or_false] at he
  rcases he with rfl | rfl | rfl
  · exact h6
  · exact h3
  · exact h4

/-- Non-vacuity: a bound-constrained problem solved to the default tolerances in binary64. -/
example : ∃ r, IP.solve DemoF64.inv1 DemoF64.qp1 (DemoF64.qpPrm 10 .complementarity)
    (IP.setupState (DemoF64.zero1 1)) = .ok r ∧ r.2.termination = .satisfiedKktTol := DemoF64.qp_run

/-- **C63** (NLS). An iteration is reported as `SUCCESS` only if both errors at the accepted point are finite doubles;
and an exit by absolute tolerance means that both are below it. -/
theorem C63_nls_success (env : Env n D (Dbl L)) (prm : NLSParams (Dbl L)) (x0 : Fin n → Dbl L)
    (o o' : env.Obj) (out : NLSOutputs (Dbl L)) (calls : List (NLSIteration (Dbl L)))
    (h : solve env prm x0 o = .ok (o', out, calls)) (it : NLSIteration (Dbl L)) (hit : it ∈ out.iterations)
    (hs : it.stepResult = .success) :
    ∃ st, it.lineSearchSteps.getLast? = some st ∧ Dbl.Finite st.errors.f ∧ Dbl.Finite st.errors.equality ∧
      ∀ tol : Dbl L, st.errors.lInfinity < tol → st.errors.f < tol ∧ st.errors.equality < tol := by
  obtain ⟨_, hiff⟩ := C40_only_last_accepted env prm x0 o o' out calls h it hit
  obtain ⟨st, hst, hval, -⟩ := hiff.mp hs
  have h1 : Dbl.Finite st.errors.f := by by_contra hc; exact hval (Or.inl hc)
  have h2 : Dbl.Finite st.errors.equality := by by_contra hc; exact hval (Or.inr hc)
  refine ⟨st, hst, h1, h2, fun tol ht => ?_⟩
  obtain ⟨a, b⟩ := dbl_cmax_lt ht
  exact ⟨a, b.resolve_right (finite_ne_nan h2)⟩

/-- **C63** (witness). `Max()` of a `KKTError` ignores a NaN in any slot but the first: here complementarity and both
primal residuals are NaN, and the test passes for every positive tolerance. In the first slot a NaN blocks the test for
every tolerance. The two-element maxima behave the same way. -/
theorem C63_max_masks_nan :
    (∀ tol : Dbl L, 0 < tol → (⟨0, F64.nan, F64.nan, F64.nan⟩ : KKTError (Dbl L)).max < tol) ∧
    (∀ (e : KKTError (Dbl L)) (tol : Dbl L), e.rDual = F64.nan → ¬ e.max < tol) ∧
    (∀ tol : Dbl L, 0 < tol → (⟨0, F64.nan⟩ : Errors (Dbl L)).lInfinity < tol) := by
  have hm : ∀ x : Dbl L, cmax x F64.nan = x := by
    intro x
    exact if_neg fun h => Bool.eq_false_iff.mp (F64.lt_nan_right x) h
  have hm2 : ∀ x : Dbl L, cmax (toDbl L F64.nan) x = toDbl L F64.nan := by
    intro x
    exact if_neg fun h => Bool.eq_false_iff.mp (F64.lt_nan_left x) h
  refine ⟨fun tol ht => ?_, fun e tol he ht => ?_, fun tol ht => ?_⟩
  · unfold KKTError.max
    rw [hm, hm, hm]; exact ht
  · unfold KKTError.max at ht
    rw [he.trans (show F64.nan = toDbl L F64.nan from rfl), hm2, hm2, hm2] at ht
    exact Bool.eq_false_iff.mp (F64.lt_nan_left tol) ht
  · unfold Errors.lInfinity
    rw [hm]; exact ht

end MiniOpt.Props
