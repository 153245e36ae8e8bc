import Verif.Props.DoublesMore
import Verif.Spec.DoubleSpec

/-!
# C76, C77, C78 in binary64

Accepted steps, consecutive failures and the number of iterations are bounded in double arithmetic.
-/

set_option autoImplicit false

namespace MiniOpt.Props

open MiniOpt.Spec MiniOpt.NLS MiniOpt.F64

variable {L : Libm} {n D : Nat}

/-! ## Doubles as rational numbers -/

theorem toRat_fin {s : Bool} {m : Mag} : Dbl.toRat (toDbl L (.fin s m)) = value s m := rfl

theorem toRat_le {x y : Dbl L} (hx : Dbl.Finite x) (hy : Dbl.Finite y) (h : x ≤ y) : x.toRat ≤ y.toRat := by
  obtain ⟨s, a, rfl⟩ := F64.isFinite_iff.mp hx
  obtain ⟨t, b, rfl⟩ := F64.isFinite_iff.mp hy
  exact F64.le_antisymm_fin h

theorem toRat_lt_max {x : Dbl L} (hx : Dbl.Finite x) : x.toRat < pow2 1024 := by
  obtain ⟨s, a, rfl⟩ := F64.isFinite_iff.mp hx
  show value s a < _
  have h := a.2.2
  have h0 := mag_nonneg a
  cases s
  · exact h
  · show -a.1 < _
    linarith [pow2_pos 1024]

theorem toRat_zero : (0 : Dbl L).toRat = 0 := rfl

theorem toRat_one : (1 : Dbl L).toRat = 1 := by rw [dbl_one]; rfl

theorem toRat_pos {x : Dbl L} (hx : Dbl.Finite x) (h : 0 < x) : pow2 (-1074) ≤ x.toRat := by
  obtain ⟨s, a, rfl⟩ := F64.isFinite_iff.mp hx
  have h1 : 0 < value s a := F64.zero_lt_fin.mp h
  obtain ⟨k, hk⟩ := value_grid s a
  have h2 := grid_abs (k := k) (by rw [← hk]; exact h1.ne')
  rw [← hk, abs_of_pos h1] at h2
  exact h2

theorem toRat_nonneg {x : Dbl L} (hx : Dbl.Finite x) (h : 0 ≤ x) : 0 ≤ x.toRat := by
  have := toRat_le (x := (0 : Dbl L)) rfl hx h
  rwa [toRat_zero] at this

/-- A product of nonnegative finite doubles that does not overflow is the rounded product. -/
theorem toRat_mul {x y : Dbl L} (hx : Dbl.Finite x) (hy : Dbl.Finite y) (hx0 : 0 ≤ x) (hy0 : 0 ≤ y)
    (hf : Dbl.Finite (x * y)) : (x * y).toRat = roundMag (x.toRat * y.toRat) := by
  obtain ⟨s, a, rfl⟩ := F64.isFinite_iff.mp hx
  obtain ⟨t, b, rfl⟩ := F64.isFinite_iff.mp hy
  have h1 : 0 ≤ value s a := F64.zero_le_fin.mp hx0
  have h2 : 0 ≤ value t b := F64.zero_le_fin.mp hy0
  have e : F64.mul (.fin s a) (.fin t b) = F64.mk (s != t) (a.1 * b.1) := rfl
  obtain ⟨u, m, hm⟩ := F64.isFinite_iff.mp hf
  have hm' : F64.mk (s != t) (a.1 * b.1) = .fin u m := e.symm.trans hm
  obtain ⟨hu, -, hr⟩ := F64.mk_fin hm'
  have key : (toDbl L (.fin u m)).toRat = roundMag (value s a * value t b) := by
    rw [toRat_fin]
    have ha := mag_nonneg a
    have hb := mag_nonneg b
    cases s <;> cases t
    · subst hu; exact hr
    · have hb0 : b.1 = 0 := by have : 0 ≤ -b.1 := h2; linarith
      rw [hb0, mul_zero, roundMag_zero] at hr
      show value u m = roundMag (a.1 * -b.1)
      rw [hb0, neg_zero, mul_zero, roundMag_zero]
      unfold value; rw [hr]; split_ifs <;> simp
    · have ha0 : a.1 = 0 := by have : 0 ≤ -a.1 := h1; linarith
      rw [ha0, zero_mul, roundMag_zero] at hr
      show value u m = roundMag (-a.1 * b.1)
      rw [ha0, neg_zero, zero_mul, roundMag_zero]
      unfold value; rw [hr]; split_ifs <;> simp
    · subst hu
      show m.1 = roundMag (-a.1 * -b.1)
      rw [neg_mul_neg]; exact hr
  exact (congrArg (Dbl.toRat (L := L)) hm).trans key

theorem toRat_rep {x : Dbl L} (hx : Dbl.Finite x) (h : 0 ≤ x) :
    ∃ (m : Nat) (e : Int), m < 2 ^ 53 ∧ -1074 ≤ e ∧ x.toRat = m * pow2 e := by
  obtain ⟨s, a, rfl⟩ := F64.isFinite_iff.mp hx
  have h1 : 0 ≤ value s a := F64.zero_le_fin.mp h
  cases s
  · exact a.2.1
  · refine ⟨0, 0, by norm_num, by norm_num, ?_⟩
    have ha := mag_nonneg a
    have h2 : 0 ≤ -a.1 := h1
    show -a.1 = _
    rw [show a.1 = 0 by linarith]; simp

theorem toRat_ten : (Scalar.lit 10 : Dbl L).toRat = 10 := by
  have key : ∀ y : F64, Dbl.toRat (L := L) y = Dbl.toRat (L := DemoF64.seqL) y := fun y => by cases y <;> rfl
  have h : Dbl.toRat (L := DemoF64.seqL) (F64.round false 10) = 10 := by decide +kernel
  exact (key _).trans h

/-- Ten times a double is at least eight times the double. -/
theorem ten_times {x : Dbl L} (hx : Dbl.Finite x) (h0 : 0 ≤ x) (hf : Dbl.Finite (x * Scalar.lit 10)) :
    8 * x.toRat ≤ (x * Scalar.lit 10).toRat := by
  have hten : (0 : Dbl L) ≤ Scalar.lit 10 := dbl_le_trans dbl_zero_le_one dbl_ten.2
  rw [toRat_mul hx dbl_ten.1 h0 hten hf, toRat_ten]
  have hx0 := toRat_nonneg hx h0
  obtain ⟨m, e, hm, he, hr⟩ := toRat_rep hx h0
  have h8 : roundMag (8 * x.toRat) = 8 * x.toRat := by
    apply roundMag_id
    refine ⟨m, e + 3, hm, by omega, ?_⟩
    rw [hr, pow2_add, show pow2 3 = 8 by decide +kernel]; ring
  rw [← h8]
  exact roundMag_mono (by linarith) (by linarith)

/-! ## Consecutive failures -/

/-- The controls before and after every iteration of a legal log. -/
theorem legal_controls {α : Type} [Scalar α] {prm : NLSParams α} {set : Setting} {k : Nat} {c : Control α}
    {log : List (NLSIteration α)} {t : NLSTermination} (h : LegalLog prm set k c log t) :
    ∃ C : Nat → Control α, C 0 = c ∧ ∀ (j : Nat) it, log[j]? = some it →
      IterationOk prm set (k + j) (C j) it (C (j + 1)) ∧
      (j + 1 < log.length → ∀ t, ¬ Stops prm it (C (j + 1)).lambda t) := by
  induction h with
  | limit k c hk => exact ⟨fun _ => c, rfl, fun j it hj => by simp at hj⟩
  | indefinite k c hk _ _ => exact ⟨fun _ => c, rfl, fun j it hj => by simp at hj⟩
  | stop k c c' it t hk hit hst =>
    refine ⟨fun j => if j = 0 then c else c', rfl, fun j it' hj => ?_⟩
    have := lt_of_getElem? hj
    have h0 : j = 0 := by simp at this; omega
    subst h0
    simp only [List.getElem?_cons_zero, Option.some.injEq] at hj
    subst hj
    exact ⟨hit, fun h => by simp at h⟩
  | user k c c' it hk hit _ _ =>
    refine ⟨fun j => if j = 0 then c else c', rfl, fun j it' hj => ?_⟩
    have := lt_of_getElem? hj
    have h0 : j = 0 := by simp at this; omega
    subst h0
    simp only [List.getElem?_cons_zero, Option.some.injEq] at hj
    subst hj
    exact ⟨hit, fun h => by simp at h⟩
  | next k c c' it rest t hk hit hns _ ih =>
    obtain ⟨C, h0, hC⟩ := ih
    refine ⟨fun j => match j with | 0 => c | j + 1 => C j, rfl, fun j it' hj => ?_⟩
    cases j with
    | zero =>
      simp only [List.getElem?_cons_zero, Option.some.injEq] at hj
      subst hj
      simp only [h0]
      exact ⟨hit, fun _ => hns⟩
    | succ j =>
      simp only [List.getElem?_cons_succ] at hj
      obtain ⟨h1, h2⟩ := hC j it' hj
      rw [show k + (j + 1) = k + 1 + j by omega]
      exact ⟨h1, fun hl => h2 (by simp at hl; omega)⟩

/-- A logged iteration whose line search found no acceptable step. -/
def NoStep (it : NLSIteration (Dbl L)) : Prop := it.stepResult = .maxIterations ∨ it.stepResult = .positiveDerivative

/-- Consecutive failures in a legal log. -/
theorem legal_failures {prm : NLSParams (Dbl L)} (hp : NLSParamsValid prm) (hmin : Dbl.Finite prm.minLambda)
    (hmax : Dbl.Finite prm.maxLambda) {set : Setting} {c : Control (Dbl L)} {log : List (NLSIteration (Dbl L))}
    {t : NLSTermination} (h : LegalLog prm set 0 c log t)
    (hc : prm.minLambda ≤ c.lambda ∧ c.lambda ≤ prm.maxLambda ∧ c.state = .nominal)
    (hlf : Dbl.Finite prm.lambdaFailureInit) (k r : Nat) (next : NLSIteration (Dbl L))
    (hfail : ∀ (j : Nat) it, j ≤ r → log[k + j]? = some it → NoStep it) (hnext : log[k + r + 1]? = some next) :
    prm.lambdaFailureInit.toRat * 8 ^ r ≤ next.lambda.toRat := by
  obtain ⟨C, h0, hC⟩ := legal_controls h
  have hinv : ∀ (j : Nat), j < log.length → prm.minLambda ≤ (C j).lambda ∧ (C j).lambda ≤ prm.maxLambda ∧
      ((C j).state = .attemptingRestoreLM → 0 ≤ (C j).lambda ∧ prm.lambdaFailureInit ≤ (C j).lambda) := by
    intro j
    induction j with
    | zero =>
      intro _
      rw [h0]
      exact ⟨hc.1, hc.2.1, fun hs => (by rw [hc.2.2] at hs; cases hs)⟩
    | succ j ih =>
      intro hj
      obtain ⟨i1, i2, i3⟩ := ih (by omega)
      obtain ⟨it, hit⟩ : ∃ it, log[j]? = some it := ⟨_, List.getElem?_eq_getElem (by omega)⟩
      obtain ⟨hok, hns⟩ := hC j it hit
      have hns := hns (by omega)
      obtain ⟨d1, d2, d3⟩ := damping_limits_double hp hmin hmax ⟨i1, i2, fun hs => (i3 hs).1⟩ hok.damping
        (fun hr hn => hns .maxLambda ⟨hr, hn⟩)
      rw [← hok.state.2] at d3
      refine ⟨d1, d2, fun hs => ⟨d3 hs, ?_⟩⟩
      have hst := hok.state.2
      have hda := hok.damping
      have hfin := dbl_between hmin hmax i1 i2
      have hlt : ∀ hr : it.stepResult = .maxIterations ∨ it.stepResult = .positiveDerivative,
          prm.lambdaFailureInit ≤ (C (j + 1)).lambda := by
        intro hr
        have e : (C (j + 1)).lambda = raisedLambda prm (C j).state (C j).lambda := by
          rw [hda]
          rcases hr with hr | hr <;> rw [hr] <;> cases hs : (C j).state <;> simp [lambdaAfter, raisedLambda, hs]
        rw [e]
        cases hs : (C j).state with
        | nominal => exact dbl_cmax_left (dbl_le_ne_nan hp.lambdaFailureInit).2
        | attemptingRestoreLM =>
          have := (raised_lambda_double hp (C j).state hfin (fun hs => (i3 hs).1)).1
          rw [hs] at this
          exact dbl_le_trans (i3 hs).2 this
      cases hr : it.stepResult with
      | success => rw [hr] at hst; simp only [stateAfter] at hst; rw [hst] at hs; cases hs
      | maxIterations => exact hlt (.inl hr)
      | positiveDerivative => exact hlt (.inr hr)
      | firstOrderSatisfied =>
        rw [hr] at hst hda; simp only [stateAfter, lambdaAfter] at hst hda
        rw [hda]; exact (i3 (hst ▸ hs)).2
      | failureNonFiniteCost =>
        rw [hr] at hst hda; simp only [stateAfter, lambdaAfter] at hst hda
        rw [hda]; exact (i3 (hst ▸ hs)).2
      | failureInvalidAlpha =>
        rw [hr] at hst hda; simp only [stateAfter, lambdaAfter] at hst hda
        rw [hda]; exact (i3 (hst ▸ hs)).2
  have hlen := lt_of_getElem? hnext
  have hmain : ∀ r, k + r + 1 < log.length → (∀ (j : Nat) it, j ≤ r → log[k + j]? = some it → NoStep it) →
      prm.lambdaFailureInit.toRat * 8 ^ r ≤ (C (k + r + 1)).lambda.toRat ∧
      (C (k + r + 1)).state = .attemptingRestoreLM := by
    intro r
    induction r with
    | zero =>
      intro hl hf
      obtain ⟨it, hit⟩ : ∃ it, log[k]? = some it := ⟨_, List.getElem?_eq_getElem (by omega)⟩
      have hst : (C (k + 1)).state = .attemptingRestoreLM := by
        rw [(hC k it hit).1.state.2]
        rcases hf 0 it le_rfl hit with hr | hr <;> rw [hr] <;> rfl
      obtain ⟨d1, d2, d3⟩ := hinv (k + 1) (by omega)
      refine ⟨?_, hst⟩
      rw [pow_zero, mul_one]
      exact toRat_le hlf (dbl_between hmin hmax d1 d2) (d3 hst).2
    | succ r ih =>
      intro hl hf
      obtain ⟨h1, h2⟩ := ih (by omega) (fun j it hj => hf j it (by omega))
      obtain ⟨it, hit⟩ : ∃ it, log[k + (r + 1)]? = some it := ⟨_, List.getElem?_eq_getElem (by omega)⟩
      obtain ⟨hok, -⟩ := hC _ it hit
      have hr := hf (r + 1) it le_rfl hit
      have hst : (C (k + (r + 1) + 1)).state = .attemptingRestoreLM := by
        rw [hok.state.2]
        rcases hr with hr | hr <;> rw [hr] <;> rfl
      refine ⟨?_, hst⟩
      obtain ⟨d1, d2, d3⟩ := hinv (k + r + 1) (by omega)
      obtain ⟨e1, e2, e3⟩ := hinv (k + (r + 1) + 1) (by omega)
      have e : (C (k + (r + 1) + 1)).lambda = (C (k + r + 1)).lambda * Scalar.lit 10 := by
        rw [hok.damping]
        have h2' : (C (k + (r + 1))).state = .attemptingRestoreLM := h2
        rcases hr with hr | hr <;> rw [hr] <;> simp only [lambdaAfter, h2'] <;> rfl
      have hf2 := dbl_between hmin hmax e1 e2
      rw [e] at hf2 ⊢
      have := ten_times (dbl_between hmin hmax d1 d2) (d3 h2).1 hf2
      rw [pow_succ]
      linarith
  obtain ⟨hm, -⟩ := hmain r hlen hfail
  rw [(hC _ next hnext).1.lambda]
  exact hm

/-- **C77** in binary64, whatever the user code answers. Of `r + 1` consecutive failed iterations after which the solve goes
on, the damping afterwards is at least `lambda_failure_init * 8^r`. So with `lambda_failure_init > 0` and finite limits there
are never more than 700 failures in a row before the solver reports `MAX_LAMBDA`. -/
theorem C77_double {W : Type} (u : World W n D (Dbl L)) (env : Env n D (Dbl L)) (prm : NLSParams (Dbl L))
    (x0 : Fin n → Dbl L) (o o' : env.Obj) (w w' : W) (out : NLSOutputs (Dbl L)) (calls : List (NLSIteration (Dbl L)))
    (h : solveW u env prm x0 o w = (w', .ok (o', out, calls)))
    (hmin : Dbl.Finite prm.minLambda) (hmax : Dbl.Finite prm.maxLambda) (hlf : Dbl.Finite prm.lambdaFailureInit)
    (k r : Nat) (next : NLSIteration (Dbl L))
    (hfail : ∀ (j : Nat) it, j ≤ r → out.iterations[k + j]? = some it → NoStep it)
    (hnext : out.iterations[k + r + 1]? = some next) :
    prm.lambdaFailureInit.toRat * 8 ^ r ≤ next.lambda.toRat ∧
    prm.lambdaFailureInit.toRat * 8 ^ r ≤ prm.maxLambda.toRat ∧ (0 < prm.lambdaFailureInit → r < 700) := by
  have hp : NLSParamsValid prm := by
    unfold solveW at h
    cases hc : NLS.checkParams prm with
    | error e => rw [hc] at h; cases h
    | ok _ => exact (checkParams_iff prm).mp (by rw [hc])
  have hl := (C87_log u env prm x0 o o' w w' out calls h).1
  have h1 := legal_failures hp hmin hmax hl ⟨hp.lambdaInitial.1, hp.lambdaInitial.2, rfl⟩ hlf k r next hfail hnext
  obtain ⟨f1, f2, f3⟩ := (C87_double u env prm x0 o o' w w' out calls h).2.2.2.2 hmin hmax next
    (List.mem_of_getElem? hnext)
  refine ⟨h1, h1.trans (toRat_le f1 hmax f3), fun hpos => ?_⟩
  by_contra hge
  have hge : 700 ≤ r := not_lt.mp hge
  have h2 := toRat_pos hlf hpos
  have h3 : (8 : ℚ) ^ 700 ≤ 8 ^ r := pow_le_pow_right₀ (by norm_num) hge
  have h4 := mul_le_mul h2 h3 (by positivity) (le_trans (pow2_pos _).le h2)
  set_option exponentiation.threshold 2000 in
  have h5 : pow2 (-1074) * (8 : ℚ) ^ 700 = pow2 1026 := by
    rw [pow2_eq, pow2_eq, show (8 : ℚ) = 2 ^ (3 : Int) by norm_num, ← zpow_natCast, ← zpow_mul, ← zpow_add₀ (by norm_num)]
    norm_num
  have h6 := pow2_mono (show (1024 : Int) ≤ 1026 by norm_num)
  linarith [toRat_lt_max f1]

/-! ## Accepted steps -/

theorem toRat_round {q : ℚ} (hq : 0 ≤ q) (s : Bool) (hf : Dbl.Finite (toDbl L (F64.round s q))) :
    (toDbl L (F64.round s q)).toRat = roundMag q := by
  unfold F64.round at hf ⊢
  split_ifs at hf ⊢ with h0
  · subst h0
    rw [roundMag_zero]
    cases s <;> rfl
  · obtain ⟨u, m, hm⟩ := F64.isFinite_iff.mp hf
    have hm' : F64.mk (decide (q < 0)) |q| = .fin u m := hm
    have hlt : decide (q < 0) = false := by simpa using hq
    rw [hlt, abs_of_nonneg hq] at hm'
    obtain ⟨hu, -, hr⟩ := F64.mk_fin hm'
    rw [hlt, abs_of_nonneg hq, hm', hu]
    exact hr

/-- The factor `1 - relative_exit_tol` as computed. -/
theorem one_sub_double {x : Dbl L} (h0 : 0 ≤ x) (h1 : x ≤ 1) :
    Dbl.Finite (1 - x) ∧ 0 ≤ (1 - x) ∧ (1 - x).toRat ≤ 1 - x.toRat + pow2 (-53) := by
  have hf : Dbl.Finite x := dbl_between (lo := 0) (hi := 1) rfl (by rw [dbl_one]; rfl) h0 h1
  obtain ⟨s, a, rfl⟩ := F64.isFinite_iff.mp hf
  have v0 : 0 ≤ value s a := F64.zero_le_fin.mp h0
  have v1 : value s a ≤ 1 := by
    rw [dbl_one] at h1
    have := F64.le_antisymm_fin h1
    simpa [value, oneMag] using this
  have hneg : value (!s) a = -value s a := by cases s <;> simp [value]
  have e : F64.add (1 : Dbl L) (F64.neg (.fin s a)) = F64.round (false && !s) (1 - value s a) := by
    rw [show ((1 : Dbl L) : F64) = F64.fin false oneMag from dbl_one]
    show F64.round (false && !s) (value false oneMag + value (!s) a) = _
    rw [hneg, show value false oneMag = 1 from rfl, ← sub_eq_add_neg]
  have hle : F64.le (F64.round (false && !s) (1 - value s a)) (F64.fin false oneMag) = true :=
    F64.round_le_fin _ _ (by show 1 - value s a ≤ 1; linarith)
  have hge : F64.le (F64.zero false) (F64.round (false && !s) (1 - value s a)) = true :=
    F64.round_nonneg _ (by linarith)
  have hfin : Dbl.Finite (toDbl L (F64.round (false && !s) (1 - value s a))) :=
    F64.isFinite_iff.mpr (F64.finite_between hge hle)
  have hr := toRat_round (L := L) (show 0 ≤ 1 - value s a by linarith) (false && !s) hfin
  have hb : roundMag (1 - value s a) ≤ 1 - value s a + pow2 (-53) := by
    rcases (show 0 ≤ 1 - value s a by linarith).eq_or_lt with h | h
    · rw [← h, roundMag_zero]; linarith [pow2_pos (-53)]
    · have h2 := (abs_le.mp (roundMag_err h)).2
      have h3 : max ((1 - value s a) * pow2 (-53)) (pow2 (-1075)) ≤ pow2 (-53) := by
        refine max_le ?_ (pow2_mono (by norm_num))
        nlinarith [pow2_pos (-53)]
      linarith
  have main : ∀ y : F64, y = F64.round (false && !s) (1 - value s a) →
      Dbl.Finite (toDbl L y) ∧ (0 : Dbl L) ≤ toDbl L y ∧
        (toDbl L y).toRat ≤ 1 - (toDbl L (.fin s a)).toRat + pow2 (-53) := by
    rintro y rfl
    refine ⟨hfin, hge, ?_⟩
    rw [hr]
    exact hb
  exact main _ e

theorem one_sub_le {x : Dbl L} (h0 : 0 ≤ x) (h1 : x ≤ 1) : (1 - x : Dbl L) ≤ 1 := by
  have hf : Dbl.Finite x := dbl_between (lo := 0) (hi := 1) rfl (by rw [dbl_one]; rfl) h0 h1
  obtain ⟨s, a, rfl⟩ := F64.isFinite_iff.mp hf
  have v0 : 0 ≤ value s a := F64.zero_le_fin.mp h0
  have e : F64.add (F64.fin false oneMag) (F64.neg (.fin s a)) = F64.round (false && !s) (value false oneMag + value (!s) a) :=
    rfl
  have hneg : value (!s) a = -value s a := by cases s <;> simp [value]
  have hle : F64.le (F64.round (false && !s) (value false oneMag + value (!s) a)) (F64.fin false oneMag) = true :=
    F64.round_le_fin _ _ (by rw [hneg]; linarith)
  rw [← e] at hle
  have e1 : (1 : Dbl L) = F64.fin false oneMag := dbl_one
  show F64.le (F64.add (1 : Dbl L) (F64.neg (.fin s a))) (1 : Dbl L) = true
  rw [e1]
  exact hle

/-- Rounding a product that is not subnormal afterwards. -/
theorem round_up_bound {q : ℚ} (hq : 0 ≤ q) (h : pow2 (-1022) ≤ roundMag q) : roundMag q ≤ q * (1 + pow2 (-52)) := by
  rcases hq.eq_or_lt with rfl | hq
  · rw [roundMag_zero] at h ⊢; simp
  have he := (abs_le.mp (roundMag_err hq)).2
  have h53 : pow2 (-52) = 2 * pow2 (-53) := by
    rw [show (-52 : Int) = 1 + -53 by norm_num, pow2_add]; norm_num [pow2]
  have h1 : pow2 (-1022) = 2 * pow2 (-1023) := by
    rw [show (-1022 : Int) = 1 + -1023 by norm_num, pow2_add, show pow2 1 = 2 by decide +kernel]
  have h2 : pow2 (-1075) = pow2 (-1023) * pow2 (-52) := by rw [← pow2_add]; norm_num
  have hp52 : pow2 (-52) ≤ 1 := by decide +kernel
  have hpp := pow2_pos (-1023)
  have hp5 := pow2_pos (-52)
  rcases max_cases (q * pow2 (-53)) (pow2 (-1075)) with ⟨hm, -⟩ | ⟨hm, hlt⟩
  · rw [hm] at he
    have : q * pow2 (-52) = 2 * (q * pow2 (-53)) := by rw [h53]; ring
    have h4 : 0 ≤ q * pow2 (-53) := mul_nonneg hq.le (pow2_pos _).le
    linarith
  · rw [hm] at he
    have h5 : pow2 (-1075) ≤ pow2 (-1023) := pow2_mono (by norm_num)
    have h6 : pow2 (-1023) ≤ q := by linarith
    have h7 : pow2 (-1023) * pow2 (-52) ≤ q * pow2 (-52) := mul_le_mul_of_nonneg_right h6 hp5.le
    linarith

/-- Adding a penalised violation of zero to a finite error. -/
theorem total_no_eqs {f pen : Dbl L} (hf : Dbl.Finite f) (hn : f + pen * 0 ≠ F64.nan) :
    Dbl.Finite (f + pen * 0) ∧ (f + pen * 0).toRat = f.toRat := by
  have hn' : F64.add f (F64.mul pen (F64.zero false)) ≠ .nan := hn
  have key : ∀ z : F64, z = F64.mul pen (F64.zero false) → F64.add f z ≠ .nan →
      Dbl.Finite (toDbl L (F64.add f z)) ∧ (toDbl L (F64.add f z)).toRat = f.toRat := by
    intro z hz hnz
    rcases F64.mul_zero_cases pen with h | ⟨s, h⟩
    · rw [hz, h] at hnz
      have : ∀ y : F64, F64.add y .nan = .nan := by intro y; cases y <;> rfl
      exact absurd (this f) hnz
    · rw [hz, h]
      obtain ⟨l1, l2⟩ := F64.add_zero_le s (finite_ne_nan hf)
      have hfin : Dbl.Finite (toDbl L (F64.add f (F64.zero s))) := dbl_between hf hf l2 l1
      exact ⟨hfin, le_antisymm (toRat_le hfin hf l1) (toRat_le hf hfin l2)⟩
  exact key _ rfl hn'

/-- How many of the first `k` logged iterations report `SUCCESS`. -/
def successCount (its : List (NLSIteration (Dbl L))) (k : Nat) : Nat :=
  ((its.take k).filter fun it => decide (it.stepResult = .success)).length

theorem successCount_succ {its : List (NLSIteration (Dbl L))} {k : Nat} {it : NLSIteration (Dbl L)}
    (h : its[k]? = some it) :
    successCount its (k + 1) = successCount its k + if it.stepResult = .success then 1 else 0 := by
  unfold successCount
  rw [List.take_add_one, h, List.filter_append, List.length_append]
  by_cases hs : it.stepResult = .success <;> simp [hs]

/-- **C76** in binary64 (no equality constraints). Every accepted step after which the solve goes on reduces the cost at
least by the factor `1 - relative_exit_tol`, up to rounding, and leaves it at `absolute_exit_tol` or more. So the number `s` of
accepted steps before any logged iteration is bounded by
`absolute_exit_tol ≤ cost(x0) * (1 - (relative_exit_tol - 2^-51))^s`, if `absolute_exit_tol` is a normal double. -/
theorem C76_double (env : Env n D (Dbl L)) (hc : ConsistentP env.p) (he : env.p.eqs = []) (prm : NLSParams (Dbl L))
    (x0 : Fin n → Dbl L) (o o' : env.Obj) (out : NLSOutputs (Dbl L)) (calls : List (NLSIteration (Dbl L)))
    (h : solve env prm x0 o = .ok (o', out, calls)) (ha : Dbl.Finite prm.absoluteExitTol)
    (hnorm : pow2 (-1022) ≤ prm.absoluteExitTol.toRat) (k : Nat) (it : NLSIteration (Dbl L))
    (hit : out.iterations[k]? = some it) (hs : 0 < successCount out.iterations k) :
    prm.absoluteExitTol.toRat ≤ it.errorsInitial.f.toRat ∧
    it.errorsInitial.f.toRat ≤ (costAt env.p x0).toRat
      * (1 - (prm.relativeExitTol.toRat - pow2 (-51))) ^ successCount out.iterations k := by
  obtain ⟨hex, hfirst, hlast⟩ := C38_after env prm x0 o o' out calls h
  obtain ⟨V, T, W, hv⟩ := solve_view h
  have hp := hv.prmOk
  obtain ⟨rf, r0, rb⟩ := one_sub_double hp.relativeExitTol.1 hp.relativeExitTol.2
  have hleg := C87_solve env prm x0 o o' out calls h
  obtain ⟨C, -, hC⟩ := legal_controls hleg
  have hz : ∀ x : Fin n → Dbl L, violationAt env.p x = 0 := by
    intro x; unfold violationAt; rw [he]; rfl
  have hini : ∀ (k : Nat) it, out.iterations[k]? = some it → Dbl.Finite it.errorsInitial.f := by
    intro k it hit
    have := (hC k it hit).1.finite
    by_contra hcon
    exact this (Or.inl hcon)
  have hinit : ∀ it, out.iterations[0]? = some it → it.errorsInitial.f = costAt env.p x0 := by
    intro it hit
    have hk := lt_of_getElem? hit
    obtain ⟨a, ha, _⟩ := hex 0 (by omega)
    obtain ⟨b, hb, _⟩ := hex 1 (by omega)
    rw [(C39_logged_errors env hc prm x0 o o' out calls h 0 it hit a b ha hb).1, hfirst a ha]
    rfl
  set q : ℚ := 1 - (prm.relativeExitTol.toRat - pow2 (-51)) with hqdef
  have hrel1 : prm.relativeExitTol.toRat ≤ 1 := by
    have hfr : Dbl.Finite prm.relativeExitTol :=
      dbl_between (lo := 0) (hi := 1) rfl (by rw [dbl_one]; rfl) hp.relativeExitTol.1 hp.relativeExitTol.2
    have := toRat_le hfr (by rw [dbl_one]; rfl) hp.relativeExitTol.2
    rwa [toRat_one] at this
  have hrel0 : 0 ≤ prm.relativeExitTol.toRat :=
    toRat_nonneg (dbl_between (lo := 0) (hi := 1) rfl (by rw [dbl_one]; rfl) hp.relativeExitTol.1 hp.relativeExitTol.2)
      hp.relativeExitTol.1
  have hq0 : 0 ≤ q := by rw [hqdef]; linarith [pow2_pos (-51)]
  have hcq : (1 - prm.relativeExitTol : Dbl L).toRat * (1 + pow2 (-52)) ≤ q := by
    have h51 : pow2 (-51) = 4 * pow2 (-53) := by
      rw [show (-51 : Int) = 2 + -53 by norm_num, pow2_add, show pow2 2 = 4 by decide +kernel]
    have h52 : pow2 (-52) = 2 * pow2 (-53) := by
      rw [show (-52 : Int) = 1 + -53 by norm_num, pow2_add, show pow2 1 = 2 by decide +kernel]
    have hsm : pow2 (-53) ≤ 1 / 4 := by decide +kernel
    have hpp := pow2_pos (-53)
    have h1 := mul_le_mul_of_nonneg_right rb (show 0 ≤ 1 + pow2 (-52) by linarith [pow2_pos (-52)])
    rw [hqdef, h51]
    rw [h52] at h1 ⊢
    nlinarith
  -- one accepted step
  have hstep : ∀ (k : Nat) it it', out.iterations[k]? = some it → out.iterations[k + 1]? = some it' →
      it.stepResult = .success → prm.absoluteExitTol.toRat ≤ it'.errorsInitial.f.toRat ∧
        it'.errorsInitial.f.toRat ≤ it.errorsInitial.f.toRat * q ∧ 0 ≤ it.errorsInitial.f.toRat := by
    intro k it it' hit hit' hs
    have hk := lt_of_getElem? hit'
    obtain ⟨a, haa, _⟩ := hex k (by omega)
    obtain ⟨b, hbb, _⟩ := hex (k + 1) (by omega)
    obtain ⟨e1, -, e3⟩ := C39_logged_errors env hc prm x0 o o' out calls h k it hit a b haa hbb
    obtain ⟨hch, -⟩ := C39_errors_chain env hc prm x0 o o' out calls h k it it' hit hit'
    obtain ⟨st, hst, hst'⟩ := hch hs
    obtain ⟨st2, hst2, est⟩ := e3 hs
    rw [hst] at hst2
    cases hst2
    have hqe : st.errors.equality = 0 := by rw [est]; exact hz _
    have hqe0 : it.errorsInitial.equality = 0 := by rw [e1]; exact hz _
    obtain ⟨hok, hns⟩ := hC k it hit
    have hns := hns (by omega)
    obtain ⟨l, hl, hm1, hm2, -, -⟩ := accepted_merit_double hp hok.search hs
    rw [hst] at hl
    cases hl
    have hf := hini k it hit
    -- the absolute test failed
    have habs : ¬ st.errors.lInfinity < prm.absoluteExitTol :=
      fun hlt => hns .satisfiedAbsoluteTol ⟨hs, st, hst, hlt⟩
    have hrel : ¬ it.errorsInitial.total it.penalty * (1 - prm.relativeExitTol) < st.errors.total it.penalty :=
      fun hlt => hns .satisfiedRelativeTol ⟨hs, st, hst, habs, hlt⟩
    have hbig : prm.absoluteExitTol ≤ st.errors.f := by
      unfold Errors.lInfinity at habs
      rw [hqe] at habs
      unfold cmax at habs
      split_ifs at habs with hlt0
      · exact absurd hp.absoluteExitTol habs
      · exact dbl_not_lt (finite_ne_nan hm2) (finite_ne_nan ha) habs
    have hbigq := toRat_le ha hm2 hbig
    have hfr : st.errors.f = it'.errorsInitial.f := by rw [hst']
    obtain ⟨n1, n2⟩ := dbl_le_ne_nan hm1
    unfold Errors.total at n1 n2 hrel hm1
    rw [hqe] at n1 hrel hm1
    rw [hqe0] at n2 hrel hm1
    obtain ⟨t1, t1'⟩ := total_no_eqs hm2 n1
    obtain ⟨t2, t2'⟩ := total_no_eqs hf n2
    have hpos : 0 < prm.absoluteExitTol.toRat := (pow2_pos _).trans_le hnorm
    have hTle := toRat_le t1 t2 hm1
    rw [t1', t2'] at hTle
    have hT0 : 0 ≤ it.errorsInitial.f.toRat := by linarith
    have hTn : (0 : Dbl L) ≤ it.errorsInitial.f + it.penalty * 0 := by
      refine dbl_le_trans (dbl_le_of_lt hp.absoluteExitTol) ?_
      have h2 : prm.absoluteExitTol.toRat ≤ (it.errorsInitial.f + it.penalty * 0).toRat := by rw [t2']; linarith
      obtain ⟨s, a, hsa⟩ := F64.isFinite_iff.mp ha
      obtain ⟨s', a', hsa'⟩ := F64.isFinite_iff.mp t2
      rw [hsa, hsa'] at h2 ⊢
      show F64.le (F64.fin s a) (F64.fin s' a') = true
      simp only [F64.le, decide_eq_true_eq]
      exact h2
    have hprod : st.errors.f + it.penalty * 0
        ≤ (it.errorsInitial.f + it.penalty * 0) * (1 - prm.relativeExitTol) :=
      dbl_not_lt (dbl_mul_ne_nan t2 rf) (finite_ne_nan t1) hrel
    have hPle : (it.errorsInitial.f + it.penalty * 0) * (1 - prm.relativeExitTol) ≤ it.errorsInitial.f + it.penalty * 0 := by
      refine dbl_mul_le_self t2 hTn r0 ?_
      have : (1 - prm.relativeExitTol : Dbl L) ≤ 1 := one_sub_le hp.relativeExitTol.1 hp.relativeExitTol.2
      exact this
    have hPf : Dbl.Finite ((it.errorsInitial.f + it.penalty * 0) * (1 - prm.relativeExitTol)) :=
      dbl_between t1 t2 hprod hPle
    have hPq := toRat_le t1 hPf hprod
    rw [toRat_mul t2 rf hTn r0 hPf, t1', t2'] at hPq
    have hc0 := toRat_nonneg rf r0
    have hub := round_up_bound (q := it.errorsInitial.f.toRat * (1 - prm.relativeExitTol : Dbl L).toRat)
      (mul_nonneg hT0 hc0) (by linarith)
    rw [← hfr]
    refine ⟨hbigq, ?_, hT0⟩
    have := mul_le_mul_of_nonneg_left hcq hT0
    nlinarith
  have main : ∀ (k : Nat) it, out.iterations[k]? = some it →
      it.errorsInitial.f.toRat ≤ (costAt env.p x0).toRat * q ^ successCount out.iterations k ∧
      (0 < successCount out.iterations k → prm.absoluteExitTol.toRat ≤ it.errorsInitial.f.toRat) := by
    intro k
    induction k with
    | zero =>
      intro it hit
      rw [hinit it hit]
      simp [successCount]
    | succ k ih =>
      intro it' hit'
      have hk := lt_of_getElem? hit'
      obtain ⟨it, hit⟩ : ∃ it, out.iterations[k]? = some it := ⟨_, List.getElem?_eq_getElem (by omega)⟩
      obtain ⟨i1, i2⟩ := ih it hit
      rw [successCount_succ hit]
      by_cases hs : it.stepResult = .success
      · rw [if_pos hs]
        obtain ⟨s1, s2, s3⟩ := hstep k it it' hit hit' hs
        refine ⟨?_, fun _ => s1⟩
        rw [pow_succ, ← mul_assoc]
        exact s2.trans (mul_le_mul_of_nonneg_right i1 hq0)
      · rw [if_neg hs, Nat.add_zero]
        rw [(C39_errors_chain env hc prm x0 o o' out calls h k it it' hit hit').2 hs]
        exact ⟨i1, i2⟩
  obtain ⟨m1, m2⟩ := main k it hit
  exact ⟨m2 hs, m1⟩

/-! ## The number of iterations -/

/-- **C78** in binary64 (no equality constraints). Let `S` accepted steps be too many for the tolerances and `R` factors of
eight too many for the damping limits; then a solve in which no line search ends with `FAILURE_NON_FINITE_COST` or
`FAILURE_INVALID_ALPHA` logs at most `S * (R + 1)` iterations, whatever `max_iterations` is. -/
theorem C78_double (env : Env n D (Dbl L)) (hc : ConsistentP env.p) (he : env.p.eqs = []) (prm : NLSParams (Dbl L))
    (x0 : Fin n → Dbl L) (o o' : env.Obj) (out : NLSOutputs (Dbl L)) (calls : List (NLSIteration (Dbl L)))
    (h : solve env prm x0 o = .ok (o', out, calls)) (ha : Dbl.Finite prm.absoluteExitTol)
    (hnorm : pow2 (-1022) ≤ prm.absoluteExitTol.toRat)
    (hmin : Dbl.Finite prm.minLambda) (hmax : Dbl.Finite prm.maxLambda) (hlf : Dbl.Finite prm.lambdaFailureInit)
    (S R : Nat) (hS1 : 0 < S) (hrel : pow2 (-51) ≤ prm.relativeExitTol.toRat)
    (hS : (costAt env.p x0).toRat * (1 - (prm.relativeExitTol.toRat - pow2 (-51))) ^ S < prm.absoluteExitTol.toRat)
    (hR : prm.maxLambda.toRat < prm.lambdaFailureInit.toRat * 8 ^ R)
    (hvalid : ∀ it ∈ out.iterations, it.stepResult ≠ .failureInvalidAlpha ∧ it.stepResult ≠ .failureNonFiniteCost) :
    out.iterations.length ≤ S * (R + 1) := by
  rcases Nat.eq_zero_or_pos out.iterations.length with h0 | hlen
  · omega
  obtain ⟨_, _, hw⟩ := C86_record env prm x0 o o' out calls h
  obtain ⟨-, hsm⟩ := C43_state_machine env prm x0 o o' out calls h
  obtain ⟨V, T, W, hv⟩ := solve_view h
  have hp := hv.prmOk
  have hrel1 : prm.relativeExitTol.toRat ≤ 1 := by
    have hfr : Dbl.Finite prm.relativeExitTol :=
      dbl_between (lo := 0) (hi := 1) rfl (by rw [dbl_one]; rfl) hp.relativeExitTol.1 hp.relativeExitTol.2
    have := toRat_le hfr (by rw [dbl_one]; rfl) hp.relativeExitTol.2
    rwa [toRat_one] at this
  have hq0 : 0 ≤ 1 - (prm.relativeExitTol.toRat - pow2 (-51)) := by linarith [pow2_pos (-51)]
  have hq1 : 1 - (prm.relativeExitTol.toRat - pow2 (-51)) ≤ 1 := by linarith
  have hlf0 : 0 ≤ prm.lambdaFailureInit.toRat := toRat_nonneg hlf hp.lambdaFailureInit
  have hsucc : ∀ k it, out.iterations[k]? = some it → successCount out.iterations k < S := by
    intro k it hit
    by_contra hge
    have hge : S ≤ successCount out.iterations k := not_lt.mp hge
    obtain ⟨m1, m2⟩ := C76_double env hc he prm x0 o o' out calls h ha hnorm k it hit (by omega)
    have hpos : 0 < prm.absoluteExitTol.toRat := (pow2_pos _).trans_le hnorm
    have hc0 : 0 ≤ (costAt env.p x0).toRat := by
      by_contra hneg
      have := mul_nonpos_of_nonpos_of_nonneg (not_le.mp hneg).le (pow_nonneg hq0 (successCount out.iterations k))
      linarith
    have := mul_le_mul_of_nonneg_left (pow_le_pow_of_le_one hq0 hq1 hge) hc0
    linarith
  have hkind : ∀ (k : Nat) it it', out.iterations[k]? = some it → out.iterations[k + 1]? = some it' →
      it.stepResult = .success ∨ NoStep it := by
    intro k it it' hit hit'
    have hm := hsm k it hit
    simp only [hit', Option.map_some] at hm
    cases hr : it.stepResult with
    | success => exact Or.inl rfl
    | maxIterations => exact Or.inr (Or.inl hr)
    | positiveDerivative => exact Or.inr (Or.inr hr)
    | firstOrderSatisfied => simp only [hr] at hm; cases hm.2
    | failureNonFiniteCost => exact absurd hr (hvalid it (List.mem_of_getElem? hit)).2
    | failureInvalidAlpha => exact absurd hr (hvalid it (List.mem_of_getElem? hit)).1
  have hcount : ∀ k, k < out.iterations.length → ∃ r, r ≤ k ∧ r ≤ R ∧
      (∀ (j : Nat) it, j < r → out.iterations[k - r + j]? = some it → NoStep it) ∧
      k ≤ successCount out.iterations k * (R + 1) + r := by
    intro k
    induction k with
    | zero => intro _; exact ⟨0, le_rfl, Nat.zero_le _, fun j it hj => absurd hj (Nat.not_lt_zero _), by omega⟩
    | succ k ih =>
      intro hk
      obtain ⟨r, r1, r2, r3, r4⟩ := ih (by omega)
      obtain ⟨it, hit⟩ : ∃ it, out.iterations[k]? = some it := ⟨_, List.getElem?_eq_getElem (by omega)⟩
      obtain ⟨it', hit'⟩ : ∃ it, out.iterations[k + 1]? = some it := ⟨_, List.getElem?_eq_getElem hk⟩
      rw [successCount_succ hit]
      rcases hkind k it it' hit hit' with hs | hf
      · refine ⟨0, Nat.zero_le _, Nat.zero_le _, fun j it hj => absurd hj (Nat.not_lt_zero _), ?_⟩
        rw [if_pos hs, Nat.add_mul]
        omega
      · have hall : ∀ (j : Nat) it, j ≤ r → out.iterations[k - r + j]? = some it → NoStep it := by
          intro j it2 hj h2
          rcases Nat.lt_or_eq_of_le hj with hj | rfl
          · exact r3 j it2 hj h2
          · rw [show k - j + j = k by omega, hit] at h2
            cases h2
            exact hf
        obtain ⟨-, hb, -⟩ := C77_double _ env prm x0 o o' _ _ out calls hw hmin hmax hlf (k - r) r it' hall
          (by rw [show k - r + r + 1 = k + 1 by omega]; exact hit')
        have hrR : r < R := by
          by_contra hge
          have h8 : (8 : ℚ) ^ R ≤ 8 ^ r := pow_le_pow_right₀ (by norm_num) (not_lt.mp hge)
          have := mul_le_mul_of_nonneg_left h8 hlf0
          linarith
        have hns : it.stepResult ≠ .success := by rcases hf with hf | hf <;> rw [hf] <;> simp
        refine ⟨r + 1, by omega, by omega, ?_, ?_⟩
        · intro j it2 hj h2
          rw [show k + 1 - (r + 1) = k - r by omega] at h2
          exact hall j it2 (by omega) h2
        · have e0 : successCount out.iterations k + (if it.stepResult = .success then 1 else 0)
              = successCount out.iterations k := by rw [if_neg hns]; rfl
          rw [e0]; omega
  obtain ⟨N, hL⟩ : ∃ N, out.iterations.length = N + 1 := ⟨out.iterations.length - 1, by omega⟩
  obtain ⟨r, r1, r2, r3, r4⟩ := hcount N (by omega)
  obtain ⟨last, hlast⟩ : ∃ it, out.iterations[N]? = some it := ⟨_, List.getElem?_eq_getElem (by omega)⟩
  have hs := hsucc N last hlast
  rw [hL]
  calc N + 1 ≤ successCount out.iterations N * (R + 1) + R + 1 := by omega
    _ = (successCount out.iterations N + 1) * (R + 1) := by ring
    _ ≤ S * (R + 1) := Nat.mul_le_mul_right _ hs

/-! ## Concrete cases -/

section Examples

open MiniOpt.DemoF64

/-- C44, C87: in binary64, a run that raises the penalty in every iteration. -/
example : ∃ o' out calls, solve (envEq pull four) (prm 3) (fun _ => d 10) (objEq pull four) = .ok (o', out, calls) ∧
    (out.iterations.map (·.penalty)).Pairwise (fun a b => a ≤ b ∧ ¬ b ≤ a) ∧ out.iterations.length = 3 := by
  obtain ⟨o', out, calls, h, hs⟩ := run_pull
  refine ⟨o', out, calls, h, ?_, by have := congrArg List.length hs; simpa using this⟩
  have hm : out.iterations.map (·.penalty) = (out.iterations.map fun it => (it.stepResult, it.penalty)).map Prod.snd := by
    simp
  rw [hm, hs]
  decide +kernel

/-- C77: four failures in a row, after which `max_lambda` is exceeded. -/
example : ∃ o' out calls, solve (env1 wrongSign) { prm 10 with lineSearchStrategy := .armijoBacktrack } (fun _ => d 5)
      (obj1 wrongSign) = .ok (o', out, calls) ∧ out.termination = .maxLambda ∧
    (∀ it ∈ out.iterations, NoStep it) ∧ out.iterations.length = 4 := by
  obtain ⟨o', out, calls, h, ht, hr⟩ := summary_run run_wrong
  refine ⟨o', out, calls, h, ht, fun it hm => Or.inl ?_, by have := congrArg List.length hr; simpa using this⟩
  have : it.stepResult ∈ out.iterations.map (·.stepResult) := List.mem_map_of_mem hm
  rw [hr] at this
  simpa using this

/-- The default parameters meet the conditions on the parameters. -/
example : Dbl.Finite (prm 20).absoluteExitTol ∧ pow2 (-1022) ≤ (prm 20).absoluteExitTol.toRat ∧
    Dbl.Finite (prm 20).minLambda ∧ Dbl.Finite (prm 20).maxLambda ∧ Dbl.Finite (prm 20).lambdaFailureInit ∧
    pow2 (-51) < (prm 20).relativeExitTol.toRat ∧ 0 < (prm 20).lambdaFailureInit ∧
    (prm 20).maxLambda.toRat < (prm 20).lambdaFailureInit.toRat * 8 ^ 3 := by
  refine ⟨?_, ?_, ?_, ?_, ?_, ?_, ?_, ?_⟩ <;> decide +kernel

/-- C76: in the run on `x² = 2` from 5 the last logged iteration comes after four accepted steps. -/
example : ∃ o' out calls it, solve (env1 sqrt2) (prm 20) (fun _ => d 5) (obj1 sqrt2) = .ok (o', out, calls) ∧
    out.iterations[4]? = some it ∧ successCount out.iterations 4 = 4 ∧
    (∀ it ∈ out.iterations, it.stepResult ≠ .failureInvalidAlpha ∧ it.stepResult ≠ .failureNonFiniteCost) := by
  obtain ⟨o', out, calls, h, _, hr⟩ := summary_run run_sqrt2
  suffices H : ∃ it, out.iterations[4]? = some it ∧ successCount out.iterations 4 = 4 ∧
      ∀ it ∈ out.iterations, it.stepResult ≠ .failureInvalidAlpha ∧ it.stepResult ≠ .failureNonFiniteCost by
    obtain ⟨it, H⟩ := H
    exact ⟨o', out, calls, it, h, H⟩
  revert hr
  generalize out.iterations = l
  intro hr
  obtain ⟨a, l, rfl, h1, hr⟩ := List.map_eq_cons_iff.mp hr
  obtain ⟨b, l, rfl, h2, hr⟩ := List.map_eq_cons_iff.mp hr
  obtain ⟨c, l, rfl, h3, hr⟩ := List.map_eq_cons_iff.mp hr
  obtain ⟨e, l, rfl, h4, hr⟩ := List.map_eq_cons_iff.mp hr
  obtain ⟨f, l, rfl, h5, hr⟩ := List.map_eq_cons_iff.mp hr
  rw [List.map_eq_nil_iff.mp hr]
  refine ⟨f, rfl, by simp [successCount, h1, h2, h3, h4], ?_⟩
  intro it hm
  simp only [List.mem_cons, List.not_mem_nil, or_false] at hm
  rcases hm with rfl | rfl | rfl | rfl | rfl <;> simp [*]

end Examples

end MiniOpt.Props
