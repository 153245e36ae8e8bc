import Verif.Props.Derivative
import Verif.Props.NLSDescent
import Verif.Props.NLSState

/-!
# C45: descent on the null-space path (exact arithmetic)

Concrete runs meeting the hypotheses of the theorems below: `Props/NLSExamples.lean` (and the examples
beside each theorem).
-/

set_option autoImplicit false

namespace MiniOpt.Props

open MiniOpt.Spec MiniOpt.NLS

section any

variable {α : Type} [Scalar α] {n D : Nat}

/-- **C45** (which solver). An iteration logs a null-space outcome exactly if the problem has equality constraints but
no inequality constraints, and then the outcome is `SUCCESS`; otherwise it logs interior-point outputs. -/
theorem C45_which_solver (env : Env n D α) (prm : NLSParams α) (x0 : Fin n → α) (o o' : env.Obj)
    (out : NLSOutputs α) (calls : List (NLSIteration α)) (h : solve env prm x0 o = .ok (o', out, calls))
    (it : NLSIteration α) (hit : it ∈ out.iterations) :
    (env.p.ineq = [] ∧ env.p.eqs ≠ [] → it.qpOutputs = .nullSpace .success) ∧
    (¬ (env.p.ineq = [] ∧ env.p.eqs ≠ []) → ∃ q, it.qpOutputs = .interiorPoint q) := by
  obtain ⟨S, T, W, hv⟩ := solve_view h
  obtain ⟨k, hk⟩ := List.mem_iff_getElem?.mp hit
  obtain ⟨hlt, rfl, hp⟩ := view_info hv hk
  rw [← view_solver hv k (by omega), hp.iout]
  obtain ⟨sol, hd, _⟩ := hp.dir
  rcases stepDirection_cases hd with ⟨_, s, s', q, h1, _, _, h2, _⟩ | ⟨s, s', t, h1, _, _, h2, _⟩
  · have h1' : (S k).obj.solver = .ip s := h1
    refine ⟨?_, fun _ => ⟨q, h2⟩⟩
    rintro ⟨s, hs⟩
    rw [h1'] at hs; cases hs
  · have h1' : (S k).obj.solver = .ns s := h1
    refine ⟨fun _ => ?_, fun hn => absurd ⟨s, h1'⟩ hn⟩
    have := hp.notIndef
    rw [h2] at this ⊢
    cases t with
    | success => rfl
    | notPositiveDefinite => cases this

end any

variable {n D : Nat}

theorem sum_abs_b {p : Problem D ℝ} {x : Fin n → ℝ} {qp : QPData D p.M p.K ℝ}
    (hA : ∀ dx : Fin D → ℝ, (List.ofFn fun k => (∑ j, qp.A k j * dx j) + qp.b k) = stackedModel x dx p.eqs)
    (hb : List.ofFn qp.b = stackedValues x p.eqs) : ∑ k, |qp.b k| = violationAt p x := by
  rw [violationAt_real]
  exact sum_rows (fun v _ => |v|) x (fun _ => 0) qp.b (fun k => (∑ j, qp.A k j * 0) + qp.b k) p.eqs hb (hA fun _ => 0)

theorem sign_mul_neg (b : ℝ) : sign b * -b = -|b| := by
  rw [real_sign]
  split_ifs with h1 h2
  · rw [abs_of_pos h1]; ring
  · rw [abs_of_neg h2]; ring
  · have : b = 0 := le_antisymm (not_lt.mp h1) (not_lt.mp h2)
    simp [this]

/-- **C45**. With equality but no inequality constraints, every iteration's direction reduces the linearised constraint
violation at full rate, and - whenever the violation is zero or at least the machine epsilon of the penalty formula -
the merit derivative used by the line search is at most `-rho * penalty * violation`, so it is not positive and
`POSITIVE_DERIVATIVE` is not reported. Below machine epsilon the derivative is still bounded. -/
theorem C45_descent (env : Env n D ℝ) (hE : NSContract env.NE) (hp : WellPosed env.p n) (hi : env.p.ineq = [])
    (he : env.p.eqs ≠ []) (prm : NLSParams ℝ) (x0 : Fin n → ℝ) (o o' : env.Obj) (out : NLSOutputs ℝ)
    (calls : List (NLSIteration ℝ)) (h : solve env prm x0 o = .ok (o', out, calls))
    (it : NLSIteration ℝ) (hit : it ∈ out.iterations) :
    it.directionalDerivatives.dEquality = - it.errorsInitial.equality ∧
    (1 / 2 ^ 52 ≤ it.errorsInitial.equality ∨ it.errorsInitial.equality = 0 →
      it.directionalDerivatives.total it.penalty ≤ - (prm.equalityPenaltyRho * it.penalty * it.errorsInitial.equality) ∧
      it.directionalDerivatives.total it.penalty ≤ 0 ∧ it.stepResult ≠ .positiveDerivative) ∧
    it.directionalDerivatives.total it.penalty
      ≤ it.penalty * ((1 - prm.equalityPenaltyRho) * max it.errorsInitial.equality (1 / 2 ^ 52) - it.errorsInitial.equality) := by
  obtain ⟨k, hk⟩ := List.mem_iff_getElem?.mp hit
  obtain ⟨hex, _, _⟩ := C38_after env prm x0 o o' out calls h
  have hlt := lt_of_getElem? hk
  obtain ⟨a, ha, _⟩ := hex k (by omega)
  obtain ⟨b, hb, _⟩ := hex (k + 1) (by omega)
  have hns := (C45_which_solver env prm x0 o o' out calls h it hit).1 ⟨hi, he⟩
  obtain ⟨h1, h2, h3⟩ := C38_direction env prm x0 o o' out calls h k it hk a b ha hb
  obtain ⟨f1, f2, f3, f4, f5, f6⟩ := linearize_facts hp h1
  have hrows := ns_rows hE h hk ha hb hns
  obtain ⟨hpen, -, hdom⟩ := C44_penalty env prm x0 o o' out calls h
  have hdom := (hdom k it b hk he hb).2 hns
  have hpos := (hpen it hit).1
  have hviol : it.errorsInitial.equality = ∑ k, |b.qp.b k| := by
    rw [sum_abs_b f3 f4, f1]; rfl
  have hrho : 0 ≤ prm.equalityPenaltyRho ∧ prm.equalityPenaltyRho < 1 := by
    obtain ⟨S, T, W, hv⟩ := solve_view h
    exact hv.prmOk.equalityPenaltyRho
  have hd := costDerivative_real b.qp b.dx
  rw [← h2] at hd
  have hdE : it.directionalDerivatives.dEquality = - it.errorsInitial.equality := by
    rw [hd.2, hviol, ← Finset.sum_neg_distrib]
    refine Finset.sum_congr rfl fun k _ => ?_
    rw [show (∑ j, b.qp.A k j * b.dx j) = - b.qp.b k by have := hrows k; linarith]
    exact sign_mul_neg _
  have hv0 : 0 ≤ it.errorsInitial.equality := by
    rw [hviol]; exact Finset.sum_nonneg fun k _ => abs_nonneg _
  rw [← hd.1, ← hviol] at hdom
  have htot : it.directionalDerivatives.total it.penalty
      = it.directionalDerivatives.dF - it.penalty * it.errorsInitial.equality := by
    unfold DirectionalDerivatives.total
    rw [hdE]; ring
  have hmax : 0 ≤ 1 / 2 * max 0 (∑ i, ∑ j, b.dx i * b.qp.G (max i j) (min i j) * b.dx j) := by positivity
  have hmain : 1 / 2 ^ 52 ≤ it.errorsInitial.equality ∨ it.errorsInitial.equality = 0 →
      it.directionalDerivatives.total it.penalty ≤ - (prm.equalityPenaltyRho * it.penalty * it.errorsInitial.equality) := by
    rintro (hge | hzero)
    · rw [max_eq_left hge] at hdom
      rw [htot]
      nlinarith
    · rw [htot, hzero]
      simp only [mul_zero, sub_zero, neg_zero]
      rcases h3 with ⟨_, _, _, q, _, h4, _⟩ | ⟨s, s', h4, -, h5⟩
      · rw [hns] at h4; cases h4
      · have hmin := (C26_null_space_minimiser env.NE hE _ s _ h4 rfl).2 (fun _ => 0)
        have hb0 : ∀ k, b.qp.b k = 0 := by
          intro k
          rw [hviol] at hzero
          have := (Finset.sum_eq_zero_iff_of_nonneg fun k _ => abs_nonneg (b.qp.b k)).mp hzero k (Finset.mem_univ k)
          exact abs_eq_zero.mp this
        have hfeas0 : ∀ k, eqVal (⟨b.qp.G, b.qp.c, b.qp.A, b.qp.b, Fin.elim0⟩ : QP D 0 env.p.K ℝ) (fun _ => 0) k = 0 := by
          intro k; simp [eqVal, hb0 k]
        have hobj : objective (⟨b.qp.G, b.qp.c, b.qp.A, b.qp.b, Fin.elim0⟩ : QP D 0 env.p.K ℝ) b.dx ≤ 0 := by
          rw [h5]
          by_cases hne : (fun _ => (0 : ℝ)) = s'.x
          · rw [← hne]; simp [objective]
          · have := hmin hfeas0 hne
            refine le_trans this.le ?_
            simp [objective]
        have hquad : 0 ≤ ∑ i, ∑ j, b.dx i * b.qp.G (max i j) (min i j) * b.dx j := by
          rw [f6]
          refine add_nonneg (List.sum_nonneg ?_) (mul_nonneg (le_max_right _ _) (Finset.sum_nonneg fun i _ => sq_nonneg _))
          intro a ha
          obtain ⟨r, _, rfl⟩ := List.mem_map.mp ha
          exact Finset.sum_nonneg fun k _ => sq_nonneg _
        rw [hd.1]
        unfold objective Gsym at hobj
        simp only at hobj
        linarith
  refine ⟨hdE, fun hc => ?_, ?_⟩
  · have hle := hmain hc
    have hle0 : it.directionalDerivatives.total it.penalty ≤ 0 := by
      refine le_trans hle ?_
      have : 0 ≤ prm.equalityPenaltyRho * it.penalty * it.errorsInitial.equality :=
        mul_nonneg (mul_nonneg hrho.1 hpos.le) hv0
      linarith
    refine ⟨hle, hle0, fun hs => ?_⟩
    obtain ⟨S, T, W, hv⟩ := solve_view h
    obtain ⟨_, rfl, hpass⟩ := view_info hv hk
    obtain ⟨htr, hout, _⟩ := lsLoop_start _ _ _ _ _ _ _ _ _ _ _ _ hpass.ls
    rw [hpass.ires] at hs
    obtain ⟨_, _, _, _, hpd⟩ := hout.facts.positive hs
    rw [hpass.ideriv, hpass.ipenalty] at hle0
    exact absurd hpd (not_lt.mpr hle0)
  · rw [htot]
    nlinarith

end MiniOpt.Props
