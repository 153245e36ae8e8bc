import Verif.Props.Maratos
import Verif.Props.ConstrainedLSExamples

/-!
# C110: a zero-residual problem whose full steps are refused, and what its units have to do with it

`arcEnv K`: costs `x₀` and `x₁`, equality constraint `K (x₀ + x₁²) = 0`. All three vanish at the origin.
-/

set_option autoImplicit false

namespace MiniOpt.Props

open MiniOpt.Spec MiniOpt.NLS MiniOpt.DemoReal

noncomputable def arcX : Residual ℝ := res2 (fun x _ => x) (fun _ _ => 1) fun _ _ => 0
noncomputable def arcY : Residual ℝ := res2 (fun _ y => y) (fun _ _ => 0) fun _ _ => 1
noncomputable def arcEq (K : ℝ) : Residual ℝ := res2 (fun x y => K * (x + y ^ 2)) (fun _ _ => K) fun _ y => K * (2 * y)
noncomputable def arcEnv (K : ℝ) : Env 2 2 ℝ := mkEnv ⟨[arcX, arcY], [], [arcEq K]⟩

/-- The point of the constraint curve at height `y`. -/
def arcAt (y : ℝ) : Fin 2 → ℝ := fun i => if i = 0 then - y ^ 2 else y

/-- Squared distance from the solution. -/
def distSq (x : Fin 2 → ℝ) : ℝ := x 0 ^ 2 + x 1 ^ 2

theorem arcX_value (x : Fin 2 → ℝ) (k : Fin 1) : valueAt arcX x k = x 0 := res2_value _ _ _ x k
theorem arcY_value (x : Fin 2 → ℝ) (k : Fin 1) : valueAt arcY x k = x 1 := res2_value _ _ _ x k
theorem arcEq_value (K : ℝ) (x : Fin 2 → ℝ) (k : Fin 1) : valueAt (arcEq K) x k = K * (x 0 + x 1 ^ 2) := res2_value _ _ _ x k

theorem arcX_slope (x dx : Fin 2 → ℝ) (k : Fin 1) : slopeAt arcX x dx k = dx 0 := by
  have : slopeAt arcX x dx k = ∑ j : Fin 2, jacAt arcX x 2 k j * dx j := rfl
  rw [this]
  unfold arcX
  rw [Fin.sum_univ_two, res2_jac, res2_jac]
  simp

theorem arcY_slope (x dx : Fin 2 → ℝ) (k : Fin 1) : slopeAt arcY x dx k = dx 1 := by
  have : slopeAt arcY x dx k = ∑ j : Fin 2, jacAt arcY x 2 k j * dx j := rfl
  rw [this]
  unfold arcY
  rw [Fin.sum_univ_two, res2_jac, res2_jac]
  simp

theorem arcEq_lin (K : ℝ) (x dx : Fin 2 → ℝ) (k : Fin 1) :
    linAt (arcEq K) x dx k = K * (x 0 + x 1 ^ 2) + K * (dx 0 + 2 * x 1 * dx 1) := by
  have : linAt (arcEq K) x dx k = valueAt (arcEq K) x k + ∑ j : Fin 2, jacAt (arcEq K) x 2 k j * dx j := rfl
  rw [this]
  unfold arcEq
  rw [Fin.sum_univ_two, res2_value, res2_jac, res2_jac]
  simp only [if_true, one_ne_zero, if_false]
  ring

theorem arc_ok (K : ℝ) : WellPosed (arcEnv K).p 2 := by
  refine mk_wellPosed _ ?_ ?_
  · intro r hr
    have hr' : r ∈ [arcX, arcY, arcEq K] := by simpa [arcEnv, mkEnv] using hr
    rcases List.mem_cons.mp hr' with rfl | hr'
    · exact ⟨_, _, _, rfl⟩
    · rcases List.mem_cons.mp hr' with rfl | hr'
      · exact ⟨_, _, _, rfl⟩
      · rcases List.mem_singleton.mp hr' with rfl; exact ⟨_, _, _, rfl⟩
  · intro c hc
    have hc' : c ∈ ([] : List (Ineq ℝ)) := hc
    cases hc'

theorem arc_eqs (K : ℝ) : (arcEnv K).p.eqs ≠ [] := by simp [arcEnv, mkEnv]

theorem arc_affine (K : ℝ) : AffineCosts (arcEnv K).p := by
  intro r hr x dx k
  have hr' : r ∈ [arcX, arcY] := hr
  rcases List.mem_cons.mp hr' with rfl | hr'
  · have e2 : linAt arcX x dx k = valueAt arcX x k + slopeAt arcX x dx k := rfl
    rw [e2]
    exact (arcX_value (fun i => x i + dx i) k).trans (congrArg₂ (· + ·) (arcX_value x k).symm (arcX_slope x dx k).symm)
  · rcases List.mem_singleton.mp hr' with rfl
    have e2 : linAt arcY x dx k = valueAt arcY x k + slopeAt arcY x dx k := rfl
    rw [e2]
    exact (arcY_value (fun i => x i + dx i) k).trans (congrArg₂ (· + ·) (arcY_value x k).symm (arcY_slope x dx k).symm)

theorem arc_cost (K : ℝ) (x : Fin 2 → ℝ) : costAt (arcEnv K).p x = 1 / 2 * distSq x := by
  rw [costAt_real]
  have : ((arcEnv K).p.costs.map fun r => (1 / 2) * ∑ k, valueAt r x k ^ 2).sum
      = (1 / 2) * (∑ k : Fin 1, valueAt arcX x k ^ 2) + ((1 / 2) * (∑ k : Fin 1, valueAt arcY x k ^ 2) + 0) := rfl
  rw [this, Fin.sum_univ_one, Fin.sum_univ_one, add_zero, arcX_value, arcY_value]
  unfold distSq
  ring

theorem arc_violation (K : ℝ) (x : Fin 2 → ℝ) : violationAt (arcEnv K).p x = |K * (x 0 + x 1 ^ 2)| := by
  rw [violationAt_real]
  have : ((arcEnv K).p.eqs.map fun r => ∑ k, |valueAt r x k|).sum = (∑ k : Fin 1, |valueAt (arcEq K) x k|) + 0 := rfl
  rw [this, Fin.sum_univ_one, add_zero, arcEq_value]

theorem arc_curvature (K : ℝ) (x d : Fin 2 → ℝ) (lam : ℝ) (hl : lam ≤ 0) :
    curvature (arcEnv K).p x lam d = d 0 ^ 2 + d 1 ^ 2 := by
  have : curvature (arcEnv K).p x lam d
      = ((∑ k : Fin 1, slopeAt arcX x d k ^ 2) + ((∑ k : Fin 1, slopeAt arcY x d k ^ 2) + 0))
        + max lam 0 * ∑ i, d i ^ 2 := rfl
  rw [this, Fin.sum_univ_one, Fin.sum_univ_one, arcX_slope, arcY_slope, max_eq_right hl]
  ring

theorem arc_run (K : ℝ) (hK : 0 < K) (prm : NLSParams ℝ) (hprm : NLSParamsValid prm) (hpen : 0 < prm.equalityPenaltyInitial)
    (hk : 1 ≤ prm.maxIterations) (x0 : Fin 2 → ℝ) :
    ∃ o' out calls, solve (arcEnv K) prm x0 (mkObj _) = .ok (o', out, calls) ∧ out.iterations ≠ [] := by
  rcases C65_nls_exceptions (arcEnv K) (arc_ok K) (Or.inl rfl) (fun c hc => by cases hc) prm hprm hpen x0 (mkObj _) with
    ⟨⟨o', out, calls⟩, h⟩ | ⟨e, h, ht⟩
  · refine ⟨o', out, calls, h, run_nonempty hk h fun hq => ?_⟩
    have := C46_termination (arcEnv K) prm x0 _ o' out calls h
    rw [hq] at this
    obtain ⟨_, _, _, lam, qp, qp0, pre, s, s', hl, hn⟩ := this
    obtain ⟨-, -, -, -, -, f6⟩ := linearize_facts (arc_ok K) hl
    have hnot := (C28_not_posdef_truthful exactNS exactNS_contract _ s _ hn).1.mp rfl
    apply hnot
    intro d hd _
    have e : ∑ i, ∑ j, d i * Gsym (⟨qp.G, qp.c, qp.A, qp.b, Fin.elim0⟩ : QP 2 0 (arcEnv K).p.K ℝ) i j * d j
        = ∑ i, ∑ j, d i * qp.G (max i j) (min i j) * d j := rfl
    rw [e, f6]
    have hJ : ((arcEnv K).p.costs.map fun r => ∑ k, slopeAt r o'.vars d k ^ 2).sum = d 0 ^ 2 + d 1 ^ 2 := by
      have : ((arcEnv K).p.costs.map fun r => ∑ k, slopeAt r o'.vars d k ^ 2).sum
          = (∑ k : Fin 1, slopeAt arcX o'.vars d k ^ 2) + ((∑ k : Fin 1, slopeAt arcY o'.vars d k ^ 2) + 0) := rfl
      rw [this, Fin.sum_univ_one, Fin.sum_univ_one, arcX_slope, arcY_slope, add_zero]
    rw [hJ]
    have h0 : 0 ≤ max lam 0 * ∑ i, d i ^ 2 :=
      mul_nonneg (le_max_right _ _) (Finset.sum_nonneg fun i _ => sq_nonneg _)
    have h1 : 0 < d 0 ^ 2 + d 1 ^ 2 := by
      by_contra hc
      apply hd
      have e0 : d 0 = 0 := by nlinarith [sq_nonneg (d 0), sq_nonneg (d 1)]
      have e1 : d 1 = 0 := by nlinarith [sq_nonneg (d 0), sq_nonneg (d 1)]
      funext i; fin_cases i <;> assumption
    linarith
  · exfalso
    rcases ht with ⟨h1, _⟩ | ⟨_, h2, _⟩ | ⟨_, _, _, hA, hR⟩ | ⟨_, hu'⟩
    rotate_right
    · exact mkEnv_quiet (by never_throws) hu'
    · exact h1 ⟨rfl, by simp [arcEnv, mkEnv]⟩
    · have h2' : ¬ (1 ≤ 2) := by
        intro hc; exact absurd h2 (by simp [arcEnv, mkEnv, Problem.K, arcEq, res2])
      exact h2' (by norm_num)
    · apply hR exactNS_contract.qr
      intro y hy
      have hrow : ∀ dx : Fin 2 → ℝ, (∑ j, e.2.qp.A ⟨0, Nat.one_pos⟩ j * dx j) + e.2.qp.b ⟨0, Nat.one_pos⟩
          = K * (e.2.vars 0 + e.2.vars 1 ^ 2) + K * (dx 0 + 2 * e.2.vars 1 * dx 1) := by
        intro dx
        have := hA dx
        have h0 := congrArg List.head? this
        have hl : stackedModel e.2.vars dx (arcEnv K).p.eqs = [linAt (arcEq K) e.2.vars dx (0 : Fin 1)] := by
          show List.ofFn _ ++ [] = _
          rw [List.append_nil]
          rfl
        rw [hl, arcEq_lin] at h0
        have h1 := Option.some.inj h0
        exact h1
      have h00 := hrow fun _ => 0
      have h10 := hrow fun j => if j = 0 then 1 else 0
      rw [Fin.sum_univ_two] at h00 h10
      simp only [mul_zero, add_zero, zero_add, if_true, mul_one, one_ne_zero, if_false] at h00 h10
      have hA0 : e.2.qp.A ⟨0, Nat.one_pos⟩ 0 = K := by linarith
      have hy0 : ∑ k : Fin 1, e.2.qp.A k 0 * y k = 0 := hy 0
      rw [Fin.sum_univ_one] at hy0
      have hA0' : e.2.qp.A (0 : Fin 1) 0 = K := hA0
      rw [hA0'] at hy0
      have hy1 : y (0 : Fin 1) = 0 := (mul_eq_zero.mp hy0).resolve_left hK.ne'
      funext k
      have : k = (0 : Fin 1) := Subsingleton.elim (α := Fin 1) k 0
      rw [this]; exact hy1

theorem arcAt_zero (y : ℝ) : arcAt y 0 = - y ^ 2 := by simp [arcAt]
theorem arcAt_one (y : ℝ) : arcAt y 1 = y := by simp [arcAt]

theorem arc_feasible (K y : ℝ) : SatisfiesEqs (arcEnv K).p (arcAt y) := by
  rw [← satisfies_violation, arc_violation, arcAt_zero, arcAt_one]
  simp

/-- The first iteration from a point of the curve. -/
structure ArcFirst (K y pen : ℝ) (b : (arcEnv K).Obj) (it : NLSIteration ℝ) (t : ℝ) : Prop where
  down : t * (1 + 4 * y ^ 2) = - (y * (1 + 2 * y ^ 2))
  dx0 : b.dx 0 = - (2 * y * t)
  dx1 : b.dx 1 = t
  penalty : it.penalty = pen
  notFirst : it.stepResult ≠ .firstOrderSatisfied
  derivative : it.directionalDerivatives.total it.penalty = - (t ^ 2 * (1 + 4 * y ^ 2))
  initial : it.errorsInitial.total it.penalty = 1 / 2 * (y ^ 4 + y ^ 2)
  trial : ∀ st ∈ it.lineSearchSteps, st.errors.total it.penalty = 1 / 2 * (y ^ 4 + y ^ 2)
    - st.alpha * (t ^ 2 * (1 + 4 * y ^ 2)) + st.alpha ^ 2 / 2 * (t ^ 2 * (1 + 4 * y ^ 2)) + pen * K * (st.alpha ^ 2 * t ^ 2)

theorem first_order_stop {n D : Nat} (env : Env n D ℝ) (prm : NLSParams ℝ) (x0 : Fin n → ℝ) (o o' : env.Obj)
    (out : NLSOutputs ℝ) (calls : List (NLSIteration ℝ)) (h : solve env prm x0 o = .ok (o', out, calls))
    (it : NLSIteration ℝ) (hit : it ∈ out.iterations) (hs : it.stepResult = .firstOrderSatisfied) :
    it.directionalDerivatives.lInfinity < prm.absoluteFirstDerivativeTol := by
  obtain ⟨S, T, W, hv⟩ := solve_view h
  obtain ⟨k, hk⟩ := List.mem_iff_getElem?.mp hit
  obtain ⟨_, rfl, hp⟩ := view_info hv hk
  obtain ⟨htr, hout, _⟩ := lsLoop_start _ _ _ _ _ _ _ _ _ _ _ _ hp.ls
  rw [hp.ires] at hs
  rw [hp.ideriv]
  obtain ⟨_, _, _, hlt⟩ := hout.facts.firstOrder hs
  exact hlt

theorem arc_first (K : ℝ) (hK : 0 < K) (prm : NLSParams ℝ) (hl : prm.lambdaInitial ≤ 0) (hpen : 0 < prm.equalityPenaltyInitial)
    (y : ℝ) (hy : y ≠ 0) (htol : prm.absoluteFirstDerivativeTol ≤ y ^ 2) (o o' : (arcEnv K).Obj) (out : NLSOutputs ℝ)
    (calls : List (NLSIteration ℝ)) (h : solve (arcEnv K) prm (arcAt y) o = .ok (o', out, calls))
    (it : NLSIteration ℝ) (hit : out.iterations[0]? = some it) (b : (arcEnv K).Obj)
    (hb : After (arcEnv K) prm (arcAt y) o 1 b) : ∃ t, ArcFirst K y prm.equalityPenaltyInitial b it t := by
  have hmem := List.mem_of_getElem? hit
  obtain ⟨hex, hfirst, -⟩ := C38_after (arcEnv K) prm _ _ o' out calls h
  obtain ⟨a, ha, -⟩ := hex 0 (by omega)
  have hav := hfirst a ha
  have hlam : it.lambda ≤ 0 := by rw [(C43_state_machine (arcEnv K) prm _ _ o' out calls h).1 it hit]; exact hl
  have hsa : SatisfiesEqs (arcEnv K).p a.vars := by rw [hav]; exact arc_feasible K y
  have F := feasible_step (arcEnv K) exactNS_contract (arc_ok K) (arc_affine K) rfl (arc_eqs K) prm _ o o' out calls h 0 it hit hlam
    a b ha hb hsa
  obtain ⟨hdE, htot, hpre, htr⟩ := feasible_trials (arcEnv K) exactNS_contract rfl (arc_ok K) (arc_affine K) rfl (arc_eqs K) prm _ o o'
    out calls h 0 it hit hlam a b ha hb hsa
  have hQ : curvature (arcEnv K).p a.vars it.lambda b.dx = b.dx 0 ^ 2 + b.dx 1 ^ 2 := arc_curvature K _ _ _ hlam
  have y2 : 0 < y ^ 2 := by positivity
  have htan : ∀ d : Fin 2 → ℝ, (∀ r ∈ (arcEnv K).p.eqs, ∀ k, linAt r a.vars d k = 0) ↔ d 0 = - (2 * y * d 1) := by
    intro d
    constructor
    · intro hd
      have := hd (arcEq K) (by simp [arcEnv, mkEnv]) (0 : Fin 1)
      rw [arcEq_lin, hav, arcAt_zero, arcAt_one] at this
      have h2 : K * (d 0 + 2 * y * d 1) = 0 := by linarith
      have := (mul_eq_zero.mp h2).resolve_left hK.ne'
      linarith
    · intro hd r hr k
      have hr' : r ∈ [arcEq K] := hr
      rcases List.mem_singleton.mp hr' with rfl
      have := arcEq_lin K a.vars d k
      refine this.trans ?_
      rw [hav, arcAt_zero, arcAt_one, hd]; ring
  have d0 := (htan b.dx).mp F.tangent
  set t := b.dx 1 with ht
  have hQt : b.dx 0 ^ 2 + t ^ 2 = t ^ 2 * (1 + 4 * y ^ 2) := by rw [d0]; ring
  have hcosta : costAt (arcEnv K).p a.vars = 1 / 2 * (y ^ 4 + y ^ 2) := by
    rw [arc_cost, hav]; unfold distSq; rw [arcAt_zero, arcAt_one]; ring
  have hcostd : ∀ d : Fin 2 → ℝ, costAt (arcEnv K).p (fun i => a.vars i + d i) = 1 / 2 * ((- y ^ 2 + d 0) ^ 2 + (y + d 1) ^ 2) := by
    intro d
    rw [arc_cost, hav]; unfold distSq; simp only; rw [arcAt_zero, arcAt_one]
  have hline := F.line 1
  simp only [one_mul] at hline
  rw [hcostd, hcosta, hQ, hQt, d0] at hline
  have hkey : t * (t * (1 + 4 * y ^ 2) + y * (1 + 2 * y ^ 2)) = 0 := by nlinarith
  have hden : (0 : ℝ) < 1 + 4 * y ^ 2 := by positivity
  have hdown : t * (1 + 4 * y ^ 2) = - (y * (1 + 2 * y ^ 2)) := by
    rcases mul_eq_zero.mp hkey with h0 | h0
    · exfalso
      set s := - (y * (1 + 2 * y ^ 2)) / (1 + 4 * y ^ 2) with hs
      have hs1 : s * (1 + 4 * y ^ 2) = - (y * (1 + 2 * y ^ 2)) := by rw [hs]; field_simp
      have hb := F.best (fun i => if i = 0 then - (2 * y * s) else s) ((htan _).mpr (by simp)) (by
        intro hc
        have h1 : s = t := by have := congrFun hc 1; simpa using this
        rw [h1, h0] at hs1
        have : y * (1 + 2 * y ^ 2) ≠ 0 := mul_ne_zero hy (by positivity)
        apply this; linarith)
      rw [hcostd, hcostd] at hb
      simp only [if_true, one_ne_zero, if_false, ← ht] at hb
      rw [d0, h0] at hb
      have e1 : (-y ^ 2 + -(2 * y * s)) ^ 2 + (y + s) ^ 2
          = y ^ 4 + y ^ 2 + 2 * s * (y * (1 + 2 * y ^ 2)) + s * (s * (1 + 4 * y ^ 2)) := by ring
      rw [e1, hs1] at hb
      have e2 : 0 ≤ - (s * (y * (1 + 2 * y ^ 2))) := by
        have : - (s * (y * (1 + 2 * y ^ 2))) = s ^ 2 * (1 + 4 * y ^ 2) := by
          have : s ^ 2 * (1 + 4 * y ^ 2) = s * (s * (1 + 4 * y ^ 2)) := by ring
          rw [this, hs1]; ring
        rw [this]; positivity
      nlinarith
    · linarith
  have hqlow : y ^ 2 ≤ t ^ 2 * (1 + 4 * y ^ 2) := by
    have e : (t ^ 2 * (1 + 4 * y ^ 2)) * (1 + 4 * y ^ 2) = y ^ 2 * (1 + 2 * y ^ 2) ^ 2 := by
      have : (t ^ 2 * (1 + 4 * y ^ 2)) * (1 + 4 * y ^ 2) = (t * (1 + 4 * y ^ 2)) ^ 2 := by ring
      rw [this, hdown]; ring
    have e2 : y ^ 2 * (1 + 4 * y ^ 2) ≤ (t ^ 2 * (1 + 4 * y ^ 2)) * (1 + 4 * y ^ 2) := by
      rw [e]
      have : (0 : ℝ) ≤ y ^ 2 * (4 * y ^ 4) := by positivity
      nlinarith
    exact le_of_mul_le_mul_right e2 hden
  have hdF : it.directionalDerivatives.dF = - (t ^ 2 * (1 + 4 * y ^ 2)) := by rw [F.slope, hQ, hQt]
  have hp : it.penalty = prm.equalityPenaltyInitial := by
    obtain ⟨e, -⟩ := C44_penalty_update (arcEnv K) prm _ _ o' out calls h 0 it hit b hb
    have hns := (C45_which_solver (arcEnv K) prm _ _ o' out calls h it hmem).1 ⟨rfl, arc_eqs K⟩
    obtain ⟨h1, h2, -⟩ := C38_direction (arcEnv K) prm _ _ o' out calls h 0 it hit a b ha hb
    obtain ⟨f1, f2, f3, f4, f5, f6⟩ := linearize_facts (arc_ok K) h1
    have hw := select_penalty_free b.qp b.dx prm.equalityPenaltyRho
    have hcd := (costDerivative_real b.qp b.dx).1
    rw [← h2, hdF] at hcd
    have hcurv : (∑ i, ∑ j, b.dx i * b.qp.G (max i j) (min i j) * b.dx j) = t ^ 2 * (1 + 4 * y ^ 2) :=
      ((f6 _).trans hQ).trans hQt
    have hrho : 0 ≤ prm.equalityPenaltyRho ∧ prm.equalityPenaltyRho < 1 := by
      obtain ⟨S, T, W, hv⟩ := solve_view h
      exact hv.prmOk.equalityPenaltyRho
    rw [← hcd, hcurv, max_eq_right (by linarith)] at hw
    have hm : multipliers it.qpOutputs = none := by rw [hns]; rfl
    simp only [if_true] at e
    rw [hm] at e
    rw [e, if_neg]
    rintro ⟨-, hlt⟩
    rw [hw] at hlt
    have hneg : (-(t ^ 2 * (1 + 4 * y ^ 2)) + 1 / 2 * (t ^ 2 * (1 + 4 * y ^ 2)))
        / ((1 - prm.equalityPenaltyRho) * max (∑ k, |b.qp.b k|) (1 / 2 ^ 52)) ≤ 0 := by
      refine div_nonpos_of_nonpos_of_nonneg (by linarith) (mul_nonneg (by linarith) (le_max_of_le_right (by positivity)))
    linarith
  refine ⟨t, hdown, d0, rfl, hp, ?_, ?_, ?_, ?_⟩
  · intro hc
    have hlt := (first_order_stop (arcEnv K) prm _ _ o' out calls h it hmem hc)
    unfold DirectionalDerivatives.lInfinity at hlt
    rw [hdF, hdE] at hlt
    simp only [real_cmax, real_abs] at hlt
    have h1 := (le_max_left _ _).trans_lt hlt
    rw [abs_neg, abs_of_nonneg (by linarith)] at h1
    linarith
  · rw [htot, hQ, hQt]
  · rw [hpre, hcosta]
  · intro st hst
    rw [htr st hst, hcosta, hQ, hQt, hp, arc_violation, hav]
    rw [arcAt_zero, arcAt_one, d0]
    have : K * (-y ^ 2 + st.alpha * -(2 * y * t) + (y + st.alpha * t) ^ 2) = K * (st.alpha ^ 2 * t ^ 2) := by ring
    rw [this, abs_of_nonneg (by positivity)]
    ring

/-- **C110** (a full step that is accepted). If the penalty in the units of the constraint is at most `0.4999`, the first iteration
from any point of the curve accepts its full step, which at least squares the distance from the solution. -/
theorem C110_accepted (K : ℝ) (hK : 0 < K) (prm : NLSParams ℝ) (hprm : NLSParamsValid prm) (hk : 1 ≤ prm.maxIterations)
    (hl : prm.lambdaInitial ≤ 0) (hpen : 0 < prm.equalityPenaltyInitial)
    (hsmall : prm.equalityPenaltyInitial * K ≤ 4999 / 10000)
    (y : ℝ) (hy : y ≠ 0) (htol : prm.absoluteFirstDerivativeTol ≤ y ^ 2) :
    ∃ o' out calls, solve (arcEnv K) prm (arcAt y) (mkObj _) = .ok (o', out, calls) ∧
    ∃ it, out.iterations[0]? = some it ∧ it.stepResult = .success ∧ it.lineSearchSteps.length = 1 ∧
    ∃ b, After (arcEnv K) prm (arcAt y) (mkObj _) 1 b ∧ distSq b.vars ≤ distSq (arcAt y) ^ 2 := by
  obtain ⟨o', out, calls, h, hne⟩ := arc_run K hK prm hprm hpen hk (arcAt y)
  obtain ⟨it, hit⟩ := first_of hne
  have hmem := List.mem_of_getElem? hit
  obtain ⟨hex, hfirst, -⟩ := C38_after (arcEnv K) prm _ _ o' out calls h
  obtain ⟨a, ha, -⟩ := hex 0 (by omega)
  obtain ⟨b, hb, -⟩ := hex 1 (by have := List.length_pos_iff.mpr hne; omega)
  have hav := hfirst a ha
  obtain ⟨t, A⟩ := arc_first K hK prm hl hpen y hy htol _ o' out calls h it hit b hb
  have hc1 : (armijoC1 : ℝ) = 1 / 10 ^ 4 := by unfold armijoC1; simp
  obtain ⟨hlen, -, hfirst1, -⟩ := C40_alphas_any (arcEnv K) prm _ _ o' out calls h it hmem
  obtain ⟨hrej, hsucc⟩ := C40_only_last_accepted (arcEnv K) prm _ _ o' out calls h it hmem
  obtain ⟨st, hst⟩ : ∃ st, it.lineSearchSteps[0]? = some st := ⟨_, List.getElem?_eq_getElem hlen⟩
  have hα := hfirst1 st hst
  have ht2 : 0 ≤ t ^ 2 := sq_nonneg t
  have hty : 0 ≤ t ^ 2 * (4 * y ^ 2) := by positivity
  have harm : st.errors.total it.penalty ≤ it.errorsInitial.total it.penalty
      + it.directionalDerivatives.total it.penalty * st.alpha * armijoC1 := by
    rw [A.trial st (List.mem_of_getElem? hst), A.initial, A.derivative, hα, hc1]
    have := mul_le_mul_of_nonneg_right hsmall ht2
    nlinarith
  have h1 : it.lineSearchSteps.length = 1 := by
    by_contra hne
    exact (hrej 0 st (by omega) hst).2 harm
  have hs : it.stepResult = .success := by
    rcases search_outcomes (arcEnv K) prm _ _ o' out calls h it hmem (by rw [A.derivative]; nlinarith) with hs | ⟨hs, -⟩ | ⟨hs, -⟩
    · exact hs
    · exact absurd hs A.notFirst
    · exact absurd harm (hs st (List.mem_of_getElem? hst))
  refine ⟨o', out, calls, h, it, hit, hs, h1, b, hb, ?_⟩
  obtain ⟨hm1, -⟩ := C38_variables_move (arcEnv K) prm _ _ o' out calls h 0 it hit a b ha hb
  obtain ⟨st', hl', hmv⟩ := hm1 hs
  rw [List.getLast?_eq_getElem?, h1] at hl'
  have hst'' : it.lineSearchSteps[0]? = some st' := hl'
  rw [hst] at hst''
  cases Option.some.inj hst''
  obtain ⟨_, hvars⟩ := (show ∃ h : 2 = 2, b.vars = _ from hmv)
  have hv : ∀ i, b.vars i = arcAt y i + b.dx i := by
    intro i; rw [hvars, hα, ← hav]; simp
  unfold distSq
  rw [hv, hv, arcAt_zero, arcAt_one, A.dx0, A.dx1]
  have hden : (1 : ℝ) ≤ 1 + 4 * y ^ 2 := by nlinarith [sq_nonneg y]
  have e : ((- y ^ 2 + - (2 * y * t)) ^ 2 + (y + t) ^ 2) * (1 + 4 * y ^ 2) = y ^ 4 := by
    have : ((- y ^ 2 + - (2 * y * t)) ^ 2 + (y + t) ^ 2) * (1 + 4 * y ^ 2)
        = (y ^ 4 + y ^ 2) * (1 + 4 * y ^ 2) + 2 * (t * (1 + 4 * y ^ 2)) * (y * (1 + 2 * y ^ 2)) + (t * (1 + 4 * y ^ 2)) ^ 2 := by ring
    rw [this, A.down]; ring
  have h0 : 0 ≤ (- y ^ 2 + - (2 * y * t)) ^ 2 + (y + t) ^ 2 := by positivity
  have h2 : (- y ^ 2 + - (2 * y * t)) ^ 2 + (y + t) ^ 2 ≤ y ^ 4 := by
    rw [← e]; exact le_mul_of_one_le_right h0 hden
  refine h2.trans ?_
  have : ((- y ^ 2) ^ 2 + y ^ 2) ^ 2 = y ^ 4 + (y ^ 8 + 2 * y ^ 6) := by ring
  rw [this]
  have : (0 : ℝ) ≤ y ^ 8 + 2 * y ^ 6 := by positivity
  linarith

/-- **C110** (full steps that are refused). If the penalty in the units of the constraint is at least `1`, the first iteration from
any point of the curve with `|y| ≤ 1 / 2`, however close to the solution, refuses its full step, takes a second one, and leaves at least
`0.49` of the distance from the solution. -/
theorem C110_refused (K : ℝ) (hK : 0 < K) (prm : NLSParams ℝ) (hprm : NLSParamsValid prm) (hk : 1 ≤ prm.maxIterations)
    (hl : prm.lambdaInitial ≤ 0) (hpen : 0 < prm.equalityPenaltyInitial)
    (hls : 1 ≤ prm.maxLineSearchIterations) (hstr : prm.lineSearchStrategy = .polynomialApproximation)
    (hbig : 1 ≤ prm.equalityPenaltyInitial * K)
    (y : ℝ) (hy : y ≠ 0) (hy2 : y ^ 2 ≤ 1 / 4) (htol : prm.absoluteFirstDerivativeTol ≤ y ^ 2) :
    ∃ o' out calls, solve (arcEnv K) prm (arcAt y) (mkObj _) = .ok (o', out, calls) ∧
    ∃ it, out.iterations[0]? = some it ∧ it.stepResult = .success ∧ it.lineSearchSteps.length = 2 ∧
    ∃ b, After (arcEnv K) prm (arcAt y) (mkObj _) 1 b ∧ (49 / 100) ^ 2 * distSq (arcAt y) ≤ distSq b.vars := by
  obtain ⟨o', out, calls, h, hne⟩ := arc_run K hK prm hprm hpen hk (arcAt y)
  obtain ⟨it, hit⟩ := first_of hne
  have hmem := List.mem_of_getElem? hit
  obtain ⟨hex, hfirst, -⟩ := C38_after (arcEnv K) prm _ _ o' out calls h
  obtain ⟨a, ha, -⟩ := hex 0 (by omega)
  obtain ⟨b, hb, -⟩ := hex 1 (by have := List.length_pos_iff.mpr hne; omega)
  have hav := hfirst a ha
  obtain ⟨t, A⟩ := arc_first K hK prm hl hpen y hy htol _ o' out calls h it hit b hb
  set c := prm.equalityPenaltyInitial * K with hc
  have hc1 : (armijoC1 : ℝ) = 1 / 10 ^ 4 := by unfold armijoC1; simp
  obtain ⟨hlen, -, hfirst1, -⟩ := C40_alphas_any (arcEnv K) prm _ _ o' out calls h it hmem
  obtain ⟨-, -, hpos, -⟩ := C40_alphas (arcEnv K) prm _ _ o' out calls h it hmem
  obtain ⟨hrej, hsucc⟩ := C40_only_last_accepted (arcEnv K) prm _ _ o' out calls h it hmem
  obtain ⟨st0, hst0⟩ : ∃ st, it.lineSearchSteps[0]? = some st := ⟨_, List.getElem?_eq_getElem hlen⟩
  have hα0 := hfirst1 st0 hst0
  have hden : (0 : ℝ) < 1 + 4 * y ^ 2 := by positivity
  have ht : t ≠ 0 := by
    intro h0
    have := A.down
    rw [h0, zero_mul] at this
    have : y * (1 + 2 * y ^ 2) ≠ 0 := mul_ne_zero hy (by positivity)
    apply this; linarith
  have ht2 : 0 < t ^ 2 := by positivity
  have hQ : 0 < t ^ 2 * (1 + 4 * y ^ 2) := by positivity
  have hQ2 : t ^ 2 * (1 + 4 * y ^ 2) ≤ 2 * t ^ 2 := by nlinarith
  have hct : t ^ 2 ≤ c * t ^ 2 := by nlinarith
  have hneg : it.directionalDerivatives.total it.penalty < 0 := by rw [A.derivative]; linarith
  have hrefused : ¬ st0.errors.total it.penalty ≤ it.errorsInitial.total it.penalty
      + it.directionalDerivatives.total it.penalty * st0.alpha * armijoC1 := by
    rw [A.trial st0 (List.mem_of_getElem? hst0), A.initial, A.derivative, hα0, hc1]
    intro hle
    set q := t ^ 2 * (1 + 4 * y ^ 2)
    linarith
  obtain ⟨hnf, hsecond⟩ := C42_never_fails (arcEnv K) prm _ _ o' out calls h hstr it hmem hneg
  obtain ⟨-, hpar⟩ := C41_first_interpolation (arcEnv K) prm _ _ o' out calls h hstr it hmem hneg
  have hlen2 : 2 ≤ it.lineSearchSteps.length := by
    by_contra hc'
    have h1 : it.lineSearchSteps.length = 1 := by omega
    rcases search_outcomes (arcEnv K) prm _ _ o' out calls h it hmem hneg.le with hs | ⟨hs, -⟩ | ⟨-, hs | ⟨-, hs⟩⟩
    · obtain ⟨st', hl', -, -, -, hA⟩ := hsucc.mp hs
      rw [List.getLast?_eq_getElem?, h1] at hl'
      have hst'' : it.lineSearchSteps[0]? = some st' := hl'
      rw [hst0] at hst''
      cases Option.some.inj hst''
      exact hrefused hA
    · exact A.notFirst hs
    · rw [h1] at hs; omega
    · exact hnf hs
  obtain ⟨st1, hst1⟩ : ∃ st, it.lineSearchSteps[1]? = some st := ⟨_, List.getElem?_eq_getElem hlen2⟩
  have hm1 := List.mem_of_getElem? hst1
  have hlt : st1.alpha < 51 / 100 := by
    have := (hsecond 0 st0 st1 hst0 hst1).1
    rw [hα0] at this; linarith
  have hα1 := (hpos st1 hm1).1
  have harm : st1.errors.total it.penalty ≤ it.errorsInitial.total it.penalty
      + it.directionalDerivatives.total it.penalty * st1.alpha * armijoC1 := by
    obtain ⟨-, kk, hkk, hk1, hkmin⟩ := hpar st0 st1 hst0 hst1
    unfold parabola at hk1 hkmin
    rw [A.trial st0 (List.mem_of_getElem? hst0), A.initial, A.derivative, hα0] at hk1
    rw [A.initial, A.derivative] at hkmin
    rw [A.trial st1 hm1, A.initial, A.derivative, hc1]
    set q := t ^ 2 * (1 + 4 * y ^ 2)
    set α := st1.alpha
    set e := 1 / 2 * (y ^ 4 + y ^ 2)
    have hkv : kk = q / 2 + c * t ^ 2 := by linarith
    have hmin := hkmin (q / (2 * kk))
    have hdiv : 2 * kk * (q / (2 * kk)) = q := by field_simp
    set m := q / (2 * kk)
    have hsq : kk * (α - m) ^ 2 ≤ 0 := by
      have : kk * (α - m) ^ 2 = (e + -q * α + kk * α ^ 2) - (e + -q * m + kk * m ^ 2)
          + (q - 2 * kk * m) * (α - m) := by ring
      rw [this, hdiv]; nlinarith
    have hzero : α - m = 0 := by
      have h3 : (α - m) ^ 2 ≤ 0 := by
        by_contra hcc
        have := mul_pos hkk (not_le.mp hcc)
        linarith
      exact pow_eq_zero_iff (two_ne_zero) |>.mp (le_antisymm h3 (sq_nonneg _))
    have hαm : 2 * kk * α = q := by rw [show α = m by linarith, hdiv]
    have e1 : α ^ 2 / 2 * q + c * (α ^ 2 * t ^ 2) = α * q / 2 := by
      have : α ^ 2 / 2 * q + c * (α ^ 2 * t ^ 2) = α * (2 * (q / 2 + c * t ^ 2) * α) / 2 := by ring
      rw [this, ← hkv, hαm]
    have : 0 ≤ α * q := by positivity
    linarith
  have hl2 : it.lineSearchSteps.length = 2 := by
    by_contra hne
    exact (hrej 1 st1 (by omega) hst1).2 harm
  have hs : it.stepResult = .success := by
    rcases search_outcomes (arcEnv K) prm _ _ o' out calls h it hmem hneg.le with hs | ⟨hs, -⟩ | ⟨hs, -⟩
    · exact hs
    · exact absurd hs A.notFirst
    · exact absurd harm (hs st1 hm1)
  refine ⟨o', out, calls, h, it, hit, hs, hl2, b, hb, ?_⟩
  obtain ⟨hmv, -⟩ := C38_variables_move (arcEnv K) prm _ _ o' out calls h 0 it hit a b ha hb
  obtain ⟨st', hl', hmv⟩ := hmv hs
  rw [List.getLast?_eq_getElem?, hl2] at hl'
  have hst'' : it.lineSearchSteps[1]? = some st' := hl'
  rw [hst1] at hst''
  cases Option.some.inj hst''
  obtain ⟨_, hvars⟩ := (show ∃ h : 2 = 2, b.vars = _ from hmv)
  have hv : ∀ i, b.vars i = arcAt y i + b.dx i * st1.alpha := by
    intro i; rw [hvars, ← hav]; simp
  unfold distSq
  rw [hv, hv, arcAt_zero, arcAt_one, A.dx0, A.dx1]
  set α := st1.alpha
  have hd := A.down
  have e : (- y ^ 2 + - (2 * y * t) * α) ^ 2 + (y + t * α) ^ 2
      = (y ^ 4 + y ^ 2) + 2 * α * (t * (y * (1 + 2 * y ^ 2))) + α ^ 2 * (t * (t * (1 + 4 * y ^ 2))) := by ring
  have hqq : t * (y * (1 + 2 * y ^ 2)) = - (t ^ 2 * (1 + 4 * y ^ 2)) := by
    have : t ^ 2 * (1 + 4 * y ^ 2) = t * (t * (1 + 4 * y ^ 2)) := by ring
    rw [this, hd]; ring
  have e2 : t * (t * (1 + 4 * y ^ 2)) = t ^ 2 * (1 + 4 * y ^ 2) := by ring
  rw [e, hqq, e2]
  have hqle : t ^ 2 * (1 + 4 * y ^ 2) ≤ y ^ 4 + y ^ 2 := by
    have e3 : (t ^ 2 * (1 + 4 * y ^ 2)) * (1 + 4 * y ^ 2) = y ^ 2 * (1 + 2 * y ^ 2) ^ 2 := by
      have : (t ^ 2 * (1 + 4 * y ^ 2)) * (1 + 4 * y ^ 2) = (t * (1 + 4 * y ^ 2)) ^ 2 := by ring
      rw [this, hd]; ring
    have e4 : (t ^ 2 * (1 + 4 * y ^ 2)) * (1 + 4 * y ^ 2) ≤ (y ^ 4 + y ^ 2) * (1 + 4 * y ^ 2) := by
      rw [e3]
      have e5 : (y ^ 4 + y ^ 2) * (1 + 4 * y ^ 2) = y ^ 2 * (1 + 2 * y ^ 2) ^ 2 + y ^ 4 := by ring
      rw [e5]
      have : (0 : ℝ) ≤ y ^ 4 := by positivity
      linarith
    exact le_of_mul_le_mul_right e4 hden
  set q := t ^ 2 * (1 + 4 * y ^ 2)
  have hbeta : 2 * α - α ^ 2 ≤ 1 - (49 / 100) ^ 2 := by nlinarith
  have hb0 : 0 ≤ 2 * α - α ^ 2 := by nlinarith
  have hn : (0 : ℝ) ≤ y ^ 4 + y ^ 2 := by positivity
  have e6 : (2 * α - α ^ 2) * q ≤ (1 - (49 / 100) ^ 2) * (y ^ 4 + y ^ 2) :=
    mul_le_mul hbeta hqle hQ.le (by norm_num)
  have e7 : ((- y ^ 2) ^ 2 + y ^ 2) = y ^ 4 + y ^ 2 := by ring
  rw [e7]
  linarith

/-- **C110** (default parameters). With the default parameters and the constraint written as `x₀ + x₁² = 0`, the full step is refused
at every point of the curve with `10⁻³ ≤ |y| ≤ 1 / 2` (closer to the solution the first-derivative tolerance stops the run). -/
theorem C110_default (y : ℝ) (hy1 : 1 / 10 ^ 6 ≤ y ^ 2) (hy2 : y ^ 2 ≤ 1 / 4) :
    ∃ o' out calls, solve (arcEnv 1) dp (arcAt y) (mkObj _) = .ok (o', out, calls) ∧
    ∃ it, out.iterations[0]? = some it ∧ it.stepResult = .success ∧ it.lineSearchSteps.length = 2 ∧
    ∃ b, After (arcEnv 1) dp (arcAt y) (mkObj _) 1 b ∧ (49 / 100) ^ 2 * distSq (arcAt y) ≤ distSq b.vars := by
  refine C110_refused 1 one_pos dp nls_default_valid dp_iterations le_rfl dp_penalty (show (1 : Int) ≤ 2 by norm_num) rfl ?_ y ?_ hy2 ?_
  · show (1 : ℝ) ≤ 1 * 1
    norm_num
  · rintro rfl
    norm_num at hy1
  · have ht : dp.absoluteFirstDerivativeTol = 1 / 10 ^ 6 := by
      show (Scalar.lit _ : ℝ) = _
      simp
    rw [ht]; exact hy1

/-- **C110** (units). Whatever the initial penalty, multiplying the constraint by a suitable constant decides whether the full step is
accepted: for every choice of parameters (polynomial line search with a retry, no damping, no first-derivative tolerance) there are two
equivalent constraints such that from every point of the curve with `0 < |y| ≤ 1 / 2` the first step squares the distance with one of them,
and leaves at least `0.49` of it with the other. -/
theorem C110_units (prm : NLSParams ℝ) (hprm : NLSParamsValid prm) (hk : 1 ≤ prm.maxIterations) (hl : prm.lambdaInitial ≤ 0)
    (hpen : 0 < prm.equalityPenaltyInitial) (hls : 1 ≤ prm.maxLineSearchIterations)
    (hstr : prm.lineSearchStrategy = .polynomialApproximation) (htol : prm.absoluteFirstDerivativeTol = 0) :
    ∃ K₁ K₂ : ℝ, 0 < K₁ ∧ 0 < K₂ ∧ ∀ y : ℝ, y ≠ 0 → y ^ 2 ≤ 1 / 4 →
      (∃ b, After (arcEnv K₁) prm (arcAt y) (mkObj _) 1 b ∧ distSq b.vars ≤ distSq (arcAt y) ^ 2) ∧
      (∃ b, After (arcEnv K₂) prm (arcAt y) (mkObj _) 1 b ∧ (49 / 100) ^ 2 * distSq (arcAt y) ≤ distSq b.vars) := by
  refine ⟨2 / 5 / prm.equalityPenaltyInitial, 1 / prm.equalityPenaltyInitial, by positivity, by positivity, fun y hy hy2 => ⟨?_, ?_⟩⟩
  · obtain ⟨-, -, -, -, -, -, -, -, b, hb, hd⟩ := C110_accepted (2 / 5 / prm.equalityPenaltyInitial) (by positivity) prm hprm hk hl hpen
      (by rw [mul_div_cancel₀ _ hpen.ne']; norm_num) y hy (by rw [htol]; positivity)
    exact ⟨b, hb, hd⟩
  · obtain ⟨-, -, -, -, -, -, -, -, b, hb, hd⟩ := C110_refused (1 / prm.equalityPenaltyInitial) (by positivity) prm hprm hk hl hpen hls hstr
      (by rw [mul_div_cancel₀ _ hpen.ne']) y hy hy2 (by rw [htol]; positivity)
    exact ⟨b, hb, hd⟩

/-- C110 (units): parameters that meet the hypotheses. -/
example : NLSParamsValid { dp with absoluteFirstDerivativeTol := 0 } ∧ 1 ≤ dp.maxIterations ∧ dp.lambdaInitial ≤ 0 ∧
    0 < dp.equalityPenaltyInitial ∧ 1 ≤ dp.maxLineSearchIterations ∧ dp.lineSearchStrategy = .polynomialApproximation :=
  ⟨dp_tol 0 le_rfl, dp_iterations, le_rfl, dp_penalty, show (1 : Int) ≤ 2 by norm_num, rfl⟩

/-- C110: a run that starts where a curved constraint holds meets the hypotheses of `C110_full_step`, and its full step is refused. -/
example : ∃ o' out calls, solve (arcEnv 1) dp (arcAt (1 / 3)) (mkObj _) = .ok (o', out, calls) ∧
    ∃ it, out.iterations[0]? = some it ∧ it.lambda ≤ 0 ∧ it.stepResult ≠ .firstOrderSatisfied ∧ it.lineSearchSteps.length = 2 ∧
    NSContract (arcEnv 1).NE ∧ (arcEnv 1).retraction = none ∧ WellPosed (arcEnv 1).p 2 ∧ AffineCosts (arcEnv 1).p ∧
    (arcEnv 1).p.ineq = [] ∧ (arcEnv 1).p.eqs ≠ [] ∧ SatisfiesEqs (arcEnv 1).p (arcAt (1 / 3)) := by
  obtain ⟨o', out, calls, h, it, hit, hs, hlen, -⟩ := C110_default (1 / 3) (by norm_num) (by norm_num)
  refine ⟨o', out, calls, h, it, hit, ?_, by rw [hs]; simp, hlen, exactNS_contract, rfl, arc_ok 1, arc_affine 1, rfl, arc_eqs 1,
    arc_feasible 1 _⟩
  rw [(C43_state_machine (arcEnv 1) dp _ _ o' out calls h).1 it hit]; exact le_rfl

end MiniOpt.Props
