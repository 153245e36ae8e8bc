import Verif.Props.Coordinates
import Verif.Props.DampedLSExamples
import Mathlib.Algebra.Module.LinearMap.Basic

/-!
# Changing units: without damping nothing changes, with damping the result does
-/

set_option autoImplicit false

namespace MiniOpt.Props

open MiniOpt.Spec MiniOpt.NLS MiniOpt.DemoReal

/-- `x = 2 y`. -/
noncomputable def doubled : (Fin 2 → ℝ) ≃ₗ[ℝ] (Fin 2 → ℝ) := LinearEquiv.smulOfNeZero ℝ (Fin 2 → ℝ) 2 two_ne_zero

theorem doubled_apply (e : Fin 2 → ℝ) (i : Fin 2) : doubled e i = 2 * e i := rfl

/-- `(x - 3)² + (y - 1)²` in the units `x = 2 y`. -/
noncomputable def unitsEnv : Env 2 2 ℝ :=
  mkEnv ⟨[rewrittenResidual doubled 0 cost1, rewrittenResidual doubled 0 cost3], [], []⟩

theorem units_ok : WellPosed unitsEnv.p 2 := rewritten_wellPosed line_ok doubled 0

/-- C101 (a linear change of variables) for the undamped solve of `(x - 3)² + (y - 1)²` with any start. -/
example (y0 : Fin 2 → ℝ) : ∃ (o1 : lineEnv.Obj) (o1' : unitsEnv.Obj) (out out' : NLSOutputs ℝ) (calls calls' : List (NLSIteration ℝ)),
    solve lineEnv dp (affineMap doubled 0 y0) (mkObj _) = .ok (o1, out, calls) ∧
    solve unitsEnv dp y0 (mkObj _) = .ok (o1', out', calls') ∧ out.iterations ≠ [] ∧
    (∀ i, o1.vars i = 2 * o1'.vars i) ∧ out'.termination = out.termination := by
  obtain ⟨o1, out, calls, h, hne⟩ := line_run (affineMap doubled 0 y0)
  obtain ⟨o1', out', calls', h', -⟩ := ip_run _ units_ok (by simp [unitsEnv, mkEnv]) (fun c hc => by cases hc) dp nls_default_valid
    dp_penalty dp_iterations y0
  refine ⟨o1, o1', out, out', calls, calls', h, h', hne, ?_⟩
  obtain ⟨-, hdamp⟩ := C97_damping lineEnv exactEigen_contract rfl line_ok line_affine rfl rfl 1 line_curved dp _ _ _ _ _ h
  obtain ⟨r1, r2, -⟩ := C101_affine lineEnv unitsEnv doubled 0 rfl rfl rfl trivial exactEigen_contract exactEigen_contract
    exactNS_contract exactNS_contract line_ok rfl dp y0 _ o1 _ o1' out out' calls calls' h h'
    (fun _ k it a _ _ => .inr fun d hd => by
      by_contra hd0
      have := line_rank a.vars d hd0
      have h0 : (lineEnv.p.costs.map fun r => ∑ k, slopeAt r a.vars d k ^ 2).sum = 0 := by
        refine List.sum_eq_zero fun v hv => ?_
        obtain ⟨r, hr, rfl⟩ := List.mem_map.mp hv
        exact Finset.sum_eq_zero fun k _ => by rw [hd r hr k]; norm_num
      rw [h0] at this
      exact lt_irrefl _ this)
    (.inr fun it hit => by
      obtain ⟨k, hk⟩ := List.mem_iff_getElem?.mp hit
      have h0 := (hdamp k it hk).1
      have : decayed dp k = 0 := by simp [decayed, NLSParams.default]
      rw [this] at h0
      exact max_eq_right_iff.mp h0)
  refine ⟨fun i => ?_, r2⟩
  rw [r1]
  show doubled o1'.vars i + 0 = _
  rw [doubled_apply, add_zero]


/-- One damped iteration. -/
noncomputable def dampedOnce : NLSParams ℝ := { dampedPrm with maxIterations := 1 }

theorem dampedOnce_valid : NLSParamsValid dampedOnce := by
  constructor <;> simp only [dampedOnce, dampedPrm, NLSParams.default, real_lit] <;> norm_num

theorem line_cost (x : Fin 2 → ℝ) : costAt lineEnv.p x = 1 / 2 * (x 0 - 3) ^ 2 + 1 / 2 * (x 1 - 1) ^ 2 := by
  rw [costAt_real]
  have e (u v : Fin 1 → ℝ) : (1 / 2) * (∑ k, u k) + ((1 / 2) * (∑ k, v k) + 0) = (1 / 2) * u 0 + (1 / 2) * v 0 := by simp
  refine (e (fun k => valueAt cost1 x k ^ 2) fun k => valueAt cost3 x k ^ 2).trans ?_
  unfold cost1 cost3
  rw [res2_value, res2_value]

theorem units_costs : List.Forall₂ (SameResidual 2 (affineMap doubled 0) fun _ => doubled) lineEnv.p.costs unitsEnv.p.costs :=
  .cons (rewritten_same doubled 0 cost1) (.cons (rewritten_same doubled 0 cost3) .nil)

theorem units_same : SameProblem lineEnv unitsEnv (affineMap doubled 0) (fun _ => doubled) := by
  refine ⟨⟨_, units_costs, .refl _⟩, ⟨_, .nil, .refl _⟩, ?_, trivial⟩
  · intro y e a x z hx hz
    have h1 : retract lineEnv (affineMap doubled 0 y) (doubled e) a
      = .ok fun i => affineMap doubled 0 y i + doubled e i * a := rfl
    have h2 : retract unitsEnv y e a = .ok fun i => y i + e i * a := rfl
    rw [h1] at hx
    rw [h2] at hz
    cases hx; cases hz
    funext i
    show 2 * y i + 0 + 2 * e i * a = 2 * (y i + e i * a) + 0
    ring

theorem units_cost (y : Fin 2 → ℝ) : costAt unitsEnv.p y = 1 / 2 * (2 * y 0 - 3) ^ 2 + 1 / 2 * (2 * y 1 - 1) ^ 2 := by
  have := congrArg Errors.f (same_errors units_same y)
  have h2 : costAt unitsEnv.p y = costAt lineEnv.p (affineMap doubled 0 y) := this
  rw [h2, line_cost]
  show 1 / 2 * (2 * y 0 + 0 - 3) ^ 2 + 1 / 2 * (2 * y 1 + 0 - 1) ^ 2 = _
  ring

theorem units_slopes (y e : Fin 2 → ℝ) : (unitsEnv.p.costs.map fun r => ∑ k, slopeAt r y e k ^ 2).sum
    = 4 * (e 0 ^ 2 + e 1 ^ 2) := by
  have h1 := forall2_sum units_costs (fun r => ∑ k, slopeAt r (affineMap doubled 0 y) (doubled e) k ^ 2)
    (fun r => ∑ k, slopeAt r y e k ^ 2) fun r r' hr => (ofFn_sum _ _ (hr.slope y e) fun u => u ^ 2).symm
  rw [← h1, line_costs fun r k => slopeAt r (affineMap doubled 0 y) (doubled e) k ^ 2, cost1_slope, cost3_slope,
    doubled_apply, doubled_apply]
  ring

theorem units_curved : Curved unitsEnv.p (fun _ : Fin 2 → ℝ => True) 0 4 := by
  refine ⟨by norm_num, fun x _ d => ?_⟩
  unfold curvature
  rw [units_slopes, Fin.sum_univ_two, max_self]
  linarith

theorem units_affine : AffineCosts unitsEnv.p := by
  intro r hr x dx k
  have key : ∀ r0 : Residual ℝ, r0 ∈ lineEnv.p.costs → ∀ k, valueAt (rewrittenResidual doubled 0 r0) (fun i => x i + dx i) k
      = linAt (rewrittenResidual doubled 0 r0) x dx k := by
    intro r0 h0 k
    have hs := rewritten_same doubled 0 r0
    have e1 := congrFun (List.ofFn_injective (hs.value fun i => x i + dx i)) k
    have e2 := congrFun (List.ofFn_injective (same_model hs x dx)) k
    have e3 := line_affine r0 h0 (affineMap doubled 0 x) (doubled dx) k
    have e4 : affineMap doubled 0 (fun i => x i + dx i) = fun i => affineMap doubled 0 x i + doubled dx i := by
      funext i
      show 2 * (x i + dx i) + 0 = 2 * x i + 0 + 2 * dx i
      ring
    rw [e4] at e1
    exact e1.trans (e3.trans e2.symm)
  have hr' : r ∈ [rewrittenResidual doubled 0 cost1, rewrittenResidual doubled 0 cost3] := hr
  rcases List.mem_cons.mp hr' with rfl | hr'
  · exact key cost1 (by simp [lineEnv, mkEnv]) k
  · rcases List.mem_singleton.mp hr' with rfl
    exact key cost3 (by simp [lineEnv, mkEnv]) k

/-- **C101** (damping is not independent of the units). Same problem, same start, one iteration with `lambda = 1/2`: in the units
`x` the first variable moves from 0 to 2, in the units `x = 2 y` it moves beyond `x = 2.6`. -/
theorem C101_damping_matters : ∃ (o1 : lineEnv.Obj) (o1' : unitsEnv.Obj) (out out' : NLSOutputs ℝ)
    (calls calls' : List (NLSIteration ℝ)),
    solve lineEnv dampedOnce (affineMap doubled 0 fun _ => 0) (mkObj _) = .ok (o1, out, calls) ∧
    solve unitsEnv dampedOnce (fun _ => 0) (mkObj _) = .ok (o1', out', calls') ∧
    o1.vars 0 = 2 ∧ 26 / 10 < affineMap doubled 0 o1'.vars 0 := by
  have hpen : 0 < dampedOnce.equalityPenaltyInitial := by simp [dampedOnce, dampedPrm, NLSParams.default]
  have hit1 : 1 ≤ dampedOnce.maxIterations := by simp [dampedOnce]
  have hz : affineMap doubled 0 (fun _ => 0) = fun _ : Fin 2 => (0 : ℝ) := by
    funext i
    show 2 * (0 : ℝ) + 0 = 0
    ring
  obtain ⟨o1, out, calls, h, hne⟩ := ip_run _ line_ok (by simp [lineEnv, mkEnv]) (fun c hc => by cases hc) dampedOnce
    dampedOnce_valid hpen hit1 (affineMap doubled 0 fun _ => 0)
  obtain ⟨o1', out', calls', h', hne'⟩ := ip_run _ units_ok (by simp [unitsEnv, mkEnv]) (fun c hc => by cases hc) dampedOnce
    dampedOnce_valid hpen hit1 (fun _ => 0)
  refine ⟨o1, o1', out, out', calls, calls', h, h', ?_, ?_⟩
  · rw [hz] at h
    have hmax : (out.iterations.length : Int) ≤ 1 := by
      obtain ⟨S, T, W, hv⟩ := solve_view h
      exact hv.le
    have hlen : out.iterations.length = 1 := by
      have := List.length_pos_iff.mpr hne
      omega
    obtain ⟨it, hit⟩ : ∃ it, out.iterations[0]? = some it := ⟨_, List.getElem?_eq_getElem (by omega)⟩
    obtain ⟨hex, hfirst, hend⟩ := C38_after lineEnv dampedOnce _ _ o1 out calls h
    obtain ⟨a, ha, -⟩ := hex 0 (by omega)
    obtain ⟨b, hb, -⟩ := hex 1 (by omega)
    have ha0 : a.vars = fun _ => 0 := hfirst a ha
    have hb0 : b.vars = o1.vars := hend b (by rw [hlen]; exact hb)
    have hlam : it.lambda = 1 / 2 := by
      obtain ⟨S, T, W, hv⟩ := solve_view h
      obtain ⟨-, rfl, P⟩ := view_info hv hit
      rw [P.ilambda, hv.start]
      show dampedOnce.lambdaInitial = _
      simp [dampedOnce, dampedPrm]
    obtain ⟨l1, l2, -⟩ := C67_levenberg_marquardt lineEnv exactEigen_contract line_ok rfl rfl dampedOnce _ _ o1 out calls h 0 it hit
      a b ha hb (.inl (by rw [hlam]; norm_num))
    have hmodel : ∀ d : Fin 2 → ℝ, dampedModel lineEnv.p a.vars it.lambda d
        = 1 / 2 * (d 0 - 3) ^ 2 + 1 / 2 * (d 1 - 1) ^ 2 + 1 / 4 * (d 0 ^ 2 + d 1 ^ 2) := by
      intro d
      have hc := affine_cost line_affine a.vars d
      unfold dampedModel
      rw [← hc, line_cost, hlam, ha0, Fin.sum_univ_two]
      norm_num
    have hdx : b.dx = fun i => if i = 0 then 2 else 2 / 3 := by
      by_contra hn
      have := l1 (fun i => if i = 0 then 2 else 2 / 3) (fun e => hn e.symm)
      rw [hmodel, hmodel] at this
      norm_num at this
      nlinarith [sq_nonneg (b.dx 0 - 2), sq_nonneg (b.dx 1 - 2 / 3)]
    have hd := l2 0
    rw [line_costs fun r k => slopeAt r a.vars b.dx k ^ 2, cost1_slope, cost3_slope, Fin.sum_univ_two, hlam, hdx] at hd
    norm_num at hd
    obtain ⟨⟨st, hst, hal⟩, hcase⟩ := C97_iteration lineEnv exactEigen_contract rfl line_ok line_affine rfl rfl 1 line_curved
      (fun i => if i = 0 then 3 else 1) (fun y => by
        rw [line_cost, line_cost]
        norm_num
        positivity) dampedOnce _ _ o1 out calls h 0 it hit a b ha hb
    rcases hcase with ⟨hs, -⟩ | ⟨-, -, hsmall, -⟩
    · obtain ⟨st', hst', hmv⟩ := (C38_variables_move lineEnv dampedOnce _ _ o1 out calls h 0 it hit a b ha hb).1 hs
      rw [hst] at hst'
      simp only [List.getLast?_singleton, Option.some.injEq] at hst'
      subst hst'
      obtain ⟨h22, hy⟩ := hmv
      rw [← hb0, hy, hal, ha0, hdx]
      norm_num
    · exfalso
      have h1 : |it.directionalDerivatives.dF| ≤ it.directionalDerivatives.lInfinity := by
        unfold DirectionalDerivatives.lInfinity
        rw [real_cmax]
        exact le_max_left _ _
      have h2 : it.directionalDerivatives.dF = it.directionalDerivatives.total 0 := by
        unfold DirectionalDerivatives.total
        ring
      rw [h2, hd] at h1
      have h3 : dampedOnce.absoluteFirstDerivativeTol = 1 / 10 ^ 6 := by
        simp only [dampedOnce, dampedPrm, NLSParams.default, real_lit]
        norm_num
      rw [h3] at hsmall
      have := lt_of_le_of_lt h1 hsmall
      norm_num [abs_of_neg] at this
  · have hmax : (out'.iterations.length : Int) ≤ 1 := by
      obtain ⟨S, T, W, hv⟩ := solve_view h'
      exact hv.le
    have hlen : out'.iterations.length = 1 := by
      have := List.length_pos_iff.mpr hne'
      omega
    obtain ⟨best, hbest, -, hcase⟩ := C97_damped_least_squares unitsEnv exactEigen_contract rfl units_ok units_affine rfl rfl 4
      units_curved dampedOnce _ _ _ _ _ h'
    have hb0 : costAt unitsEnv.p best ≤ 0 := by
      by_cases he : (fun i => if i = 0 then 3 / 2 else 1 / 2 : Fin 2 → ℝ) = best
      · rw [← he, units_cost]; norm_num
      · have := hbest _ he
        rw [units_cost (fun i => if i = 0 then 3 / 2 else 1 / 2)] at this
        norm_num at this
        exact this.le
    have hb1 : 0 ≤ costAt unitsEnv.p best := costAt_nonneg _ _
    have hb2 : costAt unitsEnv.p best = 0 := le_antisymm hb0 hb1
    have hdec : decayed dampedOnce 0 = 1 / 2 := by
      simp [decayed, dampedOnce, dampedPrm]
    have hsmall : costAt unitsEnv.p o1'.vars ≤ 5 / 81 := by
      rcases hcase with ⟨-, hc⟩ | ⟨-, hc⟩
      · rw [hlen, hb2] at hc
        have h3 : dampedOnce.absoluteFirstDerivativeTol = 1 / 10 ^ 6 := by
          simp only [dampedOnce, dampedPrm, NLSParams.default, real_lit]
          norm_num
        simp only [Nat.sub_self, hdec, h3] at hc
        norm_num at hc ⊢
        linarith
      · rw [hlen, hb2] at hc
        dsimp only at hc
        rw [Finset.prod_range_one, hdec, units_cost (fun _ => 0)] at hc
        unfold dampedRate at hc
        norm_num at hc ⊢
        linarith
    have hfin : ∀ y : Fin 2 → ℝ, costAt unitsEnv.p y ≤ 5 / 81 → 26 / 10 < 2 * y 0 + 0 := by
      intro y hy
      rw [units_cost] at hy
      nlinarith [sq_nonneg (2 * y 1 - 1)]
    exact hfin _ hsmall


/-- `curveEnv` with its two variables exchanged. -/
noncomputable def swappedEnv : Env 2 2 ℝ :=
  mkEnv ⟨[renamedResidual (Equiv.swap (0 : Fin 2) 1) cost1, renamedResidual (Equiv.swap (0 : Fin 2) 1) cost3], [],
    [renamedResidual (Equiv.swap (0 : Fin 2) 1) curve]⟩

theorem swapped_ok : WellPosed swappedEnv.p 2 := renamed_wellPosed curve_ok (Equiv.swap (0 : Fin 2) 1)

theorem swapped_run (y0 : Fin 2 → ℝ) : ∃ o' out calls, solve swappedEnv dp y0 (mkObj _) = .ok (o', out, calls) := by
  rcases C65_nls_exceptions swappedEnv swapped_ok (Or.inl rfl) (fun c hc => by cases hc) dp nls_default_valid dp_penalty y0
    (mkObj _) with ⟨⟨o', out, calls⟩, h⟩ | ⟨e, h, ht⟩
  · exact ⟨o', out, calls, h⟩
  · exfalso
    rcases ht with ⟨h1, _⟩ | ⟨_, h2, _⟩ | ⟨_, _, _, hA, hR⟩ | ⟨_, hu'⟩
    rotate_right
    · exact mkEnv_quiet (by never_throws) hu'
    · exact h1 ⟨rfl, by simp [swappedEnv, mkEnv]⟩
    · revert h2; decide
    · apply hR exactNS_contract.qr
      intro y hy
      have hrow : ∀ dx : Fin 2 → ℝ, (∑ j, e.2.qp.A ⟨0, by decide⟩ j * dx j) + e.2.qp.b ⟨0, by decide⟩
          = e.2.vars 1 + e.2.vars 0 ^ 2 - 1 + (dx 1 + 2 * e.2.vars 0 * dx 0) := by
        intro dx
        have := hA dx
        have h0 := congrArg List.head? this
        have hsame := same_model (renamed_same (Equiv.swap (0 : Fin 2) 1) (res2_ok _ _ _).1 :
          SameResidual 2 _ _ curve (renamedResidual (Equiv.swap (0 : Fin 2) 1) curve)) e.2.vars dx
        have hl : stackedModel e.2.vars dx swappedEnv.p.eqs
            = List.ofFn (linAt (renamedResidual (Equiv.swap (0 : Fin 2) 1) curve) e.2.vars dx) := by
          show List.ofFn _ ++ [] = _
          rw [List.append_nil]
        rw [hl, hsame] at h0
        have hc := curve_lin (fun i => e.2.vars (Equiv.swap (0 : Fin 2) 1 i))
          (LinearEquiv.funCongrLeft ℝ ℝ (Equiv.swap (0 : Fin 2) 1) dx) (0 : Fin 1)
        have h1 := (Option.some.inj h0).trans hc
        exact h1
      have h00 := hrow fun _ => 0
      have h10 := hrow fun j => if j = 1 then 1 else 0
      rw [Fin.sum_univ_two] at h00 h10
      simp only [mul_zero, add_zero, zero_add, if_true, mul_one, zero_ne_one, if_false] at h00 h10
      have hA0 : e.2.qp.A ⟨0, by decide⟩ 1 = 1 := by
        have : e.2.qp.A ⟨0, by decide⟩ 1 + e.2.qp.b ⟨0, by decide⟩ = e.2.vars 1 + e.2.vars 0 ^ 2 - 1 + 1 := h10
        have h00' : e.2.qp.b ⟨0, by decide⟩ = e.2.vars 1 + e.2.vars 0 ^ 2 - 1 := h00
        linarith
      have hy0 : ∑ k : Fin 1, e.2.qp.A k 1 * y k = 0 := hy 1
      rw [Fin.sum_univ_one] at hy0
      have hA0' : e.2.qp.A (0 : Fin 1) 1 = 1 := hA0
      rw [hA0', one_mul] at hy0
      funext k
      have : k = (0 : Fin 1) := Subsingleton.elim (α := Fin 1) k 0
      rw [this]; exact hy0

/-- C101 (the numbering of the variables) on a problem with a curved equality constraint, from any start, damped or not. -/
example (y0 : Fin 2 → ℝ) : ∃ (o1 : curveEnv.Obj) (o1' : swappedEnv.Obj) (out out' : NLSOutputs ℝ) (calls calls' : List (NLSIteration ℝ)),
    solve curveEnv dp (fun i => y0 (Equiv.swap 0 1 i)) (mkObj _) = .ok (o1, out, calls) ∧
    solve swappedEnv dp y0 (mkObj _) = .ok (o1', out', calls') ∧ out.iterations ≠ [] ∧
    o1.vars 0 = o1'.vars 1 ∧ o1.vars 1 = o1'.vars 0 ∧ out'.termination = out.termination := by
  obtain ⟨o1, out, calls, h, hne⟩ := curve_run dp nls_default_valid dp_penalty dp_iterations (fun i => y0 (Equiv.swap 0 1 i))
  obtain ⟨o1', out', calls', h'⟩ := swapped_run y0
  obtain ⟨r1, r2, -⟩ := C101_renaming curveEnv swappedEnv (Equiv.swap 0 1) rfl rfl rfl trivial exactEigen_contract
    exactEigen_contract exactNS_contract exactNS_contract curve_ok rfl dp y0 _ o1 _ o1' out out' calls calls' h h'
    (fun he => by cases he)
  exact ⟨o1, o1', out, out', calls, calls', h, h', hne, r1 0, r1 1, r2⟩

end MiniOpt.Props
