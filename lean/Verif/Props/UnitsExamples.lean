import Verif.Props.Units
import Verif.Props.SmallCost
import Verif.Props.CoordinatesExamples

/-!
# Changing units: examples
-/

set_option autoImplicit false

namespace MiniOpt.Props

open MiniOpt.Spec MiniOpt.NLS MiniOpt.DemoReal

theorem line_regular (x : Fin 2 → ℝ) : RegularAt lineEnv.p x := by
  intro d hd
  by_contra hd0
  have := line_rank x d hd0
  have h0 : (lineEnv.p.costs.map fun r => ∑ k, slopeAt r x d k ^ 2).sum = 0 := by
    refine List.sum_eq_zero fun v hv => ?_
    obtain ⟨r, hr, rfl⟩ := List.mem_map.mp hv
    exact Finset.sum_eq_zero fun k _ => by rw [hd r hr k]; norm_num
  rw [h0] at this
  exact lt_irrefl _ this

/-- `9 (2 y₀ - 3)² + 9 (2 y₁ - 1)²`, halved: `lineEnv`'s problem in the units `x = 2 y` with the cost residuals multiplied by 3. -/
noncomputable def tripledEnv : Env 2 2 ℝ :=
  mkEnv ⟨[multiplied 3 (rewrittenResidual doubled 0 cost1), multiplied 3 (rewrittenResidual doubled 0 cost3)], [], []⟩

theorem tripled_ok : WellPosed tripledEnv.p 2 := multiplied_wellPosed units_ok 3

/-- C118 for a damped solve from any start: with damping parameters multiplied by 36 and tolerances by 9 the two solves agree. -/
example (y0 : Fin 2 → ℝ) : ∃ (o1 : lineEnv.Obj) (o1' : tripledEnv.Obj) (out out' : NLSOutputs ℝ) (calls calls' : List (NLSIteration ℝ)),
    solve lineEnv dampedPrm (affineMap doubled 0 y0) (mkObj _) = .ok (o1, out, calls) ∧
    solve tripledEnv (paramsInUnits (3 ^ 2) (3 ^ 2 * 4) dampedPrm) y0 (mkObj _) = .ok (o1', out', calls') ∧ out.iterations ≠ [] ∧
    o1.vars = affineMap doubled 0 o1'.vars ∧ out'.termination = out.termination ∧
    out'.iterations.map withoutQP = out.iterations.map (inUnits (3 ^ 2) (3 ^ 2 * 4)) := by
  have hv' : NLSParamsValid (paramsInUnits (3 ^ 2) (3 ^ 2 * 4) dampedPrm) := by
    constructor <;> simp only [paramsInUnits, dampedPrm, NLSParams.default, real_lit] <;> norm_num
  obtain ⟨o1, out, calls, h, hne⟩ := ip_run _ line_ok (by simp [lineEnv, mkEnv]) (fun c hc => by cases hc) dampedPrm dampedPrm_valid
    (by simp [dampedPrm, NLSParams.default]) (by simp [dampedPrm, NLSParams.default]) (affineMap doubled 0 y0)
  obtain ⟨o1', out', calls', h', -⟩ := ip_run _ tripled_ok (by simp [tripledEnv, mkEnv]) (fun c hc => by cases hc)
    (paramsInUnits (3 ^ 2) (3 ^ 2 * 4) dampedPrm) hv' (by simp [paramsInUnits, dampedPrm, NLSParams.default])
    (by simp [paramsInUnits, dampedPrm, NLSParams.default]) y0
  obtain ⟨r1, r2, r3, -⟩ := C118_similarity lineEnv tripledEnv doubled 0 3 4 (by norm_num) (by norm_num)
    (fun e => by rw [Finset.mul_sum]; exact Finset.sum_congr rfl fun i _ => by rw [doubled_apply]; ring)
    rfl rfl rfl trivial exactEigen_contract exactEigen_contract exactNS_contract exactNS_contract line_ok rfl dampedPrm y0 _ o1 _ o1'
    out out' calls calls' h h' (fun _ k it a _ _ => .inr (line_regular a.vars)) (.inl rfl)
  exact ⟨o1, o1', out, out', calls, calls', h, h', hne, r1, r2, r3⟩

/-- `lineEnv`'s problem with the cost residuals in units of ten thousand. -/
noncomputable def tinyEnv : Env 2 2 ℝ := mkEnv ⟨[multiplied (1 / 10000) cost1, multiplied (1 / 10000) cost3], [], []⟩

theorem tiny_ok : WellPosed tinyEnv.p 2 := multiplied_wellPosed line_ok (1 / 10000)

theorem tiny_cost (x : Fin 2 → ℝ) : costAt tinyEnv.p x = (1 / 10000) ^ 2 * costAt lineEnv.p x := by
  rw [costAt_real, costAt_real]
  have : tinyEnv.p.costs = lineEnv.p.costs.map (multiplied (1 / 10000)) := rfl
  rw [this, List.map_map, ← list_sum_mul]
  congr 1
  refine List.map_congr_left fun r _ => ?_
  show 1 / 2 * ∑ k, (1 / 10000 * valueAt r x k) ^ 2 = _
  simp only [mul_pow, ← Finset.mul_sum]
  ring

theorem tiny_regular (x : Fin 2 → ℝ) : RegularAt tinyEnv.p x := by
  intro d hd
  refine line_regular x d fun r hr k => ?_
  have hm : multiplied (1 / 10000) r ∈ tinyEnv.p.costs := by
    have : tinyEnv.p.costs = lineEnv.p.costs.map (multiplied (1 / 10000)) := rfl
    rw [this]
    exact List.mem_map.mpr ⟨r, hr, rfl⟩
  have := hd _ hm k
  have h2 := multiplied_slope (1 / 10000) r x d k
  rw [this] at h2
  have h3 : (1 / 10000 : ℝ) * slopeAt r x d k = 0 := h2.symm
  exact (mul_eq_zero.mp h3).resolve_left (by norm_num)

/-- **C118** (the default parameters carry units). `(x - 3)² + (y - 1)²` from the origin, cost residuals in units of ten
thousand, default parameters: `Solve` reports `SATISFIED_FIRST_ORDER_TOL` at the origin. -/
theorem C118_defaults_carry_units : ∃ (o1 : tinyEnv.Obj) (out : NLSOutputs ℝ) (calls : List (NLSIteration ℝ)),
    solve tinyEnv dp (fun _ => 0) (mkObj _) = .ok (o1, out, calls) ∧
    out.termination = .satisfiedFirstOrderTol ∧ o1.vars = fun _ => 0 := by
  obtain ⟨o1, out, calls, h, hne⟩ := ip_run _ tiny_ok (by simp [tinyEnv, mkEnv]) (fun c hc => by cases hc) dp nls_default_valid
    dp_penalty dp_iterations (fun _ => 0)
  obtain ⟨h1, -, h3⟩ := C119_start tinyEnv exactEigen_contract exactNS_contract tiny_ok rfl rfl dp _ _ o1 out calls h
    (by simp [NLSParams.default]) (.inr (tiny_regular _)) (by
      rw [tiny_cost, line_cost]
      simp only [NLSParams.default, real_lit]
      norm_num)
  exact ⟨o1, out, calls, h, h1, h3⟩

end MiniOpt.Props
