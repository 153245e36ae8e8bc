import Verif.Props.QPDistance
import Verif.Lemmas.Demo

/-!
# Distance to the exact solution: examples
-/

set_option autoImplicit false

namespace MiniOpt.Props

open MiniOpt MiniOpt.Spec MiniOpt.IP

/-- `demoQP` minimises `(x² + y²)/2 - x - 2 y` subject to `x + y = 1`, `x ≥ 1/5`: at `(1/5, 4/5)`, the bound being tight. -/
noncomputable def demoExact : Blocks 2 1 1 ℝ := ⟨![1 / 5, 4 / 5], ![0], ![-6 / 5], ![2 / 5]⟩

theorem demo_exact : ExactSolution demoQP demoExact where
  dual i := by
    have h00 : Gsym demoQP 0 0 = 1 := rfl
    have h01 : Gsym demoQP 0 1 = 0 := rfl
    have h10 : Gsym demoQP 1 0 = 0 := rfl
    have h11 : Gsym demoQP 1 1 = 1 := rfl
    unfold gradLagrangian
    fin_cases i
    · simp only [Fin.zero_eta, Fin.sum_univ_two, Fin.sum_univ_one, h00, h01]
      norm_num [demoQP, demoExact]
    · simp only [Fin.mk_one, Fin.sum_univ_two, Fin.sum_univ_one, h10, h11]
      norm_num [demoQP, demoExact]
  eq k := by norm_num [eqVal, demoQP, demoExact, Fin.sum_univ_two]
  slack m := by norm_num [ineqVal, demoQP, demoExact]
  ineq m := by norm_num [demoExact]
  mult m := by norm_num [demoExact]
  comp m := .inl (by norm_num [demoExact])

theorem demo_energy (d : Fin 2 → ℝ) : energy demoQP d = d 0 ^ 2 + d 1 ^ 2 := by
  have h00 : Gsym demoQP 0 0 = 1 := rfl
  have h01 : Gsym demoQP 0 1 = 0 := rfl
  have h10 : Gsym demoQP 1 0 = 0 := rfl
  have h11 : Gsym demoQP 1 1 = 1 := rfl
  unfold energy
  simp only [Fin.sum_univ_two, h00, h01, h10, h11]; ring

/-- C122_distance, C122_strongly_convex (`sigma = 1`) and C122_active_set on `demoQP`. -/
example : ∃ t c r, 0 < t ∧ solve exactEigen demoQP
      { (QPParams.default : QPParams ℝ) with terminationKktTol := t, terminationComplementarityTol := c }
      (setupState demoJunk) = .ok r ∧ r.2.termination = .satisfiedKktTol ∧
      l2 (fun i => r.1.v.x i - demoExact.x i) ≤ t / 1 + Real.sqrt (((1 : ℕ) * c + t *
        (l2 (fun k => r.1.v.y k - demoExact.y k) + l2 (fun m => r.1.v.z m - demoExact.z m))) / 1) ∧
      2 / 5 * r.1.v.s 0 ≤ (1 : ℕ) * c + t * (l2 (fun i => r.1.v.x i - demoExact.x i)
        + l2 (fun k => r.1.v.y k - demoExact.y k) + l2 (fun m => r.1.v.z m - demoExact.z m)) := by
  obtain ⟨r0, hr⟩ := demo_returns QPParams.default default_valid (by simp [QPParams.default])
  obtain ⟨t, c, ht, _, r, h, hT⟩ := exists_satisfied _ _ _ _ r0 hr
  have hg : GoodStart { (QPParams.default : QPParams ℝ) with terminationKktTol := t, terminationComplementarityTol := c }
      (setupState demoJunk : IPState 2 1 1 ℝ) := Or.inl (by simp [QPParams.default])
  refine ⟨t, c, r, ht, h, hT, C122_strongly_convex _ demoQP _ _ hg r h hT demoExact demo_exact 1 one_pos fun d => ?_, ?_⟩
  · rw [demo_energy, one_mul, l2, Real.sq_sqrt (Finset.sum_nonneg fun i _ => sq_nonneg _), Fin.sum_univ_two]
  · have hP : PSDG demoQP := fun d => by
      have := demo_energy d
      unfold energy at this
      rw [this]; positivity
    have := C122_active_set _ demoQP hP _ _ hg r h hT demoExact demo_exact 0
    have e : ineqVal demoQP demoExact.x 0 = 0 := by norm_num [ineqVal, demoQP, demoExact]
    have ez : demoExact.z 0 = 2 / 5 := rfl
    rw [e, ez, mul_zero, zero_add] at this
    exact this

theorem demo_lax_posdef : PosDefG (withoutIneq demoQP) := fun x hx => demo_posdef x hx

theorem demo_lax_null (ns : NSState 2 ℝ) : ∃ q, NS.solve exactNS (withoutIneq demoQP) ns = .ok q ∧ q.2 = .success := by
  obtain ⟨-, q, hq⟩ := (C27_needs_independent_rows _ exactNS_contract.qr (withoutIneq demoQP) ns).2.2.1 one_pos demo_rows
  refine ⟨q, hq, ?_⟩
  cases hc : q.2 with
  | success => rfl
  | notPositiveDefinite =>
    exact absurd (fun d hd _ => demo_lax_posdef d hd) ((C28_not_posdef_truthful _ exactNS_contract _ ns q hq).1.mp hc)

/-- C122_solvers_agree: `demoQP` without its inequality constraint. -/
example (ns : NSState 2 ℝ) : ∃ r q, solve exactEigen (withoutIneq demoQP) QPParams.default (setupState demoJunk) = .ok r ∧
    NS.solve exactNS (withoutIneq demoQP) ns = .ok q ∧ r.1.v.x = q.1.x := by
  obtain ⟨r, hr⟩ := solve_returns (exactEigen : Eigen 2 1 ℝ) exactEigen_total (withoutIneq demoQP) (fun m => m.elim0) QPParams.default
    default_valid (setupState demoJunk) (Or.inl (by simp [QPParams.default]))
  obtain ⟨q, hq, hs⟩ := demo_lax_null ns
  exact ⟨r, q, hr, hq, (C122_solvers_agree exactEigen exactEigen_contract exactNS exactNS_contract _ QPParams.default
    (by simp only [QPParams.default, real_lit]; norm_num) _ (setupState_WF _) ns r hr q hq hs).1⟩

/-- `demoQP` with the bound `x ≥ -1` instead. -/
noncomputable def laxQP : QP 2 1 1 ℝ := { demoQP with con := fun _ => ⟨0, 1, 1⟩ }

/-- C122_inactive: the null-space solution `(0, 1)` satisfies `x ≥ -1`, so it solves `laxQP` too. -/
example (ns : NSState 2 ℝ) : ∃ q y, NS.solve exactNS (withoutIneq laxQP) ns = .ok q ∧ q.1.x 0 = 0 ∧
    ExactSolution laxQP ⟨q.1.x, fun m => ineqVal laxQP q.1.x m, y, fun _ => 0⟩ := by
  obtain ⟨q, hq, hs⟩ := demo_lax_null ns
  have hq' : NS.solve exactNS (withoutIneq laxQP) ns = .ok q := hq
  obtain ⟨hfe, hmin⟩ := C26_null_space_minimiser exactNS exactNS_contract _ ns q hq hs
  have hobj : ∀ x : Fin 2 → ℝ, objective (withoutIneq demoQP) x = 1 / 2 * (x 0 ^ 2 + x 1 ^ 2) - x 0 - 2 * x 1 := by
    intro x
    have h00 : Gsym (withoutIneq demoQP) 0 0 = 1 := rfl
    have h01 : Gsym (withoutIneq demoQP) 0 1 = 0 := rfl
    have h10 : Gsym (withoutIneq demoQP) 1 0 = 0 := rfl
    have h11 : Gsym (withoutIneq demoQP) 1 1 = 1 := rfl
    have hc0 : (withoutIneq demoQP).c 0 = -1 := rfl
    have hc1 : (withoutIneq demoQP).c 1 = -2 := rfl
    unfold objective
    simp only [Fin.sum_univ_two, h00, h01, h10, h11, hc0, hc1]; ring
  have heq : ∀ x : Fin 2 → ℝ, eqVal (withoutIneq demoQP) x 0 = x 0 + x 1 - 1 := by
    intro x
    norm_num [eqVal, withoutIneq, demoQP, Fin.sum_univ_two]
    ring
  have hx : q.1.x = ![0, 1] := by
    by_contra hne
    have h1 := hmin ![0, 1] (fun k => by rw [Fin.fin_one_eq_zero k, heq]; norm_num) (Ne.symm hne)
    have h2 := hfe 0
    rw [hobj, hobj] at h1
    rw [heq] at h2
    norm_num at h1
    have : q.1.x 1 = 1 - q.1.x 0 := by linarith
    rw [this] at h1
    nlinarith [sq_nonneg (q.1.x 0)]
  obtain ⟨y, hy⟩ := C122_inactive exactNS exactNS_contract laxQP ns q hq' hs (fun m => by rw [hx]; norm_num [ineqVal, laxQP])
  exact ⟨q, y, hq', by rw [hx]; rfl, hy⟩

/-- Minimise `x²/2` subject to `y = 1`. -/
noncomputable def flatQP : QP 2 0 1 ℝ where
  G := !![1, 0; 0, 0]
  c := ![0, 0]
  A := fun _ => ![0, 1]
  b := ![-1]
  con := Fin.elim0

theorem flat_quad (x : Fin 2 → ℝ) : ∑ i, ∑ j, x i * Gsym flatQP i j * x j = x 0 ^ 2 := by
  have h00 : Gsym flatQP 0 0 = 1 := rfl
  have h01 : Gsym flatQP 0 1 = 0 := rfl
  have h10 : Gsym flatQP 1 0 = 0 := rfl
  have h11 : Gsym flatQP 1 1 = 0 := rfl
  simp only [Fin.sum_univ_two, h00, h01, h10, h11]; ring

/-- C122_which_returns: only the null-space solver copes with `flatQP`. -/
example (dd : ℝ) (ns : NSState 2 ℝ) : (∃ q, NS.solve (QR.eigenNS 0 0 dd) flatQP ns = .ok q ∧ q.2 = .success) ∧
    ∃ st', solve (LDLT.eigen 2 1 0) flatQP QPParams.default (setupState demoJunk) = .error (.failedFactorization, st') := by
  have hA : IndependentRows flatQP := fun y hy => by
    have := hy 1
    simp [flatQP] at this
    funext k; rw [Fin.fin_one_eq_zero k]; exact this
  have hN : PosDefOnNull flatQP := fun d hd hz => by
    rw [flat_quad]
    have h1 := hz 0
    simp [flatQP, Fin.sum_univ_two] at h1
    refine lt_of_le_of_ne (sq_nonneg _) fun h0 => hd ?_
    have h2 : d 0 = 0 := pow_eq_zero_iff two_ne_zero |>.mp h0.symm
    funext i; fin_cases i <;> assumption
  have hG : ¬ PosDefG flatQP := fun hG => by
    have := hG ![0, 1] (fun e => by have := congrFun e 1; simp at this)
    rw [flat_quad] at this
    simp at this
  obtain ⟨h1, h2⟩ := C122_which_returns flatQP one_pos hA (fun x => by rw [flat_quad]; positivity) dd QPParams.default default_valid
    (by simp [QPParams.default]) (setupState demoJunk) (setupState_WF _) ns
  exact ⟨h1.mpr hN, (h2 hN).2 hG⟩

end MiniOpt.Props
