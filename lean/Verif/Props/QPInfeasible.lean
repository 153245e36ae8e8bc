import Verif.Spec.Certificates
import Verif.Props.Subproblem

/-!
# C90: infeasible and unbounded problems are not reported as solved

The interior point solver has no phase that detects infeasibility.  What a user can rely on is that such problems end with
`MAX_ITERATIONS`, never with `SATISFIED_KKT_TOL`.
-/

set_option autoImplicit false

namespace MiniOpt.Props

open MiniOpt.Spec MiniOpt.NLS

section qp
variable {N M K : Nat}

/-- The solver used up its iterations: it returned, reports `MAX_ITERATIONS`, and logs exactly that many. -/
def UsedUp (prm : QPParams ℝ) (out : QPOutputs ℝ) : Prop :=
  out.termination = .maxIterations ∧ (out.iterations.length : Int) = prm.maxIterations

theorem usedUp_of_not_satisfied {E : Eigen N K ℝ} {p : QP N M K ℝ} {prm : QPParams ℝ} {st : IPState N M K ℝ}
    {r : IPState N M K ℝ × QPOutputs ℝ} (h : IP.solve E p prm st = .ok r) (hn : r.2.termination ≠ .satisfiedKktTol) :
    UsedUp prm r.2 := by
  cases ht : r.2.termination with
  | satisfiedKktTol => exact absurd ht hn
  | maxIterations => exact ⟨rfl.trans ht, ((C13_iteration_count E p prm st r h).2.2.1 ht).1⟩

/-- **C90**, infeasible problems. If no point satisfies the constraints up to `termination_kkt_tol`, then `Solve` never
reports `SATISFIED_KKT_TOL`: if it returns, it has used up `max_iterations`. -/
theorem C90_infeasible (E : Eigen N K ℝ) (p : QP N M K ℝ) (prm : QPParams ℝ) (st : IPState N M K ℝ)
    (hg : GoodStart prm st) (r : IPState N M K ℝ × QPOutputs ℝ) (h : IP.solve E p prm st = .ok r)
    (hinf : ∀ x : Fin N → ℝ, (∃ m, ineqVal p x m ≤ -prm.terminationKktTol) ∨
      ∃ k, prm.terminationKktTol ≤ |eqVal p x k|) : UsedUp prm r.2 := by
  refine usedUp_of_not_satisfied h fun ht => ?_
  obtain ⟨h1, h2⟩ := C11_nearly_feasible E p prm st hg r h ht
  rcases hinf r.1.v.x with ⟨m, hm⟩ | ⟨k, hk⟩
  · exact absurd (h1 m) (not_lt.mpr hm)
  · exact absurd (h2 k) (not_lt.mpr hk)

/-- The residual norms logged at the end of an iteration are those of variables with positive slacks and multipliers. -/
theorem logged_final (E : Eigen N K ℝ) (p : QP N M K ℝ) (prm : QPParams ℝ) (st : IPState N M K ℝ)
    (hg : GoodStart prm st) (r : IPState N M K ℝ × QPOutputs ℝ) (h : IP.solve E p prm st = .ok r) (it : QPIteration ℝ)
    (hm : it ∈ r.2.iterations) : ∃ b : Blocks N M K ℝ, (it.kktFinal.rDual = l2 (gradLagrangian p b) ∧
      it.kktFinal.rPrimalEq = l2 (eqVal p b.x) ∧ it.kktFinal.rPrimalIneq = l2 (fun m => ineqVal p b.x m - b.s m)) ∧
      (∀ m, 0 < b.s m) ∧ ∀ m, 0 < b.z m := by
  obtain ⟨j, hj⟩ := List.mem_iff_getElem?.mp hm
  obtain ⟨vs, mus, hvs, -, -, -, hl⟩ := C16_barrier_schedule E p prm st hg r h
  have hi := hvs (j + 1) (lt_of_getElem? hj)
  unfold IterateIs at hi
  rw [if_neg (Nat.succ_ne_zero j)] at hi
  obtain ⟨r', hr', hv⟩ := hi
  have hpos := (C07_slacks_positive E p _ st (show GoodStart { prm with maxIterations := ((j + 1 : Nat) : Int) } st from hg)).1
    r' hr'
  refine ⟨vs (j + 1), ?_, ?_⟩
  · rw [(hl j it hj).2.1]
    exact ⟨rfl, rfl, rfl⟩
  · rw [hv]
    exact hpos

theorem farkas_residual {p : QP N M K ℝ} {w : Fin K → ℝ} {v : Fin M → ℝ} {δ : ℝ} (hc : FarkasCertificate p w v δ)
    (x : Fin N → ℝ) (s : Fin M → ℝ) (hs : ∀ m, 0 < s m) :
    δ ≤ l2 w * l2 (eqVal p x) + l2 v * l2 (fun m => ineqVal p x m - s m) := by
  have h1 := hc.combined x
  have h2 := sum_mul_le_l2 (fun k => -w k) (eqVal p x)
  have h3 := sum_mul_le_l2 (fun m => -v m) (fun m => ineqVal p x m - s m)
  have hneg : ∀ {n : Nat} (u : Fin n → ℝ), l2 (fun i => -u i) = l2 u := fun u => by unfold l2; simp
  rw [hneg] at h2 h3
  simp only [neg_mul, Finset.sum_neg_distrib] at h2 h3
  have h4 : ∑ m, v m * (ineqVal p x m - s m) = (∑ m, v m * ineqVal p x m) - ∑ m, v m * s m := by
    rw [← Finset.sum_sub_distrib]
    exact Finset.sum_congr rfl fun m _ => by ring
  have h5 : 0 ≤ ∑ m, v m * s m := Finset.sum_nonneg fun m _ => mul_nonneg (hc.nonneg m) (hs m).le
  linarith

/-- **C90**, infeasible problems with a Farkas certificate `(w, v, δ)`. However many iterations are made, the residual norms
`r_eq` of `A x + b` and `r_ineq` of `a x + b - s` logged after each of them satisfy `δ ≤ ‖w‖ r_eq + ‖v‖ r_ineq`. So they do
not tend to zero, and `SATISFIED_KKT_TOL` is not reported for any tolerance up to `δ / (‖w‖ + ‖v‖)`. -/
theorem C90_certificate (E : Eigen N K ℝ) (p : QP N M K ℝ) (prm : QPParams ℝ) (st : IPState N M K ℝ)
    (hg : GoodStart prm st) (r : IPState N M K ℝ × QPOutputs ℝ) (h : IP.solve E p prm st = .ok r)
    (w : Fin K → ℝ) (v : Fin M → ℝ) (δ : ℝ) (hc : FarkasCertificate p w v δ) (hδ : 0 < δ) :
    (∀ it ∈ r.2.iterations, δ ≤ l2 w * it.kktFinal.rPrimalEq + l2 v * it.kktFinal.rPrimalIneq) ∧
    (prm.terminationKktTol * (l2 w + l2 v) ≤ δ → UsedUp prm r.2) := by
  have hstep : ∀ it ∈ r.2.iterations, δ ≤ l2 w * it.kktFinal.rPrimalEq + l2 v * it.kktFinal.rPrimalIneq := by
    intro it hm
    obtain ⟨b, e, hs, -⟩ := logged_final E p prm st hg r h it hm
    rw [e.2.1, e.2.2]
    exact farkas_residual hc b.x b.s hs
  refine ⟨hstep, fun htol => usedUp_of_not_satisfied h fun ht => ?_⟩
  obtain ⟨-, h2, h3, -⟩ := C11_satisfied_truthful E p prm st r h ht
  have hpos := (C07_slacks_positive E p prm st hg).1 r h
  have := farkas_residual hc r.1.v.x r.1.v.s hpos.1
  have hw : 0 ≤ l2 w := l2_nonneg w
  have hv : 0 ≤ l2 v := l2_nonneg v
  by_cases hz : l2 w = 0 ∧ l2 v = 0
  · rw [hz.1, hz.2] at this
    linarith
  · have hlt : l2 w * l2 (eqVal p r.1.v.x) + l2 v * l2 (fun m => ineqVal p r.1.v.x m - r.1.v.s m)
        < prm.terminationKktTol * (l2 w + l2 v) := by
      rcases hw.lt_or_eq with hw' | hw'
      · have a := mul_lt_mul_of_pos_left h2 hw'
        have b := mul_le_mul_of_nonneg_left h3.le hv
        linarith
      · rcases hv.lt_or_eq with hv' | hv'
        · have a := mul_le_mul_of_nonneg_left h2.le hw
          have b := mul_lt_mul_of_pos_left h3 hv'
          linarith
        · exact absurd ⟨hw'.symm, hv'.symm⟩ hz
    linarith

theorem ray_residual {p : QP N M K ℝ} {d : Fin N → ℝ} {δ : ℝ} (hd : DescentRay p d δ) (b : Blocks N M K ℝ)
    (hz : ∀ m, 0 < b.z m) : δ ≤ l2 d * l2 (gradLagrangian p b) := by
  have hsym : ∀ i j, Gsym p i j = Gsym p j i := fun i j => by unfold Gsym; rw [max_comm, min_comm]
  have h1 := sum_mul_le_l2 (fun i => -d i) (gradLagrangian p b)
  have hneg : l2 (fun i => -d i) = l2 d := by unfold l2; simp
  rw [hneg] at h1
  simp only [neg_mul, Finset.sum_neg_distrib] at h1
  have e1 : ∑ i, d i * ∑ j, Gsym p i j * b.x j = 0 := by
    simp only [Finset.mul_sum]
    rw [Finset.sum_comm]
    refine Finset.sum_eq_zero fun j _ => ?_
    have : ∀ i, d i * (Gsym p i j * b.x j) = b.x j * (Gsym p j i * d i) := fun i => by rw [hsym i j]; ring
    simp only [this, ← Finset.mul_sum, hd.flat j, mul_zero]
  have e2 : ∑ i, d i * ∑ k, p.A k i * b.y k = 0 := by
    simp only [Finset.mul_sum]
    rw [Finset.sum_comm]
    refine Finset.sum_eq_zero fun k _ => ?_
    have : ∀ i, d i * (p.A k i * b.y k) = b.y k * (p.A k i * d i) := fun i => by ring
    simp only [this, ← Finset.mul_sum, hd.eqs k, mul_zero]
  have e3 : ∑ i, d i * (∑ m, if (p.con m).var = i then (p.con m).a * b.z m else 0)
      = ∑ m, b.z m * ((p.con m).a * d (p.con m).var) := by
    simp only [Finset.mul_sum]
    rw [Finset.sum_comm]
    refine Finset.sum_congr rfl fun m _ => ?_
    simp only [mul_ite, mul_zero, Finset.sum_ite_eq, Finset.mem_univ, if_true]
    ring
  have e4 : ∑ i, d i * gradLagrangian p b i = -δ - ∑ m, b.z m * ((p.con m).a * d (p.con m).var) := by
    have : ∀ i, d i * gradLagrangian p b i = d i * (∑ j, Gsym p i j * b.x j) + p.c i * d i
        - d i * (∑ k, p.A k i * b.y k) - d i * (∑ m, if (p.con m).var = i then (p.con m).a * b.z m else 0) := by
      intro i; unfold gradLagrangian; ring
    simp only [this, Finset.sum_sub_distrib, Finset.sum_add_distrib, e1, e2, e3, hd.falls]
    ring
  have h5 : 0 ≤ ∑ m, b.z m * ((p.con m).a * d (p.con m).var) :=
    Finset.sum_nonneg fun m _ => mul_nonneg (hz m).le (hd.ineqs m)
  linarith

/-- **C90**, unbounded problems. With a descent ray `d` of rate `δ`, the norm of the Lagrangian's gradient logged after each
iteration is at least `δ / ‖d‖`, and `SATISFIED_KKT_TOL` is not reported for any tolerance up to `δ / ‖d‖`. -/
theorem C90_unbounded (E : Eigen N K ℝ) (p : QP N M K ℝ) (prm : QPParams ℝ) (st : IPState N M K ℝ)
    (hg : GoodStart prm st) (r : IPState N M K ℝ × QPOutputs ℝ) (h : IP.solve E p prm st = .ok r)
    (d : Fin N → ℝ) (δ : ℝ) (hd : DescentRay p d δ) (hδ : 0 < δ) :
    (∀ it ∈ r.2.iterations, δ ≤ l2 d * it.kktFinal.rDual) ∧
    (prm.terminationKktTol * l2 d ≤ δ → UsedUp prm r.2) := by
  have hn : 0 ≤ l2 d := l2_nonneg d
  refine ⟨fun it hm => ?_, fun htol => usedUp_of_not_satisfied h fun ht => ?_⟩
  · obtain ⟨b, e, -, hz⟩ := logged_final E p prm st hg r h it hm
    rw [e.1]
    exact ray_residual hd b hz
  · obtain ⟨h1, -⟩ := C11_satisfied_truthful E p prm st r h ht
    have := ray_residual hd r.1.v ((C07_slacks_positive E p prm st hg).1 r h).2
    rcases hn.lt_or_eq with hn' | hn'
    · have a := mul_lt_mul_of_pos_left h1 hn'
      linarith
    · rw [← hn'] at this
      linarith

end qp

/-! ## Conflicting bounds of a nonlinear problem -/

section nls
variable {n D : Nat}

theorem linearize_bounds {p : Problem D ℝ} {x : Fin n → ℝ} {lam : ℝ} {qp0 qp : QPData D p.M p.K ℝ} {pre : Errors ℝ}
    (h : linearize p x lam qp0 = .ok (qp, pre)) :
    (∀ c ∈ p.ineq, 0 ≤ c.var ∧ c.var < (n : Int)) ∧
    ∀ i : Fin p.M, qp.con i = ⟨(p.ineq.get i).var, (p.ineq.get i).a, boundAt (p.ineq.get i) x⟩ := by
  unfold linearize at h
  split at h
  · cases h
  · dsimp only at h
    split at h
    · cases h
    · split at h
      · cases h
      · rename_i con hcon
        cases h
        exact (shiftLoop_ok x p.ineq con).mp hcon

/-- **C90**, nonlinear problems with conflicting bounds. Suppose the bounds on one variable exclude each other by more than
`termination_kkt_tol`. Then every interior point run that the nonlinear solver logs has used up `max_qp_iterations` without
success. -/
theorem C90_conflicting_bounds (env : Env n D ℝ) (prm : NLSParams ℝ) (x0 : Fin n → ℝ) (o o' : env.Obj)
    (out : NLSOutputs ℝ) (calls : List (NLSIteration ℝ)) (h : solve env prm x0 o = .ok (o', out, calls)) (v : Int)
    (hconf : ∀ t : ℝ, ∃ c ∈ env.p.ineq, c.var = v ∧ c.a * t + c.b ≤ -prm.terminationKktTol)
    (it : NLSIteration ℝ) (hit : it ∈ out.iterations) (q : QPOutputs ℝ) (hq : it.qpOutputs = .interiorPoint q) :
    q.termination = .maxIterations ∧ (q.iterations.length : Int) = prm.maxQPIterations := by
  obtain ⟨k, hk⟩ := List.mem_iff_getElem?.mp hit
  obtain ⟨hex, -, -⟩ := C38_after env prm x0 o o' out calls h
  have hlt := lt_of_getElem? hk
  obtain ⟨a, ha, -⟩ := hex k (by omega)
  obtain ⟨b, hb, -⟩ := hex (k + 1) (by omega)
  obtain ⟨h1, -, h3⟩ := C38_direction env prm x0 o o' out calls h k it hk a b ha hb
  rcases h3 with ⟨hcon, s, s', q', hs, hq', -⟩ | ⟨s, s', _, hq', _⟩
  swap
  · rw [hq] at hq'; cases hq'
  rw [hq] at hq'
  cases hq'
  obtain ⟨hn, hbd⟩ := linearize_bounds h1
  refine C90_infeasible env.E _ _ _ (Or.inl (NLS.qpParams_guess env.p prm)) _ hs fun x => Or.inl ?_
  obtain ⟨c0, hc0, hv0, -⟩ := hconf 0
  have hvn := hn c0 hc0
  rw [hv0] at hvn
  have hvD : v < (D : Int) := by
    obtain ⟨i, hi⟩ := List.mem_iff_get.mp hc0
    have := (hcon i).2
    rw [hbd i, hi] at this
    rw [← hv0]
    exact this
  obtain ⟨c, hc, hv, hle⟩ := hconf (a.vars ⟨v.toNat, by omega⟩ + x ⟨v.toNat, by omega⟩)
  obtain ⟨i, hi⟩ := List.mem_iff_get.mp hc
  refine ⟨i, ?_⟩
  have e : ineqVal (b.qp.typed hcon) x i
      = (b.qp.con i).a * x ⟨(b.qp.con i).var.toNat, by have := hcon i; omega⟩ + (b.qp.con i).b := rfl
  have hvar : (b.qp.con i).var = v := by rw [hbd i, hi]; exact hv
  have ea : (b.qp.con i).a = c.a := by rw [hbd i, hi]
  have eb : (b.qp.con i).b = c.a * a.vars ⟨v.toNat, by omega⟩ + c.b := by
    rw [hbd i, hi]
    show boundAt c a.vars = _
    unfold boundAt
    rw [dif_pos (hn c hc)]
    simp only [hv]
  rw [e, ea, eb]
  simp only [hvar]
  have : (qpParams env.p prm).terminationKktTol = prm.terminationKktTol := rfl
  rw [this]
  linarith

end nls

/-! ## Runs -/

section examples
open MiniOpt.DemoReal

/-- `x ≥ 1` and `x ≤ -1`, objective `½ x²`. -/
noncomputable def conflictQP : QP 1 2 0 ℝ where
  G := fun _ _ => 1
  c := fun _ => 0
  A := Fin.elim0
  b := Fin.elim0
  con := ![⟨0, 1, -1⟩, ⟨0, -1, -1⟩]

/-- Objective `-x` subject to `x ≥ 0`. -/
noncomputable def rayQP : QP 1 1 0 ℝ where
  G := fun _ _ => 0
  c := fun _ => -1
  A := Fin.elim0
  b := Fin.elim0
  con := fun _ => ⟨0, 1, 0⟩

theorem conflict_certificate : FarkasCertificate conflictQP Fin.elim0 (fun _ => 1) 2 where
  nonneg _ := zero_le_one
  cancel x := by simp [conflictQP, Fin.sum_univ_two]
  const := by simp [conflictQP, Fin.sum_univ_two]; norm_num

theorem ray_ray : DescentRay rayQP (fun _ => 1) 1 where
  flat _ := by simp [Gsym, rayQP]
  eqs k := k.elim0
  ineqs _ := by simp [rayQP]
  falls := by simp [rayQP]

/-- With exact linear algebra the solver does return for both problems (with the default parameters), and then reports
`MAX_ITERATIONS`. -/
example : (∃ r, IP.solve exactEigen conflictQP QPParams.default (IP.setupState demoJunk) = .ok r ∧ UsedUp QPParams.default r.2) ∧
    (∃ r, IP.solve exactEigen rayQP QPParams.default (IP.setupState demoJunk) = .ok r ∧ UsedUp QPParams.default r.2) := by
  have hg : (QPParams.default : QPParams ℝ).initialGuessMethod ≠ .userProvided := by simp [QPParams.default]
  have htol : (QPParams.default : QPParams ℝ).terminationKktTol = 1 / 10 ^ 9 := by
    simp only [QPParams.default, real_lit]; norm_num
  constructor
  · obtain ⟨r, hr⟩ := solve_returns exactEigen exactEigen_total conflictQP
      (by intro m; fin_cases m <;> norm_num [conflictQP]) _ default_valid (IP.setupState demoJunk) (Or.inl hg)
    refine ⟨r, hr, (C90_certificate exactEigen conflictQP _ _ (Or.inl hg) r hr _ _ _ conflict_certificate (by norm_num)).2 ?_⟩
    rw [htol]
    have h1 : l2 (Fin.elim0 : Fin 0 → ℝ) = 0 := by simp [l2]
    have h2 : l2 (fun _ : Fin 2 => (1 : ℝ)) ≤ 2 := by
      simp only [l2, Fin.sum_univ_two]
      rw [Real.sqrt_le_left (by norm_num)]
      norm_num
    rw [h1]
    linarith
  · obtain ⟨r, hr⟩ := solve_returns exactEigen exactEigen_total rayQP
      (by intro m; norm_num [rayQP]) _ default_valid (IP.setupState demoJunk) (Or.inl hg)
    refine ⟨r, hr, (C90_unbounded exactEigen rayQP _ _ (Or.inl hg) r hr _ _ ray_ray (by norm_num)).2 ?_⟩
    rw [htol]
    have h1 : l2 (fun _ : Fin 1 => (1 : ℝ)) = 1 := by simp [l2]
    rw [h1]
    norm_num

/-- Costs `x₀ - 3` and `x₀ x₁ - 1` with the bounds `x₁ ≥ 5` and `x₁ ≤ 4`. -/
noncomputable def conflictEnv : Env 2 2 ℝ := mkEnv ⟨[cost1, cost2], [⟨1, 1, -5⟩, ⟨1, -1, 4⟩], []⟩

theorem conflict_run (x0 : Fin 2 → ℝ) :
    ∃ o' out calls, solve conflictEnv dp x0 (mkObj _) = .ok (o', out, calls) ∧ out.iterations ≠ [] := by
  have hcon : ∀ c ∈ conflictEnv.p.ineq, c = ⟨1, 1, -5⟩ ∨ c = ⟨1, -1, 4⟩ := by
    intro c hc
    have hc' : c ∈ [(⟨1, 1, -5⟩ : Ineq ℝ), ⟨1, -1, 4⟩] := hc
    simpa using hc'
  refine ip_run _ (mk_wellPosed _ ?_ ?_) (by simp) ?_ dp nls_default_valid dp_penalty dp_iterations x0
  · intro r hr
    have hr' : r ∈ [cost1, cost2] := by simpa using hr
    rcases List.mem_cons.mp hr' with rfl | hr'
    · exact ⟨_, _, _, rfl⟩
    · rcases List.mem_singleton.mp hr' with rfl; exact ⟨_, _, _, rfl⟩
  · intro c hc
    rcases hcon c hc with rfl | rfl <;> norm_num
  · intro c hc
    rcases hcon c hc with rfl | rfl <;> norm_num

/-- The run exists and logs an interior point run, which failed. -/
example : ∃ o' out calls it q, solve conflictEnv dp (fun _ => 2) (mkObj _) = .ok (o', out, calls) ∧
    it ∈ out.iterations ∧ it.qpOutputs = .interiorPoint q ∧ q.termination = .maxIterations := by
  obtain ⟨o', out, calls, h, hne⟩ := conflict_run fun _ => 2
  obtain ⟨it, hit⟩ := first_of hne
  obtain ⟨q, hq⟩ := (C45_which_solver conflictEnv dp _ _ o' out calls h it (List.mem_of_getElem? hit)).2
    (by simp [conflictEnv, mkEnv])
  refine ⟨o', out, calls, it, q, h, List.mem_of_getElem? hit, hq, ?_⟩
  refine (C90_conflicting_bounds conflictEnv dp _ _ o' out calls h 1 (fun t => ?_) it (List.mem_of_getElem? hit) q hq).1
  have htol : (dp : NLSParams ℝ).terminationKktTol = 1 / 10 ^ 6 := by
    simp only [dp, NLSParams.default, real_lit]; norm_num
  rw [htol]
  rcases le_total t (9 / 2) with ht | ht
  · exact ⟨⟨1, 1, -5⟩, by simp [conflictEnv, mkEnv], rfl, by norm_num; linarith⟩
  · exact ⟨⟨1, -1, 4⟩, by simp [conflictEnv, mkEnv], rfl, by norm_num; linarith⟩

end examples
end MiniOpt.Props
