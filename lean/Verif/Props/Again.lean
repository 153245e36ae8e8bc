import Verif.Props.SmallCost
import Verif.Props.UnitsConstrained
import Verif.Props.FirstOrder

/-!
# Calling `Solve` again from its result, and what damping does to a step (exact arithmetic, no constraints)
-/

set_option autoImplicit false

namespace MiniOpt.Props

open MiniOpt.Spec MiniOpt.NLS

variable {n D : Nat}

theorem linear_zero {a b : ℝ} (hb : 0 ≤ b) (h : ∀ t : ℝ, 0 ≤ t * a + t ^ 2 * b) : a = 0 := by
  have h1 := h (-a / (1 + b))
  have hp : 0 < 1 + b := by linarith
  have e : -a / (1 + b) * a + (-a / (1 + b)) ^ 2 * b = -(a ^ 2 / (1 + b) ^ 2) := by field_simp; ring
  rw [e] at h1
  have h2 : a ^ 2 ≤ 0 := by
    by_contra hc
    push Not at hc
    have := div_pos hc (pow_pos hp 2)
    linarith
  exact pow_eq_zero_iff two_ne_zero |>.mp (le_antisymm h2 (sq_nonneg _))

/-- The quadratic form of the step at damping `lam`. -/
theorem only_min_all {p : Problem D ℝ} (hp : WellPosed p n) {x : Fin n → ℝ} {lam : ℝ}
    {q0 q : QPData D p.M p.K ℝ} {pre : Errors ℝ} (hl : linearize p x lam q0 = .ok (q, pre)) (hK : p.eqs = [])
    {d : Fin D → ℝ} (hd : OnlyMin q d) (u : Fin D → ℝ) :
    (1 / 2) * curvature p x lam d + costSlope p x d ≤ (1 / 2) * curvature p x lam u + costSlope p x u := by
  obtain ⟨-, f2, -, -, -, f6⟩ := linearize_facts hp hl
  have hK0 : p.K = 0 := by simp [Problem.K, hK]
  have hmin : qval q d ≤ qval q u := by
    by_cases hu : u = d
    · rw [hu]
    · exact (hd.2 u (fun k => absurd (lt_of_lt_of_eq k.isLt hK0) (Nat.not_lt_zero _)) hu).le
  unfold qval at hmin
  rw [f6, f6, f2, f2] at hmin
  exact hmin

/-- A step that minimises the damped model: its slope is minus the curvature along it, hence twice the least value. -/
theorem only_min_stationary {p : Problem D ℝ} (hp : WellPosed p n) {x : Fin n → ℝ} {lam : ℝ}
    {q0 q : QPData D p.M p.K ℝ} {pre : Errors ℝ} (hl : linearize p x lam q0 = .ok (q, pre)) (hK : p.eqs = [])
    {d : Fin D → ℝ} (hd : OnlyMin q d) : costSlope p x d = - curvature p x lam d := by
  obtain ⟨-, f2, -, -, -, f6⟩ := linearize_facts hp hl
  have hs : ∀ t : ℝ, costSlope p x (fun i => t * d i) = t * costSlope p x d := by
    intro t
    unfold costSlope
    rw [← f2, ← f2, Finset.mul_sum]
    exact Finset.sum_congr rfl fun i _ => by ring
  have hc : ∀ t : ℝ, curvature p x lam (fun i => t * d i) = t ^ 2 * curvature p x lam d := by
    intro t
    unfold curvature
    rw [← f6, ← f6, Finset.mul_sum]
    refine Finset.sum_congr rfl fun i _ => ?_
    rw [Finset.mul_sum]
    exact Finset.sum_congr rfl fun j _ => by ring
  have h0 : 0 ≤ curvature p x lam d := curvature_nonneg _ _ _ _
  have := linear_zero (a := curvature p x lam d + costSlope p x d) (b := 1 / 2 * curvature p x lam d) (by linarith) fun t => by
    have := only_min_all hp hl hK hd (fun i => (1 + t) * d i)
    rw [hs, hc] at this
    nlinarith [this]
  linarith

/-- The step of an iteration is the only minimiser of its damped model. -/
theorem logged_min {env : Env n D ℝ} (hE : LDLTContract env.E) (hN : NSContract env.NE) (hp : WellPosed env.p n)
    (hi : env.p.ineq = []) {prm : NLSParams ℝ} {x0 : Fin n → ℝ} {o o' : env.Obj} {out : NLSOutputs ℝ}
    {calls : List (NLSIteration ℝ)} (h : solve env prm x0 o = .ok (o', out, calls)) {k : Nat} {it : NLSIteration ℝ} {a b : env.Obj}
    (hk : out.iterations[k]? = some it) (ha : After env prm x0 o k a) (hb : After env prm x0 o (k + 1) b)
    (hreg : env.p.eqs = [] → 0 < it.lambda ∨ RegularAt env.p a.vars) :
    OnlyMin b.qp b.dx ∧ linearize env.p a.vars it.lambda a.qp = .ok (b.qp, it.errorsInitial) ∧
      it.directionalDerivatives = costDerivative b.qp b.dx := by
  obtain ⟨S, U, W, hv⟩ := solve_view h
  have hlt : k < out.iterations.length := (List.getElem?_eq_some_iff.mp hk).1
  obtain ⟨g1, g2, -⟩ := C38_direction env prm x0 o o' out calls h k it hk a b ha hb
  refine ⟨?_, g1, g2⟩
  have P := hv.pass k hlt
  have hit : it = (W k).info := Option.some.inj (hk.symm.trans (hv.log k hlt))
  have haS := (hv.after k hlt.le a).mp ha
  have hbS := (hv.after (k + 1) hlt b).mp hb
  rw [hit, P.ilambda, haS] at hreg
  obtain ⟨sol, hd, -⟩ := P.dir
  have m1 := direction_min hE hN hp hi (ob := { (S k).obj with qp := (W k).qp })
    (o1 := { (S k).obj with qp := (W k).qp, dx := (W k).dx, solver := sol }) P.lin hd P.notIndef hreg
    (view_solver hv k hlt.le)
  have e1 : b.qp = (W k).qp := by
    rw [hit, haS, P.ilambda] at g1
    have := P.lin.symm.trans g1
    exact (congrArg Prod.fst (Except.ok.inj this)).symm
  have e2 : b.dx = (W k).dx := by rw [hbS]; exact P.dx
  rw [e1, e2]
  exact m1

/-- **C121** (damping and slope). Without constraints, of two iterations that start at the same variables - in one solve or in
two, with any parameters - the one with the larger `lambda` logs a flatter slope, and neither logs a rising one. -/
theorem C121_damping_slope (env : Env n D ℝ) (hE : LDLTContract env.E) (hN : NSContract env.NE) (hp : WellPosed env.p n)
    (hi : env.p.ineq = []) (he : env.p.eqs = []) (prm prm' : NLSParams ℝ) (x0 x0' : Fin n → ℝ) (o o1 ob ob1 : env.Obj)
    (out out' : NLSOutputs ℝ) (calls calls' : List (NLSIteration ℝ)) (h : solve env prm x0 o = .ok (o1, out, calls))
    (h' : solve env prm' x0' ob = .ok (ob1, out', calls')) (k k' : Nat) (it it' : NLSIteration ℝ) (a a' : env.Obj)
    (hk : out.iterations[k]? = some it) (hk' : out'.iterations[k']? = some it') (ha : After env prm x0 o k a)
    (ha' : After env prm' x0' ob k' a') (hsame : a'.vars = a.vars) (hlam : it.lambda ≤ it'.lambda)
    (hreg : 0 < it.lambda ∨ RegularAt env.p a.vars) :
    it.directionalDerivatives.dF ≤ it'.directionalDerivatives.dF ∧ it'.directionalDerivatives.dF ≤ 0 := by
  obtain ⟨b, hb, -⟩ := (C38_after env prm x0 o o1 out calls h).1 (k + 1) (List.getElem?_eq_some_iff.mp hk).1
  obtain ⟨b', hb', -⟩ := (C38_after env prm' x0' ob ob1 out' calls' h').1 (k' + 1) (List.getElem?_eq_some_iff.mp hk').1
  obtain ⟨m1, l1, d1⟩ := logged_min hE hN hp hi h hk ha hb (fun _ => hreg)
  obtain ⟨m2, l2', d2⟩ := logged_min hE hN hp hi h' hk' ha' hb'
    (fun _ => hreg.imp (fun hr => lt_of_lt_of_le hr hlam) (fun hr => by rw [hsame]; exact hr))
  rw [hsame] at l2'
  have e1 : it.directionalDerivatives.dF = costSlope env.p a.vars b.dx := by
    rw [d1, (costDerivative_real _ _).1, (linearize_facts hp l1).2.1]; rfl
  have e2 : it'.directionalDerivatives.dF = costSlope env.p a.vars b'.dx := by
    rw [d2, (costDerivative_real _ _).1, (linearize_facts hp l2').2.1]; rfl
  have s1 := only_min_stationary hp l1 he m1
  have s2 := only_min_stationary hp l2' he m2
  have hmin := only_min_all hp l1 he m1 b'.dx
  have hmono : curvature env.p a.vars it.lambda b'.dx ≤ curvature env.p a.vars it'.lambda b'.dx := by
    unfold curvature
    have h1 : max it.lambda 0 ≤ max it'.lambda 0 := max_le_max hlam le_rfl
    have h2 : 0 ≤ ∑ i, b'.dx i ^ 2 := Finset.sum_nonneg (s := Finset.univ) fun (i : Fin D) _ => sq_nonneg (b'.dx i)
    have := mul_le_mul_of_nonneg_right h1 h2
    linarith
  have hn : 0 ≤ curvature env.p a.vars it'.lambda b'.dx := curvature_nonneg _ _ _ _
  rw [e1, e2]
  constructor <;> linarith

/-- **C121** (damping and length). Without inequality constraints, of two iterations that start at the same variables the one
with the larger `lambda` does not take the longer step. -/
theorem C121_damping_length (env : Env n D ℝ) (hE : LDLTContract env.E) (hN : NSContract env.NE) (hp : WellPosed env.p n)
    (hi : env.p.ineq = []) (prm prm' : NLSParams ℝ) (x0 x0' : Fin n → ℝ) (o o1 ob ob1 : env.Obj)
    (out out' : NLSOutputs ℝ) (calls calls' : List (NLSIteration ℝ)) (h : solve env prm x0 o = .ok (o1, out, calls))
    (h' : solve env prm' x0' ob = .ok (ob1, out', calls')) (k k' : Nat) (it it' : NLSIteration ℝ) (a a' b b' : env.Obj)
    (hk : out.iterations[k]? = some it) (hk' : out'.iterations[k']? = some it') (ha : After env prm x0 o k a)
    (ha' : After env prm' x0' ob k' a') (hb : After env prm x0 o (k + 1) b) (hb' : After env prm' x0' ob (k' + 1) b')
    (hsame : a'.vars = a.vars) (h0 : 0 ≤ it.lambda) (hlam : it.lambda < it'.lambda)
    (hreg : env.p.eqs = [] → 0 < it.lambda ∨ RegularAt env.p a.vars) :
    l2 b'.dx ≤ l2 b.dx := by
  obtain ⟨m1, l1, -⟩ := logged_min hE hN hp hi h hk ha hb hreg
  obtain ⟨m2, l2', -⟩ := logged_min hE hN hp hi h' hk' ha' hb'
    (fun _ => Or.inl (lt_of_le_of_lt h0 hlam))
  rw [hsame] at l2'
  obtain ⟨-, f2, f3, -, -, f6⟩ := linearize_facts hp l1
  obtain ⟨-, g2, g3, -, -, g6⟩ := linearize_facts hp l2'
  have hfeas : ∀ u : Fin D → ℝ, ∀ k, (∑ j, b.qp.A k j * u j) + b.qp.b k = (∑ j, b'.qp.A k j * u j) + b'.qp.b k := by
    intro u
    have := (f3 u).trans (g3 u).symm
    exact fun k => congrFun (List.ofFn_injective this) k
  have hq : ∀ {q : QPData D env.p.M env.p.K ℝ} {d u : Fin D → ℝ}, OnlyMin q d → (∀ k, (∑ j, q.A k j * u j) + q.b k = 0) →
      qval q d ≤ qval q u := by
    intro q d u hd hu
    by_cases hne : u = d
    · rw [hne]
    · exact (hd.2 u hu hne).le
  have i1 := hq m1 (u := b'.dx) (fun k => by rw [hfeas]; exact m2.1 k)
  have i2 := hq m2 (u := b.dx) (fun k => by rw [← hfeas]; exact m1.1 k)
  unfold qval at i1 i2
  rw [f6, f6, f2, f2, max_eq_left h0] at i1
  rw [g6, g6, g2, g2, max_eq_left (h0.trans hlam.le)] at i2
  have : (it'.lambda - it.lambda) * (∑ i, b'.dx i ^ 2) ≤ (it'.lambda - it.lambda) * ∑ i, b.dx i ^ 2 := by linarith
  unfold l2
  exact Real.sqrt_le_sqrt ((mul_le_mul_iff_right₀ (sub_pos.mpr hlam)).mp this)

/-- An iteration without constraints whose slope is below the tolerance ends the solve. -/
theorem slope_ends {env : Env n D ℝ} (he : env.p.eqs = []) {prm : NLSParams ℝ} {x0 : Fin n → ℝ} {o o1 : env.Obj} {out : NLSOutputs ℝ}
    {calls : List (NLSIteration ℝ)} (h : solve env prm x0 o = .ok (o1, out, calls)) {k : Nat} {it : NLSIteration ℝ} {a : env.Obj}
    (hk : out.iterations[k]? = some it) (ha : After env prm x0 o k a)
    (hs : |it.directionalDerivatives.dF| < prm.absoluteFirstDerivativeTol) :
    out.termination = .satisfiedFirstOrderTol ∧ out.iterations.length = k + 1 ∧ o1.vars = a.vars := by
  obtain ⟨S, U, W, hv⟩ := solve_view h
  have hlt : k < out.iterations.length := (List.getElem?_eq_some_iff.mp hk).1
  have haS := (hv.after k hlt.le a).mp ha
  have P := hv.pass k hlt
  have hit : it = (W k).info := Option.some.inj (hk.symm.trans (hv.log k hlt))
  have hK : env.p.K = 0 := by simp [Problem.K, he]
  have h0 : (costDerivative (W k).qp (W k).dx).dEquality = 0 := by
    rw [(costDerivative_real _ _).2]
    exact Finset.sum_eq_zero fun k _ => absurd (lt_of_lt_of_eq k.isLt hK) (Nat.not_lt_zero _)
  have hlinf : (costDerivative (W k).qp (W k).dx).lInfinity < prm.absoluteFirstDerivativeTol := by
    rw [hit, P.ideriv] at hs
    unfold DirectionalDerivatives.lInfinity
    rw [h0, real_cmax]
    have e1 : ∀ v : ℝ, (Scalar.abs v : ℝ) = |v| := fun v => rfl
    rw [e1, e1, abs_zero, max_eq_left (abs_nonneg _)]
    exact hs
  have hls := P.ls
  have hfuel : (prm.maxLineSearchIterations + 1).toNat = prm.maxLineSearchIterations.toNat + 1 := by
    have := hv.prmOk.maxLineSearchIterations
    omega
  rw [hfuel] at hls
  have hres : (W k).res = .firstOrderSatisfied := ls_first hlinf hls
  have hex : (W k).exit = some .satisfiedFirstOrderTol := by rw [P.exit, hres]; rfl
  have hU : U k = some .satisfiedFirstOrderTol := by
    rw [P.term, hex]
    unfold finish
    cases env.callback <;> rfl
  have hlen : out.iterations.length = k + 1 := by
    by_contra hne
    rw [hv.cont k (by omega)] at hU
    cases hU
  refine ⟨?_, hlen, ?_⟩
  · rcases hv.stop with ⟨_, _, hn, _⟩ | ⟨_, _, hT, _⟩ | ⟨_, _, hn, _⟩
    · rw [hn k hlt] at hU; cases hU
    · rw [hlen, Nat.add_sub_cancel, hU] at hT
      exact (Option.some.inj hT).symm
    · rw [hn k hlt] at hU; cases hU
  · rw [hv.vars, hlen, P.vars, hres, if_neg (by simp), haS]

/-- The first iteration of a solve without equality constraints. -/
theorem first_iteration {env : Env n D ℝ} (he : env.p.eqs = []) {prm : NLSParams ℝ} {x0 : Fin n → ℝ} {o o1 : env.Obj}
    {out : NLSOutputs ℝ} {calls : List (NLSIteration ℝ)} (h : solve env prm x0 o = .ok (o1, out, calls)) (hm : 0 < prm.maxIterations) :
    ∃ (it : NLSIteration ℝ) (a : env.Obj), out.iterations[0]? = some it ∧ After env prm x0 o 0 a ∧ a.vars = x0 ∧
      it.lambda = prm.lambdaInitial := by
  obtain ⟨S, U, W, hv⟩ := solve_view h
  have hlt : 0 < out.iterations.length := by
    rcases hv.stop with ⟨_, e1, _⟩ | ⟨_, h0, _⟩ | ⟨ht, _, _, qp, pre, ob1, res, hl, hd, hw, _⟩
    · omega
    · exact h0
    · exfalso
      have hkind := view_solver hv out.iterations.length le_rfl
      rcases stepDirection_cases hd with ⟨_, _, _, _, _, _, _, h2, _⟩ | ⟨s, _, _, h1, _⟩
      · rw [h2] at hw; cases hw
      · exact (hkind.mp ⟨s, h1⟩).2 he
  refine ⟨(W 0).info, (S 0).obj, hv.log 0 hlt, (hv.after 0 (Nat.zero_le _) _).mpr rfl, ?_, ?_⟩
  · rw [hv.start]; rfl
  · rw [(hv.pass 0 hlt).ilambda, hv.start]; rfl

/-- **C121** (again). Without constraints: where a solve has ended with `SATISFIED_FIRST_ORDER_TOL`, a second one - on any object of
the problem, with other parameters - that damps its first iteration at least as much and is not stricter about the slope ends after
one iteration with `SATISFIED_FIRST_ORDER_TOL` and the same variables. -/
theorem C121_again (env : Env n D ℝ) (hE : LDLTContract env.E) (hN : NSContract env.NE) (hp : WellPosed env.p n)
    (hi : env.p.ineq = []) (he : env.p.eqs = []) (prm prm' : NLSParams ℝ) (x0 : Fin n → ℝ) (o o1 ob ob1 : env.Obj)
    (out out' : NLSOutputs ℝ) (calls calls' : List (NLSIteration ℝ)) (h : solve env prm x0 o = .ok (o1, out, calls))
    (h' : solve env prm' o1.vars ob = .ok (ob1, out', calls')) (hT : out.termination = .satisfiedFirstOrderTol)
    (it : NLSIteration ℝ) (hit : out.iterations.getLast? = some it) (hlam : it.lambda ≤ prm'.lambdaInitial)
    (htol : prm.absoluteFirstDerivativeTol ≤ prm'.absoluteFirstDerivativeTol) (hm : 0 < prm'.maxIterations)
    (hreg : 0 < it.lambda ∨ RegularAt env.p o1.vars) :
    out'.termination = .satisfiedFirstOrderTol ∧ out'.iterations.length = 1 ∧ ob1.vars = o1.vars := by
  obtain ⟨k, it0, a, b, hk, hit0, ha, -, hav, hdF, -⟩ := first_order_last env prm x0 o o1 out calls h hT
  have : it0 = it := by
    rw [List.getLast?_eq_getElem?, ← hk, Nat.add_sub_cancel, hit0] at hit
    exact Option.some.inj hit
  subst this
  obtain ⟨it', a', hit', ha', hv', hl'⟩ := first_iteration he h' hm
  obtain ⟨s1, s2⟩ := C121_damping_slope env hE hN hp hi he prm prm' x0 o1.vars o o1 ob ob1 out out' calls calls' h h' k 0 it0 it' a a'
    hit0 hit' ha ha' (by rw [hv', hav]) (by rw [hl']; exact hlam) (by rw [hav]; exact hreg)
  have := slope_ends he h' hit' ha' (by
    rw [abs_of_nonpos s2]
    have := neg_le_abs it0.directionalDerivatives.dF
    linarith)
  rw [hv'] at this
  exact this

/-- **C121** (after an absolute exit). If half of `absolute_first_derivative_tol` is at least the `absolute_exit_tol` (as it is by
default), a solve that ended with `SATISFIED_ABSOLUTE_TOL` is not continued by a second one: that ends after one iteration where it
started. -/
theorem C121_after_absolute (env : Env n D ℝ) (hE : LDLTContract env.E) (hN : NSContract env.NE) (hp : WellPosed env.p n)
    (hi : env.p.ineq = []) (he : env.p.eqs = []) (prm prm' : NLSParams ℝ) (x0 : Fin n → ℝ) (o o1 ob ob1 : env.Obj)
    (out out' : NLSOutputs ℝ) (calls calls' : List (NLSIteration ℝ)) (h : solve env prm x0 o = .ok (o1, out, calls))
    (h' : solve env prm' o1.vars ob = .ok (ob1, out', calls')) (hT : out.termination = .satisfiedAbsoluteTol)
    (htol : 2 * prm.absoluteExitTol ≤ prm'.absoluteFirstDerivativeTol) (hm : 0 < prm'.maxIterations)
    (hreg : 0 < prm'.lambdaInitial ∨ RegularAt env.p o1.vars) :
    out'.termination = .satisfiedFirstOrderTol ∧ out'.iterations.length = 1 ∧ ob1.vars = o1.vars := by
  obtain ⟨hc, -⟩ := C46_absolute_exit env hp.consistent prm x0 o o1 out calls h hT
  exact C119_start env hE hN hp hi he prm' o1.vars ob ob1 out' calls' h' hm hreg (by linarith)

end MiniOpt.Props
