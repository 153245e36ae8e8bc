import Verif.Props.NLSNullSpace
import Verif.Props.NLSBounds
import Verif.Props.NLSUnconstrained
import Verif.Props.QPMore
import Verif.Spec.SmoothSpec

/-!
# C68, C69: descent of interior point steps, and what `SATISFIED_FIRST_ORDER_TOL` says about the result

Concrete runs meeting the hypotheses: `Props/FirstOrderExamples.lean`.
-/

set_option autoImplicit false

namespace MiniOpt.Props

open MiniOpt.Spec MiniOpt.NLS

section QP
variable {N M K : Nat}

/-- The bilinear form of the symmetric matrix read from the lower triangle of `G`. -/
noncomputable def bil (p : QP N M K ℝ) (u v : Fin N → ℝ) : ℝ := ∑ i, ∑ j, u i * Gsym p i j * v j

theorem bil_symm (p : QP N M K ℝ) (u v : Fin N → ℝ) : bil p u v = bil p v u := by
  unfold bil
  rw [Finset.sum_comm]
  refine Finset.sum_congr rfl fun i _ => Finset.sum_congr rfl fun j _ => ?_
  have : Gsym p j i = Gsym p i j := by unfold Gsym; rw [max_comm, min_comm]
  rw [this]; ring

theorem bil_expand (p : QP N M K ℝ) (u v : Fin N → ℝ) (t : ℝ) :
    bil p (fun i => u i + t * v i) (fun i => u i + t * v i) = bil p u u + 2 * t * bil p u v + t ^ 2 * bil p v v := by
  have h1 : bil p (fun i => u i + t * v i) (fun i => u i + t * v i)
      = bil p u u + t * bil p u v + t * bil p v u + t ^ 2 * bil p v v := by
    unfold bil
    simp only [Finset.mul_sum, ← Finset.sum_add_distrib]
    exact Finset.sum_congr rfl fun i _ => Finset.sum_congr rfl fun j _ => by ring
  rw [h1, bil_symm p v u]; ring

/-- Cauchy-Schwarz for a positive semidefinite `G`. -/
theorem bil_sq_le (p : QP N M K ℝ) (hG : ∀ u, 0 ≤ bil p u u) (u v : Fin N → ℝ) :
    bil p u v ^ 2 ≤ bil p u u * bil p v v := by
  have h : ∀ t : ℝ, 0 ≤ bil p v v * (t * t) + 2 * bil p u v * t + bil p u u := by
    intro t
    have := hG fun i => u i + t * v i
    rw [bil_expand] at this
    nlinarith
  have := discrim_le_zero h
  unfold discrim at this
  nlinarith

theorem abs_bil_le (p : QP N M K ℝ) (hG : ∀ u, 0 ≤ bil p u u) (u v : Fin N → ℝ) :
    |bil p u v| ≤ Real.sqrt (bil p u u * bil p v v) :=
  Real.abs_le_sqrt (bil_sq_le p hG u v)

/-- The linear term along `w`, from the gradient of the Lagrangian. -/
theorem linear_term (p : QP N M K ℝ) (v : Blocks N M K ℝ) (w : Fin N → ℝ) :
    ∑ i, p.c i * w i = (∑ i, gradLagrangian p v i * w i) - bil p w v.x + (∑ k, v.y k * (eqVal p w k - p.b k))
      + ∑ m, v.z m * (ineqVal p w m - (p.con m).b) := by
  have e1 : ∑ k, v.y k * (eqVal p w k - p.b k) = ∑ i, (∑ k, p.A k i * v.y k) * w i := by
    simp only [eqVal, add_sub_cancel_right, Finset.mul_sum, Finset.sum_mul]
    rw [Finset.sum_comm]
    exact Finset.sum_congr rfl fun i _ => Finset.sum_congr rfl fun k _ => by ring
  have e2 : ∑ m, v.z m * (ineqVal p w m - (p.con m).b)
      = ∑ i, (∑ m, if (p.con m).var = i then (p.con m).a * v.z m else 0) * w i := by
    simp only [Finset.sum_mul]
    rw [Finset.sum_comm]
    refine Finset.sum_congr rfl fun m _ => ?_
    simp only [ite_mul, zero_mul, Finset.sum_ite_eq, Finset.mem_univ, if_true]
    unfold ineqVal; ring
  have e3 : bil p w v.x = ∑ i, (∑ j, Gsym p i j * v.x j) * w i := by
    unfold bil
    refine Finset.sum_congr rfl fun i _ => ?_
    rw [Finset.sum_mul]
    exact Finset.sum_congr rfl fun j _ => by ring
  rw [e1, e2, e3, ← Finset.sum_sub_distrib, ← Finset.sum_add_distrib, ← Finset.sum_add_distrib]
  refine Finset.sum_congr rfl fun i _ => ?_
  unfold gradLagrangian; ring

/-- Cauchy-Schwarz for the Euclidean norm. -/
theorem abs_sum_mul_le_l2 {n : Nat} (u v : Fin n → ℝ) : |∑ i, u i * v i| ≤ l2 u * l2 v := by
  rw [abs_le]
  refine ⟨?_, sum_mul_le_l2 u v⟩
  have := sum_mul_le_l2 (fun i => - u i) v
  have e : l2 (fun i => - u i) = l2 u := by unfold l2; simp
  rw [e] at this
  simp only [neg_mul, Finset.sum_neg_distrib] at this
  linarith

/-- How far the variables `v` are from solving the QP, when the equality multipliers are at most `pen`: the duality gap
`s·z` and the norms of the three linear residuals. It is zero at an exact solution. -/
noncomputable def qpGap (p : QP N M K ℝ) (v : Blocks N M K ℝ) (pen : ℝ) : ℝ :=
  (∑ m, v.s m * v.z m) + l2 (gradLagrangian p v) * l2 v.x + l2 (fun m => ineqVal p v.x m - v.s m) * l2 v.z
    + 2 * (Real.sqrt K * pen) * l2 (eqVal p v.x)

/-- The linear term along the returned `x`, when zero satisfies the inequality constraints. -/
theorem qp_descent (p : QP N M K ℝ) (v : Blocks N M K ℝ) (hz : ∀ m, 0 < v.z m) (hb : ∀ m, 0 ≤ (p.con m).b) :
    ∑ i, p.c i * v.x i ≤ - bil p v.x v.x - (∑ k, v.y k * p.b k) + (∑ m, v.s m * v.z m)
      + l2 (gradLagrangian p v) * l2 v.x + l2 (fun m => ineqVal p v.x m - v.s m) * l2 v.z
      + l2 (eqVal p v.x) * l2 v.y := by
  have e := linear_term p v v.x
  have e2 : ∑ k, v.y k * (eqVal p v.x k - p.b k)
      = (∑ k, eqVal p v.x k * v.y k) - ∑ k, v.y k * p.b k := by
    rw [← Finset.sum_sub_distrib]; exact Finset.sum_congr rfl fun k _ => by ring
  have e3 : ∑ m, v.z m * (ineqVal p v.x m - (p.con m).b)
      ≤ (∑ m, (ineqVal p v.x m - v.s m) * v.z m) + ∑ m, v.s m * v.z m := by
    rw [← Finset.sum_add_distrib]
    refine Finset.sum_le_sum fun m _ => ?_
    have := mul_nonneg (hz m).le (hb m)
    nlinarith
  have b1 := (abs_le.mp (abs_sum_mul_le_l2 (gradLagrangian p v) v.x)).2
  have b2 := (abs_le.mp (abs_sum_mul_le_l2 (eqVal p v.x) v.y)).2
  have b3 := (abs_le.mp (abs_sum_mul_le_l2 (fun m => ineqVal p v.x m - v.s m) v.z)).2
  rw [e, e2]
  linarith

/-- A lower bound on the linear term along a feasible displacement. -/
theorem qp_variational (p : QP N M K ℝ) (hG : ∀ u, 0 ≤ bil p u u) (v : Blocks N M K ℝ) (hz : ∀ m, 0 < v.z m)
    (w : Fin N → ℝ) (hw : ∀ m, 0 ≤ ineqVal p w m) (hA : ∀ k, ∑ j, p.A k j * w j = 0) :
    - Real.sqrt (bil p v.x v.x * bil p w w) + (∑ i, p.c i * v.x i) + (∑ k, v.y k * p.b k)
      - (∑ m, v.s m * v.z m) - l2 (gradLagrangian p v) * (l2 w + l2 v.x)
      - l2 (fun m => ineqVal p v.x m - v.s m) * l2 v.z
      - l2 (eqVal p v.x) * l2 v.y ≤ ∑ i, p.c i * w i := by
  have ew := linear_term p v w
  have ex := linear_term p v v.x
  have hy0 : ∑ k, v.y k * (eqVal p w k - p.b k) = 0 := by
    refine Finset.sum_eq_zero fun k _ => ?_
    unfold eqVal
    rw [hA k]; ring
  have e2 : ∑ k, v.y k * (eqVal p v.x k - p.b k)
      = (∑ k, eqVal p v.x k * v.y k) - ∑ k, v.y k * p.b k := by
    rw [← Finset.sum_sub_distrib]; exact Finset.sum_congr rfl fun k _ => by ring
  have ez : ∑ m, v.z m * (ineqVal p w m - (p.con m).b)
      ≥ (∑ m, v.z m * (ineqVal p v.x m - (p.con m).b))
        - (∑ m, (ineqVal p v.x m - v.s m) * v.z m) - ∑ m, v.s m * v.z m := by
    rw [ge_iff_le, ← Finset.sum_sub_distrib, ← Finset.sum_sub_distrib]
    refine Finset.sum_le_sum fun m _ => ?_
    have := mul_nonneg (hz m).le (hw m)
    nlinarith
  have b1 := abs_le.mp (abs_sum_mul_le_l2 (gradLagrangian p v) v.x)
  have b1w := abs_le.mp (abs_sum_mul_le_l2 (gradLagrangian p v) w)
  have b2 := abs_le.mp (abs_sum_mul_le_l2 (eqVal p v.x) v.y)
  have b3 := abs_le.mp (abs_sum_mul_le_l2 (fun m => ineqVal p v.x m - v.s m) v.z)
  have bq := abs_le.mp (abs_bil_le p hG v.x w)
  have bs := bil_symm p w v.x
  have bp := hG v.x
  rw [e2] at ex
  rw [hy0] at ew
  linarith [b1.1, b1.2, b1w.1, b1w.2, b2.1, b2.2, b3.1, b3.2, bq.1, bq.2]

/-- At a minimiser along a line the derivative vanishes. -/
theorem qp_stationary (p : QP N M K ℝ) (x d : Fin N → ℝ)
    (hmin : ∀ t : ℝ, objective p x ≤ objective p (fun i => x i + t * d i)) : (∑ i, p.c i * d i) + bil p x d = 0 := by
  have hobj : ∀ u, objective p u = 1 / 2 * bil p u u + ∑ i, p.c i * u i := fun u => rfl
  have h : ∀ t : ℝ, 0 ≤ t * ((∑ i, p.c i * d i) + bil p x d) + t ^ 2 * (1 / 2 * bil p d d) := by
    intro t
    have e := hmin t
    rw [hobj, hobj, bil_expand] at e
    have e2 : ∑ i, p.c i * (x i + t * d i) = (∑ i, p.c i * x i) + t * ∑ i, p.c i * d i := by
      rw [Finset.mul_sum, ← Finset.sum_add_distrib]; exact Finset.sum_congr rfl fun i _ => by ring
    rw [e2] at e
    nlinarith
  set S := (∑ i, p.c i * d i) + bil p x d
  set Q := 1 / 2 * bil p d d
  by_contra hne
  have hq : 0 < |Q| + 1 := by positivity
  have := h (-(S / (|Q| + 1)))
  have hs : 0 < S ^ 2 := by positivity
  have e : -(S / (|Q| + 1)) * S + (-(S / (|Q| + 1))) ^ 2 * Q = S ^ 2 / (|Q| + 1) ^ 2 * (Q - (|Q| + 1)) := by
    field_simp; ring
  rw [e] at this
  have hneg : Q - (|Q| + 1) < 0 := by linarith [le_abs_self Q]
  have hpos : 0 < S ^ 2 / (|Q| + 1) ^ 2 := by positivity
  nlinarith

end QP

variable {n D : Nat}

theorem curvature_nonneg (p : Problem D ℝ) (x : Fin n → ℝ) (lam : ℝ) (d : Fin D → ℝ) : 0 ≤ curvature p x lam d := by
  refine add_nonneg (List.sum_nonneg ?_) (mul_nonneg (le_max_right _ _) (Finset.sum_nonneg fun i _ => sq_nonneg _))
  intro v hv
  obtain ⟨r, _, rfl⟩ := List.mem_map.mp hv
  exact Finset.sum_nonneg fun k _ => sq_nonneg _

/-- The interior point solver object after an iteration, and the run that produced it. -/
theorem ip_after (env : Env n D ℝ) (prm : NLSParams ℝ) (x0 : Fin n → ℝ) (o o' : env.Obj)
    (out : NLSOutputs ℝ) (calls : List (NLSIteration ℝ)) (h : solve env prm x0 o = .ok (o', out, calls))
    (k : Nat) (it : NLSIteration ℝ) (hit : out.iterations[k]? = some it) (b : env.Obj)
    (hb : After env prm x0 o (k + 1) b) (q : QPOutputs ℝ) (hq : it.qpOutputs = .interiorPoint q)
    (s' : IPState D env.p.M env.p.K ℝ) (hs : b.solver = .ip s') :
    ∃ (hcon : ∀ i, 0 ≤ (b.qp.con i).var ∧ (b.qp.con i).var < (D : Int)) (s : IPState D env.p.M env.p.K ℝ),
      IP.solve env.E (b.qp.typed hcon) (qpParams env.p prm) (IP.setupState s) = .ok (s', q) ∧ b.dx = s'.v.x := by
  obtain ⟨S, T, W, hv⟩ := solve_view h
  obtain ⟨hk, rfl, hp⟩ := view_info hv hit
  have hbe := (hv.after (k + 1) (by omega) b).mp hb
  obtain ⟨sol, hd, hsol⟩ := hp.dir
  rw [hp.iout] at hq
  rw [hbe] at hs ⊢
  rw [hsol] at hs
  rw [hp.dx]
  rcases stepDirection_cases hd with ⟨hcon, s, s2, q2, _, e2, h1, h2, h3⟩ | ⟨s, s2, t, _, e2, h1, h2, h3⟩
  · have e2' : sol = .ip s2 := e2
    rw [hs] at e2'
    cases e2'
    rw [h2] at hq
    cases hq
    rw [hp.qp]
    exact ⟨hcon, s, h1, h3⟩
  · rw [h2] at hq; cases hq

theorem stackedModel_flat {x : Fin n → ℝ} (d : Fin D → ℝ) : ∀ {l : List (Residual ℝ)},
    (∀ r ∈ l, ∀ k, slopeAt r x d k = 0) → stackedModel x d l = stackedValues x l
  | [], _ => rfl
  | r :: rs, hd => by
    have e : linAt r x d = valueAt r x := by
      funext k
      have := hd r (by simp) k
      unfold slopeAt at this
      unfold linAt
      rw [this, add_zero]
    show List.ofFn (linAt r x d) ++ stackedModel x d rs = List.ofFn (valueAt r x) ++ stackedValues x rs
    rw [e, stackedModel_flat d fun r' h' => hd r' (by simp [h'])]

/-- The interior point solver object after an iteration. -/
theorem ip_solver (env : Env n D ℝ) (prm : NLSParams ℝ) (x0 : Fin n → ℝ) (o o' : env.Obj)
    (out : NLSOutputs ℝ) (calls : List (NLSIteration ℝ)) (h : solve env prm x0 o = .ok (o', out, calls))
    (k : Nat) (it : NLSIteration ℝ) (hit : out.iterations[k]? = some it) (b : env.Obj)
    (hb : After env prm x0 o (k + 1) b) (q : QPOutputs ℝ) (hq : it.qpOutputs = .interiorPoint q) :
    ∃ s', b.solver = .ip s' := by
  obtain ⟨S, T, W, hv⟩ := solve_view h
  obtain ⟨hk, rfl, hp⟩ := view_info hv hit
  have hbe := (hv.after (k + 1) (by omega) b).mp hb
  obtain ⟨sol, hd, hsol⟩ := hp.dir
  rw [hp.iout] at hq
  rw [hbe, hsol]
  rcases stepDirection_cases hd with ⟨hcon, s, s2, q2, _, e2, h1, h2, h3⟩ | ⟨s, s2, t, _, e2, h1, h2, h3⟩
  · exact ⟨s2, e2⟩
  · rw [h2] at hq; cases hq

/-- Everything the theorems below use about an interior point iteration. -/
theorem ip_facts (env : Env n D ℝ) (hp : WellPosed env.p n) (prm : NLSParams ℝ) (x0 : Fin n → ℝ) (o o' : env.Obj)
    (out : NLSOutputs ℝ) (calls : List (NLSIteration ℝ)) (h : solve env prm x0 o = .ok (o', out, calls))
    (k : Nat) (it : NLSIteration ℝ) (hit : out.iterations[k]? = some it) (a b : env.Obj)
    (ha : After env prm x0 o k a) (hb : After env prm x0 o (k + 1) b) (q : QPOutputs ℝ)
    (hq : it.qpOutputs = .interiorPoint q) (s' : IPState D env.p.M env.p.K ℝ) (hs : b.solver = .ip s')
    (hcon : ∀ i, 0 ≤ (b.qp.con i).var ∧ (b.qp.con i).var < (D : Int)) :
    (∀ m, 0 < s'.v.z m ∧ 0 < s'.v.s m) ∧ b.dx = s'.v.x ∧ l2 s'.v.y ≤ Real.sqrt env.p.K * it.penalty ∧
    |∑ k, s'.v.y k * b.qp.b k| ≤ it.penalty * violationAt env.p a.vars ∧
    |it.directionalDerivatives.dEquality + violationAt env.p a.vars|
      ≤ Real.sqrt env.p.K * l2 (eqVal (b.qp.typed hcon) s'.v.x) ∧
    it.directionalDerivatives.dF = ∑ i, (b.qp.typed hcon).c i * s'.v.x i ∧
    (∀ d, ∑ i, (b.qp.typed hcon).c i * d i = costSlope env.p a.vars d) ∧
    (∀ d, bil (b.qp.typed hcon) d d = curvature env.p a.vars it.lambda d) ∧
    (∀ d : Fin D → ℝ, (∀ r ∈ env.p.eqs, ∀ k, slopeAt r a.vars d k = 0) →
      ∀ k, ∑ j, (b.qp.typed hcon).A k j * d j = 0) ∧
    (∀ m, ((b.qp.typed hcon).con m).b = boundAt (env.p.ineq.get m) a.vars) ∧ 0 < it.penalty := by
  have hmem := List.mem_of_getElem? hit
  obtain ⟨hcon', s, hsol, hdx⟩ := ip_after env prm x0 o o' out calls h k it hit b hb q hq s' hs
  obtain ⟨h1, h2, -⟩ := C38_direction env prm x0 o o' out calls h k it hit a b ha hb
  obtain ⟨f1, f2, f3, f4, f5, f6⟩ := linearize_facts hp h1
  obtain ⟨hpen, -, hdom⟩ := C44_penalty env prm x0 o o' out calls h
  have hpos := (hpen it hmem).1
  have hy : ∀ k, |s'.v.y k| ≤ it.penalty := by
    intro i
    have heq : env.p.eqs ≠ [] := by
      intro he
      have : env.p.K = 0 := by simp [Problem.K, he]
      exact absurd (lt_of_lt_of_eq i.isLt this) (Nat.not_lt_zero _)
    obtain ⟨L1, L2⟩ := C20_lagrange_summary env.E _ _ _ _ hsol
    cases hL : q.lagrange with
    | none => exact absurd (L1.mp hL) (by have := i.isLt; omega)
    | some L =>
      exact ((L2 L hL).2.2.1 i).trans ((hdom k it b hit heq hb).1 q L hq hL)
  have hviol : ∑ k, |b.qp.b k| = violationAt env.p a.vars := sum_abs_b f3 f4
  have hl2 : ∀ (u : Fin env.p.K → ℝ) (c : ℝ), 0 ≤ c → (∀ k, |u k| ≤ c) → l2 u ≤ Real.sqrt env.p.K * c := by
    intro u c hc hu
    unfold l2
    have : ∑ i, u i ^ 2 ≤ (env.p.K : ℝ) * c ^ 2 := by
      calc ∑ i, u i ^ 2 ≤ ∑ _i : Fin env.p.K, c ^ 2 := Finset.sum_le_sum fun i _ => by
            rw [← sq_abs]; exact pow_le_pow_left₀ (abs_nonneg _) (hu i) 2
        _ = _ := by simp
    refine (Real.sqrt_le_sqrt this).trans ?_
    rw [Real.sqrt_mul (by positivity), Real.sqrt_sq hc]
  have hg : GoodStart (qpParams env.p prm) (IP.setupState s) := Or.inl (NLS.qpParams_guess env.p prm)
  obtain ⟨hss, hz⟩ := (C07_slacks_positive env.E _ _ _ hg).1 _ hsol
  refine ⟨fun m => ⟨hz m, hss m⟩, hdx, hl2 _ _ hpos.le hy, ?_, ?_, ?_, f2, f6, ?_, ?_, hpos⟩
  · rw [← hviol, Finset.mul_sum]
    refine (Finset.abs_sum_le_sum_abs _ _).trans (Finset.sum_le_sum fun k _ => ?_)
    rw [abs_mul]
    exact mul_le_mul_of_nonneg_right (hy k) (abs_nonneg _)
  · have hE := abs_sum_mul_le_l2 (fun k => sign (b.qp.b k)) (eqVal (b.qp.typed hcon) s'.v.x)
    rw [h2, (costDerivative_real b.qp b.dx).2, ← hviol, ← Finset.sum_add_distrib]
    have e : ∀ k, sign (b.qp.b k) * ∑ j, b.qp.A k j * b.dx j + |b.qp.b k|
        = sign (b.qp.b k) * eqVal (b.qp.typed hcon) s'.v.x k := by
      intro k
      have hx : eqVal (b.qp.typed hcon) s'.v.x k = (∑ j, b.qp.A k j * b.dx j) + b.qp.b k := by
        rw [hdx]; rfl
      have := sign_mul_neg (b.qp.b k)
      rw [hx]
      linarith
    rw [Finset.sum_congr rfl fun k _ => e k]
    refine hE.trans (mul_le_mul_of_nonneg_right ?_ (l2_nonneg _))
    have := hl2 (fun k => sign (b.qp.b k)) 1 zero_le_one (fun k => by
      rw [real_sign]; split_ifs <;> simp)
    simpa using this
  · rw [h2, (costDerivative_real b.qp b.dx).1, hdx]; rfl
  · intro d hd
    have e := f3 d
    rw [stackedModel_flat d hd, ← f4] at e
    intro k
    have := congrFun (List.ofFn_injective e) k
    show ∑ j, b.qp.A k j * d j = 0
    linarith
  · intro m
    show (b.qp.con m).b = _
    rw [f5 m]

/-- **C68**. Descent of an interior point step from a point that satisfies the inequality constraints: the merit
derivative used by the line search is at most minus the damped Gauss-Newton curvature along the step plus the amount by
which the QP solver missed the solution. -/
theorem C68_interior_descent (env : Env n D ℝ) (hp : WellPosed env.p n) (prm : NLSParams ℝ) (x0 : Fin n → ℝ) (o o' : env.Obj)
    (out : NLSOutputs ℝ) (calls : List (NLSIteration ℝ)) (h : solve env prm x0 o = .ok (o', out, calls))
    (k : Nat) (it : NLSIteration ℝ) (hit : out.iterations[k]? = some it) (a b : env.Obj)
    (ha : After env prm x0 o k a) (hb : After env prm x0 o (k + 1) b) (q : QPOutputs ℝ)
    (hq : it.qpOutputs = .interiorPoint q) (hfeas : ∀ c ∈ env.p.ineq, 0 ≤ boundAt c a.vars) :
    ∃ (hcon : ∀ i, 0 ≤ (b.qp.con i).var ∧ (b.qp.con i).var < (D : Int)) (s' : IPState D env.p.M env.p.K ℝ),
      b.solver = .ip s' ∧ b.dx = s'.v.x ∧
      it.directionalDerivatives.total it.penalty
        ≤ - curvature env.p a.vars it.lambda b.dx + qpGap (b.qp.typed hcon) s'.v it.penalty ∧
      (qpGap (b.qp.typed hcon) s'.v it.penalty ≤ curvature env.p a.vars it.lambda b.dx →
        it.stepResult ≠ .positiveDerivative) := by
  obtain ⟨s', hs⟩ := ip_solver env prm x0 o o' out calls h k it hit b hb q hq
  obtain ⟨hcon, s, hsol, hdx⟩ := ip_after env prm x0 o o' out calls h k it hit b hb q hq s' hs
  obtain ⟨g1, g2, g3, g4, g5, g6, g7, g8, g9, g10, g11⟩ :=
    ip_facts env hp prm x0 o o' out calls h k it hit a b ha hb q hq s' hs hcon
  have hd := qp_descent (b.qp.typed hcon) s'.v (fun m => (g1 m).1) (fun m => by
    rw [g10 m]; exact hfeas _ (List.get_mem _ _))
  rw [g8, ← hdx] at hd
  have hyb := (abs_le.mp g4).1
  have hdE := (abs_le.mp g5).2
  have hK : 0 ≤ l2 (eqVal (b.qp.typed hcon) s'.v.x) := l2_nonneg _
  have m1 : l2 (eqVal (b.qp.typed hcon) s'.v.x) * l2 s'.v.y
      ≤ l2 (eqVal (b.qp.typed hcon) s'.v.x) * (Real.sqrt env.p.K * it.penalty) :=
    mul_le_mul_of_nonneg_left g3 hK
  have m2 : it.penalty * (it.directionalDerivatives.dEquality + violationAt env.p a.vars)
      ≤ it.penalty * (Real.sqrt env.p.K * l2 (eqVal (b.qp.typed hcon) s'.v.x)) :=
    mul_le_mul_of_nonneg_left hdE g11.le
  have hb' : ∑ k, s'.v.y k * (b.qp.typed hcon).b k = ∑ k, s'.v.y k * b.qp.b k := rfl
  have htot : it.directionalDerivatives.total it.penalty
      ≤ - curvature env.p a.vars it.lambda b.dx + qpGap (b.qp.typed hcon) s'.v it.penalty := by
    unfold DirectionalDerivatives.total qpGap
    rw [g6, ← hdx]
    rw [← hdx] at m1 m2
    nlinarith
  refine ⟨hcon, s', hs, hdx, htot, fun hle hpd => ?_⟩
  obtain ⟨S, T, W, hv⟩ := solve_view h
  obtain ⟨_, rfl, hpass⟩ := view_info hv hit
  obtain ⟨htr, hout, _⟩ := lsLoop_start _ _ _ _ _ _ _ _ _ _ _ _ hpass.ls
  rw [hpass.ires] at hpd
  obtain ⟨_, _, _, _, hpd⟩ := hout.facts.positive hpd
  rw [hpass.ideriv, hpass.ipenalty] at htot
  rw [hpass.ipenalty] at hle
  linarith

/-- **C68** (solved QP). If the iteration's QP was solved to tolerance, what the solver missed is at most the two
tolerances times the sizes of the step and of the multipliers. -/
theorem C68_solved_gap (env : Env n D ℝ) (hp : WellPosed env.p n) (prm : NLSParams ℝ) (x0 : Fin n → ℝ) (o o' : env.Obj)
    (out : NLSOutputs ℝ) (calls : List (NLSIteration ℝ)) (h : solve env prm x0 o = .ok (o', out, calls))
    (k : Nat) (it : NLSIteration ℝ) (hit : out.iterations[k]? = some it) (a b : env.Obj)
    (ha : After env prm x0 o k a) (hb : After env prm x0 o (k + 1) b) (q : QPOutputs ℝ)
    (hq : it.qpOutputs = .interiorPoint q) (hT : q.termination = .satisfiedKktTol)
    (s' : IPState D env.p.M env.p.K ℝ) (hs : b.solver = .ip s')
    (hcon : ∀ i, 0 ≤ (b.qp.con i).var ∧ (b.qp.con i).var < (D : Int)) :
    qpGap (b.qp.typed hcon) s'.v it.penalty ≤ env.p.M * (1 / 10 ^ 6)
      + prm.terminationKktTol * (l2 b.dx + l2 s'.v.z + 2 * (Real.sqrt env.p.K * it.penalty)) := by
  obtain ⟨g1, g2, g3, g4, g5, g6, g7, g8, g9, g10, g11⟩ :=
    ip_facts env hp prm x0 o o' out calls h k it hit a b ha hb q hq s' hs hcon
  obtain ⟨hcon', s, hsol, hdx⟩ := ip_after env prm x0 o o' out calls h k it hit b hb q hq s' hs
  obtain ⟨h1, h2, h3, h4, _⟩ := C11_satisfied_truthful env.E _ _ _ _ hsol hT
  have e1 : (qpParams env.p prm).terminationKktTol = prm.terminationKktTol := rfl
  have e2 : (qpParams env.p prm).terminationComplementarityTol = 1 / 10 ^ 6 := by
    show (Scalar.lit _ : ℝ) = _
    simp
  rw [e1] at h1 h2 h3
  rw [e2] at h4
  have c : ∑ m, s'.v.s m * s'.v.z m ≤ env.p.M * (1 / 10 ^ 6) := by
    by_cases hM : 0 < env.p.M
    · have hM' : (0 : ℝ) < env.p.M := by exact_mod_cast hM
      unfold avgComp at h4
      rw [div_lt_iff₀ hM'] at h4
      linarith
    · have hM' : env.p.M = 0 := by omega
      have : IsEmpty (Fin env.p.M) := ⟨fun m => absurd (lt_of_lt_of_eq m.isLt hM') (Nat.not_lt_zero _)⟩
      rw [Finset.univ_eq_empty, Finset.sum_empty]
      positivity
  have m1 := mul_le_mul_of_nonneg_right h1.le (l2_nonneg s'.v.x)
  have m2 := mul_le_mul_of_nonneg_right h3.le (l2_nonneg s'.v.z)
  have m3 := mul_le_mul_of_nonneg_left h2.le (show 0 ≤ 2 * (Real.sqrt env.p.K * it.penalty) by positivity)
  have e3 : b.qp.typed hcon' = b.qp.typed hcon := rfl
  rw [e3] at m1 m2 m3
  unfold qpGap
  rw [hdx]
  simp only at m1 m2 m3
  nlinarith

/-- What the exit `SATISFIED_FIRST_ORDER_TOL` says about the log. -/
theorem first_order_last (env : Env n D ℝ) (prm : NLSParams ℝ) (x0 : Fin n → ℝ) (o o' : env.Obj)
    (out : NLSOutputs ℝ) (calls : List (NLSIteration ℝ)) (h : solve env prm x0 o = .ok (o', out, calls))
    (hT : out.termination = .satisfiedFirstOrderTol) :
    ∃ (k : Nat) (it : NLSIteration ℝ) (a b : env.Obj), k + 1 = out.iterations.length ∧ out.iterations[k]? = some it ∧
      After env prm x0 o k a ∧ After env prm x0 o (k + 1) b ∧ a.vars = o'.vars ∧
      |it.directionalDerivatives.dF| < prm.absoluteFirstDerivativeTol ∧
      |it.directionalDerivatives.dEquality| < prm.absoluteFirstDerivativeTol := by
  have hx := C46_termination env prm x0 o o' out calls h
  rw [hT] at hx
  obtain ⟨it, hl, hr, hd⟩ := hx
  have hne : out.iterations ≠ [] := by
    intro he; rw [he] at hl; cases hl
  have hlen : 0 < out.iterations.length := List.length_pos_iff.mpr hne
  obtain ⟨hex, _, hlast⟩ := C38_after env prm x0 o o' out calls h
  obtain ⟨a, ha, _⟩ := hex (out.iterations.length - 1) (by omega)
  obtain ⟨b, hb, _⟩ := hex (out.iterations.length - 1 + 1) (by omega)
  have hk : out.iterations.length - 1 + 1 = out.iterations.length := by omega
  have hit : out.iterations[out.iterations.length - 1]? = some it := by
    rw [← List.getLast?_eq_getElem?]; exact hl
  have hm := (C38_variables_move env prm x0 o o' out calls h _ it hit a b ha hb).2 (by rw [hr]; simp)
  have hb' : After env prm x0 o out.iterations.length b := hk ▸ hb
  refine ⟨_, it, a, b, hk, hit, ha, hb, ?_, ?_⟩
  · rw [← hlast b hb', hm]
  · unfold DirectionalDerivatives.lInfinity at hd
    have e : ∀ u v : ℝ, cmax u v = max u v := by
      intro u v; unfold cmax; split_ifs with hc <;> [rw [max_eq_right hc.le]; rw [max_eq_left (not_lt.mp hc)]]
    rw [e] at hd
    exact ⟨(le_max_left _ _).trans_lt hd, (le_max_right _ _).trans_lt hd⟩

/-- **C69** (with inequality constraints). `SATISFIED_FIRST_ORDER_TOL` from a returned point that satisfies the
inequality constraints: the cost can not decrease quickly along any displacement that keeps all inequality
constraints satisfied and the linearised equality constraints unchanged. -/
theorem C69_first_order_bounds (env : Env D D ℝ) (hp : WellPosed env.p D) (prm : NLSParams ℝ) (x0 : Fin D → ℝ) (o o' : env.Obj)
    (out : NLSOutputs ℝ) (calls : List (NLSIteration ℝ)) (h : solve env prm x0 o = .ok (o', out, calls))
    (hT : out.termination = .satisfiedFirstOrderTol) (hfeas : ∀ c ∈ env.p.ineq, 0 ≤ boundAt c o'.vars)
    (hip : ¬ (env.p.ineq = [] ∧ env.p.eqs ≠ [])) :
    ∃ (it : NLSIteration ℝ) (b : env.Obj) (hcon : ∀ i, 0 ≤ (b.qp.con i).var ∧ (b.qp.con i).var < (D : Int))
      (s' : IPState D env.p.M env.p.K ℝ),
      out.iterations.getLast? = some it ∧ After env prm x0 o out.iterations.length b ∧ b.solver = .ip s' ∧
      let gap := qpGap (b.qp.typed hcon) s'.v it.penalty
      let tol := prm.absoluteFirstDerivativeTol
      violationAt env.p o'.vars ≤ tol + Real.sqrt env.p.K * l2 (eqVal (b.qp.typed hcon) s'.v.x) ∧
      ∀ w : Fin D → ℝ, (∀ c ∈ env.p.ineq, 0 ≤ boundAt c (fun i => o'.vars i + w i)) →
        (∀ r ∈ env.p.eqs, ∀ k, slopeAt r o'.vars w k = 0) →
        - Real.sqrt (((1 + it.penalty) * tol + gap) * curvature env.p o'.vars it.lambda w)
          - (1 + it.penalty) * tol - gap - l2 (gradLagrangian (b.qp.typed hcon) s'.v) * l2 w
          ≤ costSlope env.p o'.vars w := by
  obtain ⟨k, it, a, b, hk, hit, ha, hb, hav, hdF, hdE⟩ := first_order_last env prm x0 o o' out calls h hT
  have hmem := List.mem_of_getElem? hit
  obtain ⟨q, hq⟩ := (C45_which_solver env prm x0 o o' out calls h it hmem).2 hip
  rw [← hav] at hfeas
  obtain ⟨hcon, s', hs, hdx, hdesc, -⟩ :=
    C68_interior_descent env hp prm x0 o o' out calls h k it hit a b ha hb q hq hfeas
  obtain ⟨g1, g2, g3, g4, g5, g6, g7, g8, g9, g10, g11⟩ :=
    ip_facts env hp prm x0 o o' out calls h k it hit a b ha hb q hq s' hs hcon
  have hb' : After env prm x0 o out.iterations.length b := hk ▸ hb
  have hlast : out.iterations.getLast? = some it := by
    rw [List.getLast?_eq_getElem?, ← hk]; exact hit
  have d1 := abs_lt.mp hdF
  have d2 := abs_lt.mp hdE
  have d5 := abs_le.mp g5
  refine ⟨it, b, hcon, s', hlast, hb', hs, ?_, ?_⟩
  · rw [← hav]; linarith [d2.1, d2.2, d5.1, d5.2]
  · intro w hw hA
    rw [← hav] at hw hA ⊢
    obtain ⟨h1, h2, -⟩ := C38_direction env prm x0 o o' out calls h k it hit a b ha hb
    obtain ⟨-, hcons⟩ := linearize_con h1
    have hG : ∀ u, 0 ≤ bil (b.qp.typed hcon) u u := fun u => by rw [g8]; exact curvature_nonneg _ _ _ _
    have hvar := qp_variational (b.qp.typed hcon) hG s'.v (fun m => (g1 m).1) w (fun m => by
        rw [typed_ineqVal hcon m (env.p.ineq.get m) (hcons m) w]
        exact hw _ (List.get_mem _ _)) (g9 w hA)
    rw [g7 w, g8, g8, ← g6] at hvar
    rw [← hdx] at hvar
    have hK : 0 ≤ l2 (eqVal (b.qp.typed hcon) b.dx) := l2_nonneg _
    have m1 := mul_le_mul_of_nonneg_left g3 hK
    have hviol : violationAt env.p a.vars
        ≤ prm.absoluteFirstDerivativeTol + Real.sqrt env.p.K * l2 (eqVal (b.qp.typed hcon) b.dx) := by
      rw [hdx]; linarith [d2.1, d2.2, d5.1, d5.2]
    have m2 := mul_le_mul_of_nonneg_left hviol g11.le
    have hyb : ∑ k, s'.v.y k * (b.qp.typed hcon).b k = ∑ k, s'.v.y k * b.qp.b k := rfl
    have d4 := abs_le.mp g4
    have hcurv : curvature env.p a.vars it.lambda b.dx
        ≤ (1 + it.penalty) * prm.absoluteFirstDerivativeTol + qpGap (b.qp.typed hcon) s'.v it.penalty := by
      unfold DirectionalDerivatives.total at hdesc
      have m3 := mul_le_mul_of_nonneg_left d2.1.le g11.le
      nlinarith [d1.1]
    have hsq : Real.sqrt (curvature env.p a.vars it.lambda b.dx * curvature env.p a.vars it.lambda w)
        ≤ Real.sqrt (((1 + it.penalty) * prm.absoluteFirstDerivativeTol + qpGap (b.qp.typed hcon) s'.v it.penalty)
            * curvature env.p a.vars it.lambda w) :=
      Real.sqrt_le_sqrt (mul_le_mul_of_nonneg_right hcurv (curvature_nonneg _ _ _ _))
    generalize Real.sqrt (((1 + it.penalty) * prm.absoluteFirstDerivativeTol + qpGap (b.qp.typed hcon) s'.v it.penalty)
            * curvature env.p a.vars it.lambda w) = X at hsq ⊢
    unfold qpGap
    rw [← hdx]
    nlinarith [d1.1, d4.1, d4.2]

/-- **C69** (no constraints). `SATISFIED_FIRST_ORDER_TOL` on an unconstrained problem: at the returned point the
derivative of the cost along every direction is small against the damped Gauss-Newton curvature in that direction. -/
theorem C69_first_order_free (env : Env n D ℝ) (hE : LDLTContract env.E) (hp : WellPosed env.p n)
    (hi : env.p.ineq = []) (he : env.p.eqs = []) (prm : NLSParams ℝ) (x0 : Fin n → ℝ) (o o' : env.Obj)
    (out : NLSOutputs ℝ) (calls : List (NLSIteration ℝ)) (h : solve env prm x0 o = .ok (o', out, calls))
    (hT : out.termination = .satisfiedFirstOrderTol)
    (hpd : (∀ it ∈ out.iterations, 0 < it.lambda) ∨
      ∀ dx : Fin D → ℝ, (∀ r ∈ env.p.costs, ∀ k, slopeAt r o'.vars dx k = 0) → dx = 0) :
    ∃ it, out.iterations.getLast? = some it ∧
      ∀ d : Fin D → ℝ, costSlope env.p o'.vars d ^ 2
        ≤ prm.absoluteFirstDerivativeTol * curvature env.p o'.vars it.lambda d := by
  obtain ⟨k, it, a, b, hk, hit, ha, hb, hav, hdF, hdE⟩ := first_order_last env prm x0 o o' out calls h hT
  have hmem := List.mem_of_getElem? hit
  have hlast : out.iterations.getLast? = some it := by
    rw [List.getLast?_eq_getElem?, ← hk]; exact hit
  refine ⟨it, hlast, fun d => ?_⟩
  rw [← hav] at hpd ⊢
  obtain ⟨hmin, htot, -, -, -⟩ := C67_levenberg_marquardt env hE hp hi he prm x0 o o' out calls h k it hit a b ha hb
    (hpd.imp (fun H => H it hmem) id)
  obtain ⟨q, hq⟩ := (C45_which_solver env prm x0 o o' out calls h it hmem).2 (fun hc => hc.2 he)
  obtain ⟨s', hs⟩ := ip_solver env prm x0 o o' out calls h k it hit b hb q hq
  obtain ⟨hcon, s, hsol, hdx⟩ := ip_after env prm x0 o o' out calls h k it hit b hb q hq s' hs
  obtain ⟨g1, g2, g3, g4, g5, g6, g7, g8, g9, g10, g11⟩ :=
    ip_facts env hp prm x0 o o' out calls h k it hit a b ha hb q hq s' hs hcon
  obtain ⟨h1, h2, -⟩ := C38_direction env prm x0 o o' out calls h k it hit a b ha hb
  obtain ⟨qp', pre', h', r1, r2, -⟩ := C34_gauss_newton env.p hp a.vars (linearize_quiet h1) it.lambda a.qp
  rw [h1] at h'
  cases h'
  have hobj : ∀ u, dampedModel env.p a.vars it.lambda u = it.errorsInitial.f + objective (b.qp.typed hcon) u := by
    intro u
    have e := r2 u
    have e' : objective (b.qp.typed hcon) u
        = 1 / 2 * (∑ i, ∑ j, u i * b.qp.G (max i j) (min i j) * u j) + ∑ i, b.qp.c i * u i := rfl
    rw [e']
    unfold dampedModel
    linarith
  have hst := qp_stationary (b.qp.typed hcon) b.dx d (fun t => by
    by_cases hne : (fun i => b.dx i + t * d i) = b.dx
    · rw [hne]
    · have := hmin _ hne
      rw [hobj, hobj] at this
      linarith)
  rw [g7] at hst
  have hcs := bil_sq_le (b.qp.typed hcon) (fun u => by rw [g8]; exact curvature_nonneg _ _ _ _) b.dx d
  rw [g8, g8] at hcs
  have hc : curvature env.p a.vars it.lambda b.dx ≤ prm.absoluteFirstDerivativeTol := by
    have e := htot 0
    have e' : it.directionalDerivatives.dF = - curvature env.p a.vars it.lambda b.dx := by
      rw [show it.directionalDerivatives.total 0 = it.directionalDerivatives.dF by
        unfold DirectionalDerivatives.total; ring] at e
      exact e
    have := (abs_lt.mp hdF).1
    linarith
  have e : costSlope env.p a.vars d ^ 2 = bil (b.qp.typed hcon) b.dx d ^ 2 := by
    rw [show costSlope env.p a.vars d = - bil (b.qp.typed hcon) b.dx d by linarith]; ring
  rw [e]
  exact hcs.trans (mul_le_mul_of_nonneg_right hc (curvature_nonneg _ _ _ _))

/-- **C69** (equality constraints only). `SATISFIED_FIRST_ORDER_TOL`: at the returned point the constraint violation is
below the tolerance, and along every direction tangent to the constraints the derivative of the cost is small against
the damped Gauss-Newton curvature. -/
theorem C69_first_order_equality (env : Env n D ℝ) (hE : NSContract env.NE) (hp : WellPosed env.p n)
    (hi : env.p.ineq = []) (he : env.p.eqs ≠ []) (prm : NLSParams ℝ) (x0 : Fin n → ℝ) (o o' : env.Obj)
    (out : NLSOutputs ℝ) (calls : List (NLSIteration ℝ)) (h : solve env prm x0 o = .ok (o', out, calls))
    (hT : out.termination = .satisfiedFirstOrderTol) :
    violationAt env.p o'.vars < prm.absoluteFirstDerivativeTol ∧
    ∃ it, out.iterations.getLast? = some it ∧
      ∀ d : Fin D → ℝ, (∀ r ∈ env.p.eqs, ∀ k, slopeAt r o'.vars d k = 0) →
        costSlope env.p o'.vars d ^ 2
          ≤ (2 * prm.absoluteFirstDerivativeTol + 2 * (it.penalty * ((1 - prm.equalityPenaltyRho)
              * max prm.absoluteFirstDerivativeTol (1 / 2 ^ 52)))) * curvature env.p o'.vars it.lambda d := by
  obtain ⟨k, it, a, b, hk, hit, ha, hb, hav, hdF, hdE⟩ := first_order_last env prm x0 o o' out calls h hT
  have hmem := List.mem_of_getElem? hit
  have hlast : out.iterations.getLast? = some it := by
    rw [List.getLast?_eq_getElem?, ← hk]; exact hit
  have hns := (C45_which_solver env prm x0 o o' out calls h it hmem).1 ⟨hi, he⟩
  obtain ⟨h1, h2, h3⟩ := C38_direction env prm x0 o o' out calls h k it hit a b ha hb
  obtain ⟨f1, f2, f3, f4, f5, f6⟩ := linearize_facts hp h1
  have hdEq := (C45_descent env hE hp hi he prm x0 o o' out calls h it hmem).1
  have hv : it.errorsInitial.equality = violationAt env.p a.vars := by rw [f1]; rfl
  have hviol : violationAt env.p a.vars < prm.absoluteFirstDerivativeTol := by
    rw [hdEq, hv, abs_neg] at hdE
    exact (le_abs_self _).trans_lt hdE
  rw [← hav]
  refine ⟨hviol, it, hlast, fun d hd => ?_⟩
  obtain ⟨hpen, -, hdom⟩ := C44_penalty env prm x0 o o' out calls h
  have hdom := (hdom k it b hit he hb).2 hns
  have hpos := (hpen it hmem).1
  have hrho : 0 ≤ prm.equalityPenaltyRho ∧ prm.equalityPenaltyRho < 1 := by
    obtain ⟨S, T, W, hv⟩ := solve_view h
    exact hv.prmOk.equalityPenaltyRho
  rw [sum_abs_b f3 f4] at hdom
  set p : QP D 0 env.p.K ℝ := ⟨b.qp.G, b.qp.c, b.qp.A, b.qp.b, Fin.elim0⟩ with hpdef
  have hbil : ∀ u, bil p u u = curvature env.p a.vars it.lambda u := fun u => f6 u
  rcases h3 with ⟨_, _, _, q, _, h4, _⟩ | ⟨s, s', h4, -, h5⟩
  · rw [hns] at h4; cases h4
  obtain ⟨hfeas, hmin⟩ := C26_null_space_minimiser env.NE hE _ s _ h4 rfl
  have hA : ∀ k, ∑ j, b.qp.A k j * d j = 0 := by
    have e := f3 d
    rw [stackedModel_flat d hd, ← f4] at e
    intro k
    have := congrFun (List.ofFn_injective e) k
    linarith
  have hst := qp_stationary p b.dx d (fun t => by
    by_cases hne : (fun i => b.dx i + t * d i) = b.dx
    · rw [hne]
    · rw [h5] at hne ⊢
      refine (hmin _ (fun k => ?_) hne).le
      have e := hfeas k
      unfold eqVal at e ⊢
      have e2 : ∑ j, p.A k j * (s'.x j + t * d j) = (∑ j, p.A k j * s'.x j) + t * ∑ j, p.A k j * d j := by
        rw [Finset.mul_sum, ← Finset.sum_add_distrib]; exact Finset.sum_congr rfl fun i _ => by ring
      rw [e2, show ∑ j, p.A k j * d j = 0 from hA k]
      linarith)
  have hslope : ∑ i, p.c i * d i = costSlope env.p a.vars d := f2 d
  rw [hslope] at hst
  have hcs := bil_sq_le p (fun u => by rw [hbil]; exact curvature_nonneg _ _ _ _) b.dx d
  rw [hbil, hbil] at hcs
  have hc0 := curvature_nonneg env.p a.vars it.lambda b.dx
  have hc : curvature env.p a.vars it.lambda b.dx
      ≤ 2 * prm.absoluteFirstDerivativeTol + 2 * (it.penalty * ((1 - prm.equalityPenaltyRho)
              * max prm.absoluteFirstDerivativeTol (1 / 2 ^ 52))) := by
    have e1 : (∑ i, ∑ j, b.dx i * b.qp.G (max i j) (min i j) * b.dx j) = curvature env.p a.vars it.lambda b.dx := f6 _
    rw [e1, max_eq_right hc0, ← (costDerivative_real b.qp b.dx).1, ← h2] at hdom
    have hm : max (violationAt env.p a.vars) (1 / 2 ^ 52) ≤ max prm.absoluteFirstDerivativeTol (1 / 2 ^ 52) :=
      max_le_max hviol.le le_rfl
    have := mul_le_mul_of_nonneg_left
      (mul_le_mul_of_nonneg_left hm (show 0 ≤ 1 - prm.equalityPenaltyRho by linarith [hrho.2])) hpos.le
    linarith [(abs_lt.mp hdF).1]
  have e : costSlope env.p a.vars d ^ 2 = bil p b.dx d ^ 2 := by
    rw [show costSlope env.p a.vars d = - bil p b.dx d by linarith]; ring
  rw [e]
  exact hcs.trans (mul_le_mul_of_nonneg_right hc (curvature_nonneg _ _ _ _))

end MiniOpt.Props
