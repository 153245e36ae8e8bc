import Verif.Lemmas.Derivative
import Verif.Props.NLSLog
import Verif.Props.NullSpace
import Mathlib.Analysis.Calculus.Deriv.Prod

/-!
# C35: the directional derivatives of the log (exact arithmetic)

Concrete runs meeting the hypotheses of the theorems below: `Props/NLSExamples.lean` (and the examples
beside each theorem).
-/

set_option autoImplicit false

namespace MiniOpt.Props

open MiniOpt.Spec MiniOpt.NLS Set

variable {n D : Nat}

theorem path_deriv {p : Problem D ℝ} (hp : WellPosed p n) {x : Fin n → ℝ} {lam : ℝ} {qp0 qp : QPData D p.M p.K ℝ}
    {pre : Errors ℝ} (h : linearize p x lam qp0 = .ok (qp, pre)) {dx : Fin D → ℝ} {γ : ℝ → Fin n → ℝ}
    (hγ : Follows p x dx γ) :
    HasDerivAt (fun t => costAt p (γ t)) (costDerivative qp dx).dF 0 ∧
    HasDerivWithinAt (fun t => violationAt p (γ t)) ((costDerivative qp dx).dEquality + kinkTerm p x dx) (Ici 0) 0 ∧
    (NoneZero p x → HasDerivAt (fun t => violationAt p (γ t)) (costDerivative qp dx).dEquality 0) := by
  obtain ⟨-, hc, hA, hb, -, -⟩ := linearize_facts hp h
  have hd := costDerivative_real qp dx
  have hv : ∀ r ∈ p.costs ++ p.eqs, ∀ k, HasDerivAt (fun t => valueAt r (γ t) k) (slopeAt r x dx k) 0 := hγ.deriv
  refine ⟨?_, ?_, ?_⟩
  · rw [hd.1, hc dx]
    simp only [costAt_real]
    rw [← hasDerivWithinAt_univ]
    refine hasDerivAt_list_sum p.costs (fun r t => 1 / 2 * ∑ k, valueAt r (γ t) k ^ 2) _ 0 univ fun r hr => ?_
    rw [hasDerivWithinAt_univ]
    have h1 := HasDerivAt.fun_sum (u := Finset.univ) fun k (_ : k ∈ Finset.univ) => (hv r (by simp [hr]) k).fun_pow 2
    refine (h1.const_mul (1 / 2)).congr_deriv ?_
    rw [Finset.mul_sum]
    refine Finset.sum_congr rfl fun k _ => ?_
    rw [hγ.start]
    push_cast
    ring
  · rw [dEquality_sum hA hb dx, kinkTerm, ← List.sum_map_add]
    simp only [violationAt_real]
    refine hasDerivAt_list_sum p.eqs (fun r t => ∑ k, |valueAt r (γ t) k|) _ 0 (Ici 0) fun r hr => ?_
    rw [← Finset.sum_add_distrib]
    refine HasDerivWithinAt.fun_sum fun k _ => ?_
    have h1 := hv r (by simp [hr]) k
    by_cases h0 : valueAt r x k = 0
    · have := abs_deriv_zero h1 (by simpa only [hγ.start] using h0)
      refine this.congr_deriv ?_
      rw [if_pos h0, h0, real_sign]
      simp
    · have := abs_deriv_ne h1 (by simpa only [hγ.start] using h0)
      refine this.hasDerivWithinAt.congr_deriv ?_
      rw [if_neg h0, hγ.start]
      simp
  · intro hz
    rw [dEquality_sum hA hb dx]
    simp only [violationAt_real]
    rw [← hasDerivWithinAt_univ]
    refine hasDerivAt_list_sum p.eqs (fun r t => ∑ k, |valueAt r (γ t) k|) _ 0 univ fun r hr => ?_
    rw [hasDerivWithinAt_univ]
    refine HasDerivAt.fun_sum fun k _ => ?_
    have := abs_deriv_ne (hv r (by simp [hr]) k) (by simpa only [hγ.start] using hz r hr k)
    simpa only [hγ.start] using this

/-- **C35**. Along any path the step direction describes, the logged `d_f` is the derivative of the cost at the
variables reached after `k` iterations; the logged `d_equality` is the derivative of the `l1` violation if no equality
residual is zero there, and otherwise lacks `Σ |A_i dx|` over the residuals that are; so the logged total is the
derivative of the merit function, up to the penalised missing term. -/
theorem C35_merit_derivative (env : Env n D ℝ) (hp : WellPosed env.p n) (prm : NLSParams ℝ) (x0 : Fin n → ℝ)
    (o o' : env.Obj) (out : NLSOutputs ℝ) (calls : List (NLSIteration ℝ))
    (h : solve env prm x0 o = .ok (o', out, calls)) (k : Nat) (it : NLSIteration ℝ)
    (hit : out.iterations[k]? = some it) (a b : env.Obj) (ha : After env prm x0 o k a)
    (hb : After env prm x0 o (k + 1) b) (γ : ℝ → Fin n → ℝ) (hγ : Follows env.p a.vars b.dx γ) (pen : ℝ) :
    HasDerivAt (fun t => costAt env.p (γ t)) it.directionalDerivatives.dF 0 ∧
    HasDerivWithinAt (fun t => merit env.p pen (γ t))
      (it.directionalDerivatives.total pen + pen * kinkTerm env.p a.vars b.dx) (Ici 0) 0 ∧
    (NoneZero env.p a.vars →
      HasDerivAt (fun t => violationAt env.p (γ t)) it.directionalDerivatives.dEquality 0 ∧
      HasDerivAt (fun t => merit env.p pen (γ t)) (it.directionalDerivatives.total pen) 0) := by
  obtain ⟨h1, h2, -⟩ := C38_direction env prm x0 o o' out calls h k it hit a b ha hb
  obtain ⟨d1, d2, d3⟩ := path_deriv hp h1 hγ
  rw [h2]
  refine ⟨d1, ?_, fun hz => ⟨d3 hz, d1.add ((d3 hz).const_mul pen)⟩⟩
  refine (d1.hasDerivWithinAt.add (d2.const_mul pen)).congr_deriv ?_
  unfold DirectionalDerivatives.total
  ring

/-- **C35** (the missing term). If the direction solves the linearised equality constraints exactly, nothing is
missing. -/
theorem C35_exact_step (p : Problem D ℝ) (x : Fin n → ℝ) (dx : Fin D → ℝ)
    (hlin : ∀ r ∈ p.eqs, ∀ k, linAt r x dx k = 0) : kinkTerm p x dx = 0 := by
  unfold kinkTerm
  refine List.sum_eq_zero fun a ha => ?_
  obtain ⟨r, hr, rfl⟩ := List.mem_map.mp ha
  refine Finset.sum_eq_zero fun k _ => ?_
  split_ifs with h0
  · have := hlin r hr k
    unfold linAt at this
    rw [h0, zero_add] at this
    unfold slopeAt
    rw [this, abs_zero]
  · rfl

/-- All components of the stacked linear model vanish when the rows do. -/
theorem lin_zero_of_rows {p : Problem D ℝ} (hp : WellPosed p n) {x : Fin n → ℝ} {lam : ℝ}
    {qp0 qp : QPData D p.M p.K ℝ} {pre : Errors ℝ} (h : linearize p x lam qp0 = .ok (qp, pre)) {dx : Fin D → ℝ}
    (hrow : ∀ k, (∑ j, qp.A k j * dx j) + qp.b k = 0) : ∀ r ∈ p.eqs, ∀ k, linAt r x dx k = 0 := by
  obtain ⟨-, -, hA, -, -, -⟩ := linearize_facts hp h
  have h0 : ∀ v ∈ stackedModel x dx p.eqs, v = 0 := by
    intro v hv
    rw [← hA dx] at hv
    obtain ⟨k, rfl⟩ := (List.mem_ofFn' _ _).mp hv
    exact hrow k
  have key : ∀ l : List (Residual ℝ), (∀ v ∈ stackedModel x dx l, v = 0) → ∀ r ∈ l, ∀ k, linAt r x dx k = 0 := by
    intro l
    induction l with
    | nil => intro _ r hr; cases hr
    | cons a l ih =>
      intro hv r hr k
      unfold stackedModel at hv
      rcases List.mem_cons.mp hr with rfl | hr
      · exact hv _ (List.mem_append_left _ ((List.mem_ofFn' _ _).mpr ⟨k, rfl⟩))
      · exact ih (fun v hv' => hv v (List.mem_append_right _ hv')) r hr k
  exact key p.eqs h0

/-- The direction of a null-space iteration solves the linearised constraints. -/
theorem ns_rows {env : Env n D ℝ} (hE : NSContract env.NE) {prm : NLSParams ℝ} {x0 : Fin n → ℝ}
    {o o' : env.Obj} {out : NLSOutputs ℝ} {calls : List (NLSIteration ℝ)}
    (h : solve env prm x0 o = .ok (o', out, calls)) {k : Nat} {it : NLSIteration ℝ}
    (hit : out.iterations[k]? = some it) {a b : env.Obj} (ha : After env prm x0 o k a)
    (hb : After env prm x0 o (k + 1) b) (hns : it.qpOutputs = .nullSpace .success) :
    ∀ k, (∑ j, b.qp.A k j * b.dx j) + b.qp.b k = 0 := by
  obtain ⟨-, -, h3⟩ := C38_direction env prm x0 o o' out calls h k it hit a b ha hb
  rcases h3 with ⟨_, _, _, q, _, h4, _⟩ | ⟨s, s', h4, -, h5⟩
  · rw [hns] at h4; cases h4
  · have := (C26_null_space_minimiser env.NE hE _ s _ h4 rfl).1
    intro k
    rw [h5]
    exact this k

/-- **C35** (null-space path). On the null-space path the logged total is the one-sided derivative of the merit
function, whatever the residuals' values. -/
theorem C35_null_space (env : Env n D ℝ) (hE : NSContract env.NE) (hp : WellPosed env.p n) (prm : NLSParams ℝ)
    (x0 : Fin n → ℝ) (o o' : env.Obj) (out : NLSOutputs ℝ) (calls : List (NLSIteration ℝ))
    (h : solve env prm x0 o = .ok (o', out, calls)) (k : Nat) (it : NLSIteration ℝ)
    (hit : out.iterations[k]? = some it) (hns : it.qpOutputs = .nullSpace .success) (a b : env.Obj)
    (ha : After env prm x0 o k a) (hb : After env prm x0 o (k + 1) b) (γ : ℝ → Fin n → ℝ)
    (hγ : Follows env.p a.vars b.dx γ) (pen : ℝ) :
    HasDerivWithinAt (fun t => merit env.p pen (γ t)) (it.directionalDerivatives.total pen) (Ici 0) 0 := by
  obtain ⟨-, h2, -⟩ := C35_merit_derivative env hp prm x0 o o' out calls h k it hit a b ha hb γ hγ pen
  obtain ⟨h1, -, -⟩ := C38_direction env prm x0 o o' out calls h k it hit a b ha hb
  rw [C35_exact_step env.p a.vars b.dx (lin_zero_of_rows hp h1 (ns_rows hE h hit ha hb hns))] at h2
  simpa using h2

/-- **C35** (default retraction). If `n = D`, no custom retraction is set and the callables' Jacobians are the
derivatives of their values at `x`, then the path `x + t dx` - the one the line search follows - meets the
hypothesis of `C35_merit_derivative`. -/
theorem C35_default_retraction (env : Env D D ℝ) (hr : env.retraction = none) (hp : WellPosed env.p D) (x dx : Fin D → ℝ)
    (hJ : ∀ r ∈ env.p.costs ++ env.p.eqs, TrueJacobian r (params r x)) :
    Follows env.p x dx (fun t i => x i + dx i * t) ∧ ∀ t, Moves env x dx t (fun i => x i + dx i * t) := by
  constructor
  · refine ⟨by simp, ?_⟩
    intro r hmem k
    have hidx := hp.idx r hmem
    have hpar : ∀ (y : Fin D → ℝ), params r y = fun l => y ⟨(r.index l).toNat, by have := hidx l; omega⟩ := by
      intro y
      funext l
      unfold params
      rw [dif_pos (hidx l)]
    have hin : HasDerivAt (fun t : ℝ => params r (fun i => x i + dx i * t)) (params r dx) 0 := by
      rw [hasDerivAt_pi]
      intro l
      simp only [hpar]
      simpa using ((hasDerivAt_id (0 : ℝ)).const_mul (dx ⟨(r.index l).toNat, by have := hidx l; omega⟩)).const_add
        (x ⟨(r.index l).toNat, by have := hidx l; omega⟩)
    have h0 : params r (fun i => x i + dx i * 0) = params r x := by simp
    have hout : HasFDerivAt (fun q' => r.value q' k)
        (∑ l, r.jac (params r x) k l • ContinuousLinearMap.proj (R := ℝ) (φ := fun _ => ℝ) l)
        ((fun t : ℝ => params r (fun i => x i + dx i * t)) 0) := by
      simpa only [h0] using hJ r hmem k
    have hcomp := hout.comp_hasDerivAt (0 : ℝ) hin
    refine HasDerivAt.congr_deriv hcomp ?_
    simp only [FunLike.coe_sum, Finset.sum_apply, ContinuousLinearMap.coe_smul', Pi.smul_apply,
      ContinuousLinearMap.proj_apply, smul_eq_mul]
    unfold slopeAt jacAt fullJac
    simp only [Finset.sum_mul]
    rw [Finset.sum_comm]
    refine Finset.sum_congr rfl fun l _ => ?_
    rw [Finset.sum_eq_single (⟨(r.index l).toNat, by have := hidx l; omega⟩ : Fin D)]
    · rw [if_pos (by have := hidx l; simp; omega), hpar dx]
    · intro j _ hj
      rw [if_neg, zero_mul]
      intro h
      exact hj (Fin.ext (by simp [h]))
    · intro h; exact absurd (Finset.mem_univ _) h
  · intro t
    unfold Moves
    rw [hr]
    exact ⟨rfl, rfl⟩

end MiniOpt.Props
