import Verif.Spec.UnitsSpec
import Verif.Props.Coordinates

/-!
# A solve does not depend on the units (exact arithmetic)
-/

set_option autoImplicit false

namespace MiniOpt.Props

open MiniOpt.Spec MiniOpt.NLS

variable {n m D : Nat} {T : (Fin m → ℝ) → Fin n → ℝ} {A : (Fin m → ℝ) → (Fin D → ℝ) ≃ₗ[ℝ] (Fin D → ℝ)} {c κ s : ℝ}

theorem units_nil {env : Env n D ℝ} {env' : Env m D ℝ} (h : UnitsProblem c κ env env' T A) :
    env'.p.eqs = [] ↔ env.p.eqs = [] := by
  have := h.eqs.length_eq
  rw [← List.length_eq_zero_iff, ← List.length_eq_zero_iff, this]

theorem list_sum_mul {β : Type} (l : List β) (f : β → ℝ) (γ : ℝ) : (l.map fun r => γ * f r).sum = γ * (l.map f).sum := by
  induction l with
  | nil => simp
  | cons a l ih => simp only [List.map_cons, List.sum_cons, ih]; ring

theorem units_errors {env : Env n D ℝ} {env' : Env m D ℝ} (h : UnitsProblem c κ env env' T A) (y : Fin m → ℝ) :
    errorsAt env'.p y = Errors.inUnits (c ^ 2) (errorsAt env.p (T y)) := by
  unfold errorsAt Errors.inUnits
  congr 1
  · rw [costAt_real, costAt_real, ← list_sum_mul]
    refine (forall2_sum h.costs _ _ fun r r' hr => ?_).symm
    refine Eq.symm ((congrArg (fun u => 1 / 2 * u) (ofFn_sum _ _ (hr.value y) fun u => u ^ 2)).trans ?_)
    simp only [mul_pow, ← Finset.mul_sum]
    ring
  · rw [violationAt_real, violationAt_real]
    exact (forall2_sum h.eqs _ _ fun r r' hr => (ofFn_sum _ _ (hr.value y) fun u => |u|).symm).symm

theorem units_regular {env : Env n D ℝ} {env' : Env m D ℝ} (h : UnitsProblem c κ env env' T A) (hc0 : c ≠ 0) (y : Fin m → ℝ)
    (hr : RegularAt env.p (T y)) : RegularAt env'.p y := by
  intro e he
  have : A y e = 0 := by
    refine hr _ ?_
    have hc := h.costs
    revert he
    generalize env.p.costs = l at hc ⊢
    generalize env'.p.costs = l' at hc ⊢
    induction hc with
    | nil => intro _ r hr; cases hr
    | @cons r r' l l' h1 _ ih =>
      intro he s hs
      rcases List.mem_cons.mp hs with rfl | hs
      · intro k
        have := (ofFn_all _ _ (h1.slope y e) fun u => u = 0).mp (he r' (by simp)) k
        exact (mul_eq_zero.mp this).resolve_left hc0
      · exact ih (fun q hq => he q (by simp [hq])) s hs
  exact (A y).map_eq_zero_iff.mp this

/-- Two quadratic problems related by `d = B e`, the second with its objective multiplied by `γ`. -/
structure UTwin {M K M' K' : Nat} (γ : ℝ) (B : (Fin D → ℝ) ≃ₗ[ℝ] (Fin D → ℝ)) (q : QPData D M K ℝ) (q' : QPData D M' K' ℝ) : Prop where
  c : ∀ e : Fin D → ℝ, ∑ i, q'.c i * e i = γ * ∑ i, q.c i * B e i
  quad : ∀ e : Fin D → ℝ, (∑ i, ∑ j, e i * q'.G (max i j) (min i j) * e j)
    = γ * ∑ i, ∑ j, B e i * q.G (max i j) (min i j) * B e j
  rows : ∀ e : Fin D → ℝ, (List.ofFn fun k => (∑ j, q'.A k j * e j) + q'.b k)
    = List.ofFn fun k => (∑ j, q.A k j * B e j) + q.b k
  b : List.ofFn q'.b = List.ofFn q.b

theorem utwin_of_linearize {env : Env n D ℝ} {env' : Env m D ℝ} (h : UnitsProblem c κ env env' T A)
    (hκ : 0 < κ) (hp : WellPosed env.p n) (hp' : WellPosed env'.p m) (y : Fin m → ℝ) (lam : ℝ) (hs : κ = c ^ 2 * s)
    (hlam : lam ≤ 0 ∨ Similar s A)
    {q0 q : QPData D env.p.M env.p.K ℝ} {q0' q' : QPData D env'.p.M env'.p.K ℝ} {pre pre' : Errors ℝ}
    (hl : linearize env.p (T y) lam q0 = .ok (q, pre)) (hl' : linearize env'.p y (κ * lam) q0' = .ok (q', pre')) :
    pre' = Errors.inUnits (c ^ 2) pre ∧ UTwin (c ^ 2) (A y) q q' := by
  obtain ⟨f1, f2, f3, f4, -, f6⟩ := linearize_facts hp hl
  obtain ⟨g1, g2, g3, g4, -, g6⟩ := linearize_facts hp' hl'
  have hsq : ∀ e : Fin D → ℝ, (env'.p.costs.map fun r => ∑ k, slopeAt r y e k ^ 2).sum
      = c ^ 2 * (env.p.costs.map fun r => ∑ k, slopeAt r (T y) (A y e) k ^ 2).sum := fun e => by
    rw [← list_sum_mul]
    refine (forall2_sum h.costs _ _ fun r r' hr => ?_).symm
    refine Eq.symm ((ofFn_sum _ _ (hr.slope y e) fun u => u ^ 2).trans ?_)
    simp only [mul_pow, ← Finset.mul_sum]
  refine ⟨by rw [g1, f1, units_errors h], fun e => ?_, fun e => ?_, fun e => by rw [g3, f3, same_models h.eqs],
    by rw [g4, f4, same_values h.eqs]⟩
  · rw [g2, f2, ← list_sum_mul]
    refine (forall2_sum h.costs _ _ fun r r' hr => ?_).symm
    refine Eq.symm ((ofFn_sums _ _ _ _ (hr.value y) (hr.slope y e) fun u v => u * v).trans ?_)
    rw [Finset.mul_sum]
    exact Finset.sum_congr rfl fun k _ => by ring
  · rw [g6, f6, hsq]
    rcases hlam with hl | hi
    · rw [max_eq_right hl, max_eq_right (mul_nonpos_of_nonneg_of_nonpos hκ.le hl)]; ring
    · have : max (κ * lam) 0 = κ * max lam 0 := by rw [mul_max_of_nonneg _ _ hκ.le, mul_zero]
      rw [hi y e, this, hs]
      ring

theorem units_positive {env : Env n D ℝ} {env' : Env m D ℝ} (h : UnitsProblem c κ env env' T A) (hc0 : c ≠ 0)
    (hκ : 0 < κ) (hp : WellPosed env.p n) (hp' : WellPosed env'.p m) (y : Fin m → ℝ) (lam : ℝ)
    {q0 q : QPData D env.p.M env.p.K ℝ} {q0' q' : QPData D env'.p.M env'.p.K ℝ} {pre pre' : Errors ℝ}
    (hl : linearize env.p (T y) lam q0 = .ok (q, pre)) (hl' : linearize env'.p y (κ * lam) q0' = .ok (q', pre')) :
    (∀ e : Fin D → ℝ, (List.ofFn fun k => (∑ j, q'.A k j * e j) + q'.b k)
        = List.ofFn fun k => (∑ j, q.A k j * A y e j) + q.b k) ∧ List.ofFn q'.b = List.ofFn q.b ∧
      (∀ e : Fin D → ℝ, 0 < (∑ i, ∑ j, e i * q'.G (max i j) (min i j) * e j)
        ↔ 0 < ∑ i, ∑ j, A y e i * q.G (max i j) (min i j) * A y e j) := by
  obtain ⟨f1, f2, f3, f4, -, f6⟩ := linearize_facts hp hl
  obtain ⟨g1, g2, g3, g4, -, g6⟩ := linearize_facts hp' hl'
  have hγ : 0 < c ^ 2 := by positivity
  have hsq : ∀ e : Fin D → ℝ, (env'.p.costs.map fun r => ∑ k, slopeAt r y e k ^ 2).sum
      = c ^ 2 * (env.p.costs.map fun r => ∑ k, slopeAt r (T y) (A y e) k ^ 2).sum := fun e => by
    rw [← list_sum_mul]
    refine (forall2_sum h.costs _ _ fun r r' hr => ?_).symm
    refine Eq.symm ((ofFn_sum _ _ (hr.slope y e) fun u => u ^ 2).trans ?_)
    simp only [mul_pow, ← Finset.mul_sum]
  have hsq0 : ∀ e : Fin D → ℝ, 0 ≤ (env.p.costs.map fun r => ∑ k, slopeAt r (T y) (A y e) k ^ 2).sum := by
    intro e
    refine List.sum_nonneg fun v hv => ?_
    obtain ⟨r, _, rfl⟩ := List.mem_map.mp hv
    exact Finset.sum_nonneg fun k _ => sq_nonneg _
  refine ⟨fun e => by rw [g3, f3, same_models h.eqs], by rw [g4, f4, same_values h.eqs], fun e => ?_⟩
  rw [g6, f6, hsq]
  rcases le_or_gt lam 0 with hl | hl
  · rw [max_eq_right hl, max_eq_right (mul_nonpos_of_nonneg_of_nonpos hκ.le hl)]
    simp [mul_pos_iff_of_pos_left hγ]
  · have hl2 := mul_pos hκ hl
    rw [max_eq_left hl.le, max_eq_left hl2.le]
    have key : ∀ d : Fin D → ℝ, 0 < ∑ i, d i ^ 2 ↔ d ≠ 0 := by
      intro d
      constructor
      · rintro h0 rfl
        simp at h0
      · intro hd
        obtain ⟨i, hi⟩ := Function.ne_iff.mp hd
        exact Finset.sum_pos' (fun _ _ => sq_nonneg _) ⟨i, Finset.mem_univ _, by
          have : d i ≠ 0 := hi
          positivity⟩
    by_cases he : e = 0
    · subst he
      simp [mul_pos_iff_of_pos_left hγ]
    · have h1 := (key e).mpr he
      have h2 := (key (A y e)).mpr (fun h0 => he ((A y).map_eq_zero_iff.mp h0))
      have h3 := hsq0 e
      have h4 := mul_nonneg hγ.le h3
      constructor
      · intro _; have := mul_pos hl h2; linarith
      · intro _; have := mul_pos hl2 h1; linarith

section utwin

variable {M K M' K' : Nat} {B : (Fin D → ℝ) ≃ₗ[ℝ] (Fin D → ℝ)} {q : QPData D M K ℝ} {q' : QPData D M' K' ℝ} {γ : ℝ}

theorem utwin_derivative (h : UTwin γ B q q') (e : Fin D → ℝ) :
    costDerivative q' e = DirectionalDerivatives.inUnits γ (costDerivative q (B e)) := by
  obtain ⟨h1, h2⟩ := costDerivative_real q' e
  obtain ⟨g1, g2⟩ := costDerivative_real q (B e)
  have e1 : (costDerivative q' e).dF = γ * (costDerivative q (B e)).dF := by rw [h1, g1, h.c]
  have e2 : (costDerivative q' e).dEquality = (costDerivative q (B e)).dEquality := by
    rw [h2, g2]
    have := ofFn_sums _ _ _ _ h.b (h.rows e) fun u v => sign u * (v - u)
    simpa using this
  unfold DirectionalDerivatives.inUnits
  generalize costDerivative q' e = u at e1 e2
  generalize costDerivative q (B e) = v at e1 e2
  obtain ⟨u1, u2⟩ := u
  obtain ⟨v1, v2⟩ := v
  dsimp only at e1 e2 ⊢
  rw [e1, e2]

theorem utwin_penalty (h : UTwin γ B q q') (hγ : 0 < γ) (e : Fin D → ℝ) (rho : ℝ) :
    selectPenalty q' e none rho = γ * selectPenalty q (B e) none rho := by
  rw [real_penalty, real_penalty, h.c, h.quad, ofFn_sum _ _ h.b fun u => |u|]
  have : ∀ v : ℝ, max 0 (γ * v) = γ * max 0 v := fun v => by rw [mul_max_of_nonneg _ _ hγ.le, mul_zero]
  rw [this, ← mul_div_assoc]
  congr 1
  ring

theorem utwin_feasible (h : UTwin γ B q q') (e : Fin D → ℝ) : (∀ k, (∑ j, q'.A k j * e j) + q'.b k = 0) ↔
    ∀ k, (∑ j, q.A k j * B e j) + q.b k = 0 := ofFn_all _ _ (h.rows e) fun u => u = 0

theorem utwin_min (h : UTwin γ B q q') (hγ : 0 < γ) {d e : Fin D → ℝ} (hd : OnlyMin q d) (he : OnlyMin q' e) : d = B e := by
  by_contra hne
  have hval : ∀ u, qval q' u = γ * qval q (B u) := fun u => by unfold qval; rw [h.c, h.quad]; ring
  have h1 := hd.2 (B e) ((utwin_feasible h e).mp he.1) (fun e => hne e.symm)
  have h2 := he.2 (B.symm d) ((utwin_feasible h _).mpr (by rw [LinearEquiv.apply_symm_apply]; exact hd.1)) (by
    rintro rfl
    rw [LinearEquiv.apply_symm_apply] at hne
    exact hne rfl)
  rw [hval, hval, LinearEquiv.apply_symm_apply] at h2
  have h3 := lt_of_mul_lt_mul_left h2 hγ.le
  exact absurd h1 (not_lt.mpr h3.le)

end utwin

/-- The direction's QP is reported indefinite in both units or in none. -/
theorem units_indefinite {env : Env n D ℝ} {env' : Env m D ℝ} {B : (Fin D → ℝ) ≃ₗ[ℝ] (Fin D → ℝ)}
    (hN : NSContract env.NE) (hN' : NSContract env'.NE)
    {prm prm' : NLSParams ℝ} {ob o1 : env.Obj} {ob' o1' : env'.Obj} {res res' : QPResult ℝ}
    (hrows : ∀ e : Fin D → ℝ, (List.ofFn fun k => (∑ j, ob'.qp.A k j * e j) + ob'.qp.b k)
        = List.ofFn fun k => (∑ j, ob.qp.A k j * B e j) + ob.qp.b k) (hb : List.ofFn ob'.qp.b = List.ofFn ob.qp.b)
    (hpos : ∀ e : Fin D → ℝ, 0 < (∑ i, ∑ j, e i * ob'.qp.G (max i j) (min i j) * e j)
        ↔ 0 < ∑ i, ∑ j, B e i * ob.qp.G (max i j) (min i j) * B e j)
    (hd : stepDirection env prm ob = .ok (o1, res)) (hd' : stepDirection env' prm' ob' = .ok (o1', res'))
    (hk : (∃ s, ob.solver = .ns s) ↔ (∃ s, ob'.solver = .ns s)) :
    wasIndefinite res = wasIndefinite res' := by
  rcases stepDirection_cases hd with ⟨_, s, _, q, h1, -, -, h2, -⟩ | ⟨s, s1, t, h1, -, hs, h2, -⟩ <;>
    rcases stepDirection_cases hd' with ⟨_, s', _, q', h1', -, -, h2', -⟩ | ⟨s', s1', t', h1', -, hs', h2', -⟩
  · rw [h2, h2']; rfl
  · obtain ⟨s2, h3⟩ := hk.mpr ⟨s', h1'⟩
    rw [h1] at h3; cases h3
  · obtain ⟨s2, h3⟩ := hk.mp ⟨s, h1⟩
    rw [h1'] at h3; cases h3
  · have i1 := (C28_not_posdef_truthful env.NE hN _ s _ hs).1
    have i2 := (C28_not_posdef_truthful env'.NE hN' _ s' _ hs').1
    have hiff : PosDefOnNull (⟨ob'.qp.G, ob'.qp.c, ob'.qp.A, ob'.qp.b, Fin.elim0⟩ : QP D 0 env'.p.K ℝ) ↔
        PosDefOnNull (⟨ob.qp.G, ob.qp.c, ob.qp.A, ob.qp.b, Fin.elim0⟩ : QP D 0 env.p.K ℝ) := by
      have hnull : ∀ e : Fin D → ℝ, (∀ k, ∑ j, ob'.qp.A k j * e j = 0) ↔ ∀ k, ∑ j, ob.qp.A k j * B e j = 0 := by
        intro e
        have := ofFn_all2 _ _ _ _ (hrows e) hb fun u v => u = v
        simpa using this
      constructor
      · intro hq d hd0 hnd
        have e1 := hpos (B.symm d)
        have e2 := hnull (B.symm d)
        rw [LinearEquiv.apply_symm_apply] at e1 e2
        exact e1.mp (hq (B.symm d) (fun h0 => hd0 (B.symm.map_eq_zero_iff.mp h0)) (e2.mpr hnd))
      · intro hq e he0 hne
        exact (hpos e).mpr (hq (B e) (fun h0 => he0 (B.map_eq_zero_iff.mp h0)) ((hnull e).mp hne))
    have : t = .notPositiveDefinite ↔ t' = .notPositiveDefinite := by
      dsimp only at i1 i2
      rw [i1, i2, hiff]
    rw [h2, h2']
    cases t <;> cases t' <;> simp_all [wasIndefinite]

/-! ## The line search -/

theorem units_total (γ pen : ℝ) (e : Errors ℝ) : (Errors.inUnits γ e).total (γ * pen) = γ * e.total pen := by
  simp only [Errors.inUnits, Errors.total]; ring

theorem units_dtotal (γ pen : ℝ) (d : DirectionalDerivatives ℝ) :
    (DirectionalDerivatives.inUnits γ d).total (γ * pen) = γ * d.total pen := by
  simp only [DirectionalDerivatives.inUnits, DirectionalDerivatives.total]; ring

theorem units_quadratic {γ : ℝ} (hγ : 0 < γ) (u v a w : ℝ) :
    quadraticApproxMinimum (γ * u) (γ * v) a (γ * w) = quadraticApproxMinimum u v a w := by
  unfold quadraticApproxMinimum
  have e1 : γ * w - γ * v * a - γ * u = γ * (w - v * a - u) := by ring
  have hiff : (0 < γ * v ∨ γ * (w - v * a - u) ≤ 0) ↔ (0 < v ∨ w - v * a - u ≤ 0) := by
    rw [mul_pos_iff_of_pos_left hγ, ← not_lt, ← not_lt, mul_pos_iff_of_pos_left hγ]
  dsimp only
  rw [e1]
  by_cases hc : 0 < v ∨ w - v * a - u ≤ 0
  · rw [if_pos hc, if_pos (hiff.mpr hc)]
  · rw [if_neg hc, if_neg (fun h => hc (hiff.mp h))]
    congr 1
    have e2 : -(γ * v) * a * a = γ * (-v * a * a) := by ring
    have e3 : Scalar.lit 2 * (γ * (w - v * a - u)) = γ * (Scalar.lit 2 * (w - v * a - u)) := by ring
    rw [e2, e3, mul_div_mul_left _ _ hγ.ne']

theorem units_coeffs {γ : ℝ} (u v a0 w0 a1 w1 : ℝ) :
    cubicApproxCoeffs (γ * u) (γ * v) a0 (γ * w0) a1 (γ * w1)
      = (cubicApproxCoeffs u v a0 w0 a1 w1).map fun ab => (γ * ab.1, γ * ab.2) := by
  unfold cubicApproxCoeffs
  by_cases h1 : 0 < a1
  · rw [if_neg (not_not.mpr h1), if_neg (not_not.mpr h1)]
    by_cases h2 : a1 < a0
    · rw [if_neg (not_not.mpr h2), if_neg (not_not.mpr h2)]
      show Except.ok _ = Except.ok _
      congr 1
      refine Prod.ext ?_ ?_ <;> dsimp only <;> ring
    · rw [if_pos h2, if_pos h2]; rfl
  · rw [if_pos h1, if_pos h1]; rfl

/-- A cubic through a rejected trial step has a stationary point. -/
theorem rejected_discriminant {v a b t : ℝ} (hv : v ≤ 0) (ht : 0 < t)
    (hrej : v * t * (1 / 10 ^ 4) < v * t + b * t ^ 2 + a * t ^ 3) : 0 ≤ b ^ 2 - 3 * a * v := by
  rcases le_or_gt 0 a with ha | ha
  · have := mul_nonpos_of_nonneg_of_nonpos ha hv
    nlinarith [sq_nonneg b]
  · have h1 : 0 < a * t ^ 2 + b * t + v * (1 - 1 / 10 ^ 4) := by
      have : 0 < t * (a * t ^ 2 + b * t + v * (1 - 1 / 10 ^ 4)) := by
        have e : t * (a * t ^ 2 + b * t + v * (1 - 1 / 10 ^ 4))
          = v * t + b * t ^ 2 + a * t ^ 3 - v * t * (1 / 10 ^ 4) := by ring
        rw [e]; linarith
      exact pos_of_mul_pos_right this ht.le
    have h2 : 0 ≤ a * v := mul_nonneg_of_nonpos_of_nonpos ha.le hv
    -- the quadratic takes a positive value although its leading coefficient is negative
    have h3 : 4 * a * (a * t ^ 2 + b * t + v * (1 - 1 / 10 ^ 4)) ≤ 0 := by
      have := mul_nonpos_of_nonpos_of_nonneg ha.le h1.le
      linarith
    have h4 : 4 * a * (a * t ^ 2 + b * t + v * (1 - 1 / 10 ^ 4)) = (2 * a * t + b) ^ 2 - b ^ 2 + 4 * (1 - 1 / 10 ^ 4) * (a * v) := by ring
    have h5 := sq_nonneg (2 * a * t + b)
    nlinarith

theorem units_cubic {γ : ℝ} (hγ : 0 < γ) {v a b : ℝ} (h : 0 ≤ b ^ 2 - 3 * a * v) :
    cubicApproxMinimum (γ * v) (γ * a, γ * b) = cubicApproxMinimum v (a, b) := by
  have hlit : (negativeTol : ℝ) = -1 / 10 ^ 12 := by unfold negativeTol; rw [real_lit]; norm_num
  have h' : 0 ≤ γ ^ 2 * (b ^ 2 - 3 * a * v) := mul_nonneg (sq_nonneg _) h
  unfold cubicApproxMinimum
  simp only [real_feq, real_lit, real_sqrt, real_cmax, hlit]
  have e1 : γ * b * (γ * b) - ((3 : ℚ) : ℝ) * (γ * a) * (γ * v) = γ ^ 2 * (b ^ 2 - 3 * a * v) := by push_cast; ring
  have e2 : b * b - ((3 : ℚ) : ℝ) * a * v = b ^ 2 - 3 * a * v := by push_cast; ring
  rw [e1, e2]
  have n1 : ¬ γ ^ 2 * (b ^ 2 - 3 * a * v) < -1 / 10 ^ 12 := by
    intro hc
    have : (-1 / 10 ^ 12 : ℝ) < 0 := by norm_num
    linarith
  have n2 : ¬ b ^ 2 - 3 * a * v < -1 / 10 ^ 12 := by
    intro hc
    have : (-1 / 10 ^ 12 : ℝ) < 0 := by norm_num
    linarith
  have hz : γ * a = 0 ↔ a = 0 := by simp [hγ.ne']
  by_cases ha : a = 0
  · rw [if_pos (.inl (hz.mpr ha)), if_pos (.inl ha)]
  · rw [if_neg (fun hc => hc.elim (fun h0 => ha (hz.mp h0)) n1), if_neg (fun hc => hc.elim ha n2)]
    rw [max_eq_left h, max_eq_left h', Real.sqrt_mul (sq_nonneg γ), Real.sqrt_sq hγ.le]
    congr 1
    have e3 : -(γ * b) + γ * √(b ^ 2 - 3 * a * v) = γ * (-b + √(b ^ 2 - 3 * a * v)) := by ring
    have e4 : ((3 : ℚ) : ℝ) * (γ * a) = γ * (((3 : ℚ) : ℝ) * a) := by ring
    rw [e3, e4, mul_div_mul_left _ _ hγ.ne']

/-- Every step tried so far has a positive length and was refused by the decrease test. -/
def Refused (pre : Errors ℝ) (d : DirectionalDerivatives ℝ) (pen : ℝ) (steps : List (LineSearchStep ℝ)) : Prop :=
  ∀ s ∈ steps, 0 < s.alpha ∧ d.total pen ≤ 0 ∧ pre.total pen + d.total pen * s.alpha * (1 / 10 ^ 4) < s.errors.total pen

theorem units_alpha {γ : ℝ} (hγ : 0 < γ) (st : LineSearchStrategy) (tau : ℝ) (iter : Nat) (pre : Errors ℝ)
    (d : DirectionalDerivatives ℝ) (pen a : ℝ) (steps : List (LineSearchStep ℝ)) (hit : Refused pre d pen steps) :
    nextAlpha st tau iter (Errors.inUnits γ pre) (DirectionalDerivatives.inUnits γ d) (γ * pen) a
      (steps.map (LineSearchStep.inUnits γ)) = nextAlpha st tau iter pre d pen a steps := by
  cases st with
  | armijoBacktrack => rfl
  | polynomialApproximation =>
    have : polyAlpha iter (Errors.inUnits γ pre) (DirectionalDerivatives.inUnits γ d) (γ * pen)
        (steps.map (LineSearchStep.inUnits γ)) = polyAlpha iter pre d pen steps := by
      unfold polyAlpha
      rw [← List.map_reverse]
      by_cases h0 : 1 ≤ iter
      · rw [if_neg (not_not.mpr h0), if_neg (not_not.mpr h0)]
        by_cases h1 : iter = 1
        · rw [if_pos h1, if_pos h1]
          cases steps with
          | nil => rfl
          | cons s l =>
            cases l with
            | nil =>
              show Except.ok (quadraticApproxMinimum _ _ _ _) = Except.ok (quadraticApproxMinimum _ _ _ _)
              rw [units_total, units_dtotal]
              show Except.ok (quadraticApproxMinimum _ _ s.alpha ((Errors.inUnits γ s.errors).total _)) = _
              rw [units_total, units_quadratic hγ]
            | cons s2 l => rfl
        · rw [if_neg h1, if_neg h1]
          have hmem : ∀ s ∈ steps.reverse, s ∈ steps := fun s hs => List.mem_reverse.mp hs
          generalize steps.reverse = l at hmem
          match l, hmem with
          | [], _ => rfl
          | [_], _ => rfl
          | last :: second :: l, hmem =>
            have hr := hit second (hmem second (by simp))
            simp only [List.map_cons, LineSearchStep.inUnits, units_total, units_dtotal, units_coeffs]
            cases hc : cubicApproxCoeffs (pre.total pen) (d.total pen) second.alpha (second.errors.total pen)
                last.alpha (last.errors.total pen) with
            | error e => rfl
            | ok ab =>
              show Except.ok (cubicApproxMinimum _ (γ * ab.1, γ * ab.2)) = Except.ok (cubicApproxMinimum _ ab)
              have hrange : 0 < last.alpha ∧ last.alpha < second.alpha := by
                by_contra hn
                obtain ⟨t, ht⟩ := (C42_coefficients (pre.total pen) (d.total pen) second.alpha (second.errors.total pen)
                  last.alpha (last.errors.total pen)).2 hn
                rw [hc] at ht
                cases ht
              obtain ⟨a', b', h2, h3⟩ := (C42_coefficients (pre.total pen) (d.total pen) second.alpha (second.errors.total pen)
                  last.alpha (last.errors.total pen)).1 hrange
              rw [hc] at h2
              cases h2
              have h4 := ((h3 a' b').mpr ⟨rfl, rfl⟩).1
              unfold cubicPoly at h4
              rw [units_cubic hγ (rejected_discriminant hr.2.1 hr.1 (by rw [← h4] at hr; linarith [hr.2.2]))]
      · rw [if_pos h0, if_pos h0]
    simp only [nextAlpha, this]

/-- The first-derivative test gives the same answer in both units, or fires in neither search. -/
def FirstAlike (prm prm' : NLSParams ℝ) (d d' : DirectionalDerivatives ℝ) (r r' : StepResult) : Prop :=
  (d'.lInfinity < prm'.absoluteFirstDerivativeTol ↔ d.lInfinity < prm.absoluteFirstDerivativeTol) ∨
  (r ≠ .firstOrderSatisfied ∧ r' ≠ .firstOrderSatisfied)

theorem units_search {env : Env n D ℝ} {env' : Env m D ℝ} (h : UnitsProblem c κ env env' T A) (hc : c ≠ 0)
    (prm : NLSParams ℝ) (y : Fin m → ℝ)
    (e : Fin D → ℝ) (pre : Errors ℝ) (d : DirectionalDerivatives ℝ) (pen : ℝ) : ∀ (fuel iter : Nat) (a : ℝ)
    (steps : List (LineSearchStep ℝ)) (cd : Fin n → ℝ) (cd' : Fin m → ℝ) (r r'),
    lsLoop env prm (T y) (A y e) pre d pen fuel iter a steps cd = .ok r →
    lsLoop env' (paramsInUnits (c ^ 2) κ prm) y e (Errors.inUnits (c ^ 2) pre) (DirectionalDerivatives.inUnits (c ^ 2) d) (c ^ 2 * pen)
      fuel iter a (steps.map (LineSearchStep.inUnits (c ^ 2))) cd' = .ok r' →
    0 < a → 0 < prm.armijoSearchTau → Refused pre d pen steps →
    FirstAlike prm (paramsInUnits (c ^ 2) κ prm) d (DirectionalDerivatives.inUnits (c ^ 2) d) r.1 r'.1 →
    r'.1 = r.1 ∧ r'.2.1 = r.2.1.map (LineSearchStep.inUnits (c ^ 2)) ∧ (r.1 = .success → r.2.2 = T r'.2.2) := by
  have hγ : 0 < c ^ 2 := by positivity
  intro fuel
  induction fuel with
  | zero =>
    intro iter a steps cd cd' r r' hr hr' _ _ _ _
    simp only [lsLoop, Except.ok.injEq] at hr hr'
    subst hr hr'
    exact ⟨rfl, rfl, by simp⟩
  | succ fuel ih =>
    intro iter a steps cd cd' r r' hr hr' hapos htau hrefused hfo
    simp only [lsLoop] at hr hr'
    have hna := units_alpha hγ prm.lineSearchStrategy prm.armijoSearchTau iter pre d pen a steps hrefused
    have hna' : nextAlpha (paramsInUnits (c ^ 2) κ prm).lineSearchStrategy (paramsInUnits (c ^ 2) κ prm).armijoSearchTau iter
      (Errors.inUnits (c ^ 2) pre) (DirectionalDerivatives.inUnits (c ^ 2) d) (c ^ 2 * pen) a
      (steps.map (LineSearchStep.inUnits (c ^ 2))) = nextAlpha prm.lineSearchStrategy prm.armijoSearchTau iter pre d pen a steps := hna
    rw [hna'] at hr'
    cases hn : nextAlpha prm.lineSearchStrategy prm.armijoSearchTau iter pre d pen a steps with
    | error e => rw [hn] at hr; cases hr
    | ok q =>
      rw [hn] at hr hr'
      cases q with
      | none =>
        simp only [Except.ok.injEq] at hr hr'
        subst hr hr'
        exact ⟨rfl, rfl, by simp⟩
      | some a1 =>
        simp only at hr hr'
        have ha1 : 0 < a1 := by
          unfold nextAlpha at hn
          cases hst : prm.lineSearchStrategy with
          | armijoBacktrack =>
            rw [hst] at hn
            dsimp only at hn
            split_ifs at hn
            · cases hn; exact mul_pos hapos htau
            · cases hn; exact hapos
          | polynomialApproximation =>
            rw [hst] at hn
            dsimp only at hn
            split_ifs at hn
            · split at hn
              · cases hn
              · cases hn
              · split_ifs at hn with hbad
                · cases hn
                · have := Option.some.inj (Except.ok.inj hn)
                  rw [← this]
                  push Not at hbad
                  exact hbad.2.1
            · cases hn; exact hapos
        cases hm : retract env (T y) (A y e) a1 with
        | error _ => rw [hm] at hr; cases hr
        | ok x1 =>
          cases hm' : retract env' y e a1 with
          | error _ => rw [hm'] at hr'; cases hr'
          | ok y1 =>
            have hx := h.moves y e a1 x1 y1 hm hm'
            rw [hm] at hr
            rw [hm'] at hr'
            simp only at hr hr'
            cases he : evalErrors env.p x1 with
            | error _ => rw [he] at hr; cases hr
            | ok es =>
              cases he' : evalErrors env'.p y1 with
              | error _ => rw [he'] at hr'; cases hr'
              | ok es' =>
                have e1 := ((evalErrors_ok_iff env.p x1 es).mp he).2
                have e2 := ((evalErrors_ok_iff env'.p y1 es').mp he').2
                have : es' = Errors.inUnits (c ^ 2) es := by rw [e1, e2, units_errors h, hx]
                subst this
                rw [he] at hr
                rw [he'] at hr'
                simp only at hr hr'
                rw [if_neg (real_valid _)] at hr hr'
                have hlist : steps.map (LineSearchStep.inUnits (c ^ 2)) ++ [(⟨a1, Errors.inUnits (c ^ 2) es⟩ : LineSearchStep ℝ)]
                  = (steps ++ [(⟨a1, es⟩ : LineSearchStep ℝ)]).map (LineSearchStep.inUnits (c ^ 2)) := by simp [LineSearchStep.inUnits]
                rw [hlist] at hr'
                have hf : (DirectionalDerivatives.inUnits (c ^ 2) d).lInfinity < (paramsInUnits (c ^ 2) κ prm).absoluteFirstDerivativeTol
                    ↔ d.lInfinity < prm.absoluteFirstDerivativeTol := by
                  rcases hfo with hfo | ⟨h1, h2⟩
                  · exact hfo
                  · constructor
                    · intro hh
                      rw [if_pos hh] at hr'
                      cases hr'
                      exact absurd rfl h2
                    · intro hh
                      rw [if_pos hh] at hr
                      cases hr
                      exact absurd rfl h1
                have hp : 0 < (DirectionalDerivatives.inUnits (c ^ 2) d).total (c ^ 2 * pen) ↔ 0 < d.total pen := by
                  rw [units_dtotal]; exact mul_pos_iff_of_pos_left hγ
                have ha : (Errors.inUnits (c ^ 2) es).total (c ^ 2 * pen) ≤ (Errors.inUnits (c ^ 2) pre).total (c ^ 2 * pen)
                    + (DirectionalDerivatives.inUnits (c ^ 2) d).total (c ^ 2 * pen) * a1 * armijoC1
                    ↔ es.total pen ≤ pre.total pen + d.total pen * a1 * armijoC1 := by
                  rw [units_dtotal, units_total, units_total]
                  rw [show c ^ 2 * pre.total pen + c ^ 2 * d.total pen * a1 * armijoC1
                    = c ^ 2 * (pre.total pen + d.total pen * a1 * armijoC1) by ring]
                  exact mul_le_mul_iff_right₀ hγ
                rw [if_congr hf rfl (if_congr hp rfl (if_congr ha rfl rfl))] at hr'
                split_ifs at hr hr' with i1 i2 i3
                · cases hr; cases hr'; exact ⟨rfl, rfl, fun _ => hx⟩
                · cases hr; cases hr'; exact ⟨rfl, rfl, fun _ => hx⟩
                · cases hr; cases hr'; exact ⟨rfl, rfl, fun _ => hx⟩
                · refine ih _ _ _ _ _ _ _ hr hr' ha1 htau ?_ hfo
                  intro st hst
                  rcases List.mem_append.mp hst with hst | hst
                  · exact hrefused st hst
                  · rw [List.mem_singleton.mp hst]
                    have hlit : (armijoC1 : ℝ) = 1 / 10 ^ 4 := by unfold armijoC1; rw [real_lit]; norm_num
                    rw [hlit] at i3
                    exact ⟨ha1, not_lt.mp i2, not_le.mp i3⟩

/-! ## The whole solve -/

/-- Loop states that describe the same point of the same solve in both units. -/
structure ULinked (T : (Fin m → ℝ) → Fin n → ℝ) (γ κ : ℝ) {env : Env n D ℝ} {env' : Env m D ℝ} (s : Loop env) (s' : Loop env') : Prop where
  vars : s.obj.vars = T s'.obj.vars
  lambda : s'.lambda = κ * s.lambda
  penalty : s'.penalty = γ * s.penalty
  state : s'.obj.state = s.obj.state
  log : s'.log.map withoutQP = s.log.map (inUnits γ κ)
  calls : s'.calls.map withoutQP = s.calls.map (inUnits γ κ)

theorem units_finish {γ κ : ℝ} {f f' : Option (List (NLSIteration ℝ) → Bool)} (h : UnitsCallback γ κ f f') {i i' : NLSIteration ℝ}
    (hi : withoutQP i' = inUnits γ κ i) (ex : Option NLSTermination) {l l' : List (NLSIteration ℝ)}
    (hc : l'.map withoutQP = l.map (inUnits γ κ)) :
    (finish f' i' ex l').1.map withoutQP = (finish f i ex l).1.map (inUnits γ κ) ∧
    (finish f' i' ex l').2 = (finish f i ex l).2 := by
  have happ : (l' ++ [i']).map withoutQP = (l ++ [i]).map (inUnits γ κ) := by simp [hi, hc]
  cases f with
  | none =>
    cases f' with
    | none => exact ⟨hc, rfl⟩
    | some g => exact absurd h (by simp [UnitsCallback])
  | some f =>
    cases f' with
    | none => exact absurd h (by simp [UnitsCallback])
    | some g =>
      cases ex with
      | some t => exact ⟨happ, rfl⟩
      | none =>
        refine ⟨happ, ?_⟩
        show (if g (l' ++ [i']) then none else some NLSTermination.userCallback)
          = if f (l ++ [i]) then none else some NLSTermination.userCallback
        rw [h (l ++ [i]) (l' ++ [i']) happ]

theorem units_lambda {γ : ℝ} (hκ : 0 < κ) (prm : NLSParams ℝ) (st : OptimizerState) (res : StepResult) (lam : ℝ) :
    nextLambda (paramsInUnits γ κ prm) st res (κ * lam) = κ * nextLambda prm st res lam := by
  cases res <;> cases st <;> simp only [nextLambda, paramsInUnits, real_cmax, mul_max_of_nonneg _ _ hκ.le, mul_assoc]

theorem units_exit {γ : ℝ} (hγ : 0 < γ) (hκ : 0 < κ) (prm : NLSParams ℝ) (res : StepResult) (pre : Errors ℝ) (pen lam : ℝ)
    (last : Option (LineSearchStep ℝ))
    (habs : (∀ s ∈ last, s.errors.equality = 0 ∧ 0 ≤ s.errors.f) ∨
      (exitOf prm res pre pen lam last ≠ some .satisfiedAbsoluteTol ∧
        exitOf (paramsInUnits γ κ prm) res (Errors.inUnits γ pre) (γ * pen) (κ * lam) (last.map (LineSearchStep.inUnits γ))
          ≠ some .satisfiedAbsoluteTol)) :
    exitOf (paramsInUnits γ κ prm) res (Errors.inUnits γ pre) (γ * pen) (κ * lam) (last.map (LineSearchStep.inUnits γ))
      = exitOf prm res pre pen lam last := by
  have hmax : (paramsInUnits γ κ prm).maxLambda < κ * lam ↔ prm.maxLambda < lam := mul_lt_mul_iff_right₀ hκ
  cases res with
  | success =>
    cases last with
    | none => rfl
    | some fin =>
      have hrel : (Errors.inUnits γ pre).total (γ * pen) * (1 - (paramsInUnits γ κ prm).relativeExitTol)
          < (Errors.inUnits γ fin.errors).total (γ * pen) ↔ pre.total pen * (1 - prm.relativeExitTol) < fin.errors.total pen := by
        rw [units_total, units_total, mul_assoc]
        exact mul_lt_mul_iff_right₀ hγ
      have hab : (Errors.inUnits γ fin.errors).lInfinity < (paramsInUnits γ κ prm).absoluteExitTol
          ↔ fin.errors.lInfinity < prm.absoluteExitTol := by
        rcases habs with h | ⟨h1, h2⟩
        · obtain ⟨h0, hf⟩ := h fin rfl
          simp only [Errors.lInfinity, Errors.inUnits, real_cmax, h0, paramsInUnits]
          rw [max_eq_left hf, max_eq_left (mul_nonneg hγ.le hf)]
          exact mul_lt_mul_iff_right₀ hγ
        · constructor
          · intro hh
            exact absurd (if_pos hh) h2
          · intro hh
            exact absurd (if_pos hh) h1
      exact if_congr hab rfl (if_congr hrel rfl rfl)
  | maxIterations => exact if_congr hmax rfl rfl
  | positiveDerivative => exact if_congr hmax rfl rfl
  | firstOrderSatisfied => rfl
  | failureNonFiniteCost => cases last <;> rfl
  | failureInvalidAlpha => cases last <;> rfl

theorem ls_errors {env : Env n D ℝ} {prm : NLSParams ℝ} {x : Fin n → ℝ} {dx : Fin D → ℝ} {pre : Errors ℝ}
    {d : DirectionalDerivatives ℝ} {pen : ℝ} (P : Errors ℝ → Prop) (hP : ∀ x : Fin n → ℝ, P (errorsAt env.p x)) :
    ∀ (fuel iter : Nat) (a : ℝ) (steps : List (LineSearchStep ℝ)) (cand : Fin n → ℝ) (r),
    lsLoop env prm x dx pre d pen fuel iter a steps cand = .ok r → (∀ s ∈ steps, P s.errors) → ∀ s ∈ r.2.1, P s.errors := by
  intro fuel
  induction fuel with
  | zero => intro iter a steps cand r h hs; simp only [lsLoop, Except.ok.injEq] at h; subst h; exact hs
  | succ fuel ih =>
    intro iter a steps cand r h hs
    simp only [lsLoop] at h
    split at h
    · cases h
    · cases h; exact hs
    · rename_i a1 _
      split at h
      · cases h
      · split at h
        · cases h
        · rename_i es he
          have hes := ((evalErrors_ok_iff env.p _ es).mp he).2
          have hs' : ∀ s ∈ steps ++ [(⟨a1, es⟩ : LineSearchStep ℝ)], P s.errors := by
            intro s hm
            rcases List.mem_append.mp hm with hm | hm
            · exact hs s hm
            · rw [List.mem_singleton.mp hm]; dsimp only; rw [hes]; exact hP _
          split_ifs at h
          · cases h; exact hs'
          · cases h; exact hs'
          · cases h; exact hs'
          · cases h; exact hs'
          · exact ih _ _ _ _ _ h hs'

theorem units_pass {env : Env n D ℝ} {env' : Env m D ℝ} (h : UnitsProblem c κ env env' T A) (hc0 : c ≠ 0) (hκ : 0 < κ)
    (hs0 : κ = c ^ 2 * s)
    (hE : LDLTContract env.E) (hE' : LDLTContract env'.E) (hN : NSContract env.NE) (hN' : NSContract env'.NE)
    (hp : WellPosed env.p n) (hp' : WellPosed env'.p m) (hi : env.p.ineq = []) (hi' : env'.p.ineq = [])
    {prm : NLSParams ℝ} {k : Nat} {u u1 : Loop env} {u' u1' : Loop env'} {t t' : Option NLSTermination}
    {w : PassData env} {w' : PassData env'} (hs : ULinked T (c ^ 2) κ u u') (P : Pass env prm k u u1 t w)
    (P' : Pass env' (paramsInUnits (c ^ 2) κ prm) k u' u1' t' w')
    (hr : env.p.eqs = [] → 0 < u.lambda ∨ RegularAt env.p u.obj.vars) (hiso : u.lambda ≤ 0 ∨ Similar s A)
    (hk : (∃ q, u.obj.solver = .ns q) ↔ env.p.ineq = [] ∧ env.p.eqs ≠ [])
    (hk' : (∃ q, u'.obj.solver = .ns q) ↔ env'.p.ineq = [] ∧ env'.p.eqs ≠ [])
    (htau : 0 < prm.armijoSearchTau)
    (htol : env.p.eqs = [] ∨ ∀ e ∈ [NLSTermination.satisfiedAbsoluteTol, .satisfiedFirstOrderTol], t ≠ some e ∧ t' ≠ some e) :
    ULinked T (c ^ 2) κ u1 u1' ∧ t' = t := by
  have hγ : 0 < c ^ 2 := by positivity
  obtain ⟨sol, hd, -⟩ := P.dir
  obtain ⟨sol', hd', -⟩ := P'.dir
  have hl := P.lin
  have hl' := P'.lin
  rw [hs.vars] at hl
  rw [hs.lambda] at hl'
  obtain ⟨hpre, htw⟩ := utwin_of_linearize h hκ hp hp' u'.obj.vars u.lambda hs0 hiso hl hl'
  have hr' : env'.p.eqs = [] → 0 < κ * u.lambda ∨ RegularAt env'.p u'.obj.vars := by
    intro he
    rcases hr ((units_nil h).mp he) with h1 | h1
    · exact .inl (mul_pos hκ h1)
    · rw [hs.vars] at h1
      exact .inr (units_regular h hc0 _ h1)
  have m1 := direction_min hE hN hp hi (ob := { u.obj with qp := w.qp }) (o1 := { u.obj with qp := w.qp, dx := w.dx, solver := sol }) P.lin hd P.notIndef hr hk
  have m2 := direction_min hE' hN' hp' hi' (ob := { u'.obj with qp := w'.qp }) (o1 := { u'.obj with qp := w'.qp, dx := w'.dx, solver := sol' }) hl' hd' P'.notIndef hr' hk'
  have hdx : w.dx = A u'.obj.vars w'.dx := utwin_min htw hγ m1 m2
  have hder : costDerivative w'.qp w'.dx = DirectionalDerivatives.inUnits (c ^ 2) (costDerivative w.qp w.dx) := by
    rw [utwin_derivative htw, hdx]
  have hmult : env.p.eqs ≠ [] → multipliers w.out = none := by
    intro hne
    obtain ⟨q, hq⟩ := hk.mpr ⟨hi, hne⟩
    rcases stepDirection_cases hd with ⟨_, _, _, _, h1, _⟩ | ⟨_, _, _, _, _, _, h2, _⟩
    · have h1' : u.obj.solver = .ip _ := h1
      rw [hq] at h1'; cases h1'
    · rw [h2]; rfl
  have hmult' : env'.p.eqs ≠ [] → multipliers w'.out = none := by
    intro hne
    obtain ⟨q, hq⟩ := hk'.mpr ⟨hi', hne⟩
    rcases stepDirection_cases hd' with ⟨_, _, _, _, h1, _⟩ | ⟨_, _, _, _, _, _, h2, _⟩
    · have h1' : u'.obj.solver = .ip _ := h1
      rw [hq] at h1'; cases h1'
    · rw [h2]; rfl
  have hpen : u1'.penalty = c ^ 2 * u1.penalty := by
    rw [P.penalty, P'.penalty, hs.penalty]
    unfold raisePenalty
    by_cases hne : env.p.eqs = []
    · rw [if_neg (by simpa using (units_nil h).mpr hne), if_neg (by simpa using hne)]
    · have hne' : env'.p.eqs ≠ [] := fun e => hne ((units_nil h).mp e)
      rw [if_pos hne, if_pos hne', hmult hne, hmult' hne']
      have hsel : selectPenalty w'.qp w'.dx none (paramsInUnits (c ^ 2) κ prm).equalityPenaltyRho
          = c ^ 2 * selectPenalty w.qp w.dx none prm.equalityPenaltyRho := by rw [utwin_penalty htw hγ, hdx]; rfl
      dsimp only
      rw [hsel]
      by_cases hlt : u.penalty < selectPenalty w.qp w.dx none prm.equalityPenaltyRho
      · rw [if_pos hlt, if_pos ((mul_lt_mul_iff_right₀ hγ).mpr hlt)]
        exact mul_assoc _ _ _
      · rw [if_neg hlt, if_neg (fun hh => hlt ((mul_lt_mul_iff_right₀ hγ).mp hh))]
  have hls := P.ls
  have hls' := P'.ls
  rw [hs.vars, hdx] at hls
  rw [hpre, hder, hdx, hpen] at hls'
  have hterm : ∀ e, w.exit = some e → t = some e := by
    intro e he
    rw [P.term, he]
    unfold finish
    cases env.callback <;> rfl
  have hterm' : ∀ e, w'.exit = some e → t' = some e := by
    intro e he
    rw [P'.term, he]
    unfold finish
    cases env'.callback <;> rfl
  have hfirst : FirstAlike prm (paramsInUnits (c ^ 2) κ prm) (costDerivative w.qp (A u'.obj.vars w'.dx))
      (DirectionalDerivatives.inUnits (c ^ 2) (costDerivative w.qp (A u'.obj.vars w'.dx))) w.res w'.res := by
    rcases htol with he | htol
    · left
      have hK : env.p.K = 0 := by simp [Problem.K, he]
      have h0 : (costDerivative w.qp (A u'.obj.vars w'.dx)).dEquality = 0 := by
        rw [(costDerivative_real _ _).2]
        exact Finset.sum_eq_zero fun k _ => absurd (lt_of_lt_of_eq k.isLt hK) (Nat.not_lt_zero _)
      simp only [DirectionalDerivatives.lInfinity, DirectionalDerivatives.inUnits, real_cmax, h0, paramsInUnits]
      have e1 : ∀ v : ℝ, (Scalar.abs v : ℝ) = |v| := fun v => rfl
      rw [e1, e1, e1, abs_zero, max_eq_left (abs_nonneg _), max_eq_left (abs_nonneg _), abs_mul, abs_of_pos hγ]
      exact mul_lt_mul_iff_right₀ hγ
    · right
      have h1 := htol .satisfiedFirstOrderTol (by simp)
      constructor
      · intro hres
        exact h1.1 (hterm _ (by rw [P.exit, hres]; rfl))
      · intro hres
        exact h1.2 (hterm' _ (by rw [P'.exit, hres]; rfl))
  obtain ⟨r1, r2, r3⟩ := units_search h hc0 prm u'.obj.vars w'.dx w.pre _ u1.penalty _ 0 1 [] _ _ _ _ hls hls' one_pos htau (fun s hs => by cases hs) hfirst
  dsimp only at r1 r2 r3
  have hst : u1'.obj.state = u1.obj.state := by rw [P.state, P'.state, hs.state, r1]
  have hlam : u1'.lambda = κ * u1.lambda := by rw [P.lambda, P'.lambda, hs.state, hs.lambda, r1, units_lambda hκ]
  have hlast : w'.steps.getLast? = w.steps.getLast?.map (LineSearchStep.inUnits (c ^ 2)) := by rw [r2, List.getLast?_map]
  have hex : w'.exit = w.exit := by
    have f1 := P.exit
    have f2 := P'.exit
    rw [r1, hlast, hpre, hpen, hlam] at f2
    have := units_exit hγ hκ prm w.res w.pre u1.penalty u1.lambda w.steps.getLast? (by
      rcases htol with he | htol
      · left
        intro st hst
        have hmem : st ∈ w.steps := List.mem_of_getLast? hst
        refine ls_errors (fun e => e.equality = 0 ∧ 0 ≤ e.f) (fun x => ⟨?_, costAt_nonneg _ _⟩) _ _ _ _ _ _ P.ls
          (fun s hs => by cases hs) st hmem
        show violationAt env.p x = 0
        rw [violationAt_real, he]
        rfl
      · right
        have h1 := htol .satisfiedAbsoluteTol (by simp)
        rw [← f1, ← f2]
        exact ⟨fun hh => h1.1 (hterm _ hh), fun hh => h1.2 (hterm' _ hh)⟩)
    rw [f1, f2, this]
  have hinfo : withoutQP w'.info = inUnits (c ^ 2) κ w.info := by
    have a1 := P.iiter; have b1 := P'.iiter
    have a2 := P.istate; have b2 := P'.istate
    have a3 := P.ilambda; have b3 := P'.ilambda
    have a4 := P.ipre; have b4 := P'.ipre
    have a5 := P.ideriv; have b5 := P'.ideriv
    have a6 := P.ipenalty; have b6 := P'.ipenalty
    have a7 := P.ires; have b7 := P'.ires
    have a8 := P.isteps; have b8 := P'.isteps
    rw [hst] at b2; rw [hs.lambda] at b3; rw [hpre] at b4; rw [hder] at b5; rw [hpen] at b6; rw [r1] at b7; rw [r2] at b8
    generalize w.info = u at *
    generalize w'.info = v at *
    obtain ⟨u1, u2, u3, u4, u5, u6, u7, u8, u9, u10⟩ := u
    obtain ⟨v1, v2, v3, v4, v5, v6, v7, v8, v9, v10⟩ := v
    dsimp only at *
    unfold inUnits withoutQP
    dsimp only
    rw [a1, b1, a2, b2, a3, b3, a4, b4, a5, b5, a6, b6, a7, b7, a8, b8]
  obtain ⟨c1, c2⟩ := units_finish h.callback hinfo w.exit hs.calls
  refine ⟨⟨?_, hlam, hpen, hst, ?_, ?_⟩, ?_⟩
  · rw [P.vars, P'.vars, r1]
    split_ifs with hres
    · exact r3 hres
    · exact hs.vars
  · rw [P.log, P'.log, List.map_append, List.map_append, hs.log, List.map_cons, List.map_cons, hinfo]; rfl
  · rw [P.calls, P'.calls, hex]; exact c1
  · rw [P.term, P'.term, hex]; exact c2

set_option maxHeartbeats 1000000 in
/-- **C118**. Changing the units of the cost (residuals multiplied by `c ≠ 0`) and of the variables (any change of coordinates
that multiplies all squared step lengths by one factor `s`, or any at all when no iteration is damped), together with the parameters
that carry units: both solves go through corresponding points with the same step lengths, step results and termination, and the
logs agree up to units. For a problem without inequality constraints; with equality constraints, provided neither solve ends on
one of the two absolute tolerances (which compare a maximum over quantities of different units). (The threshold `-1e-12` of the
cubic interpolation, which is in fixed units, makes no difference: the discriminant is never negative after a refused step.) -/
theorem C118_units (env : Env n D ℝ) (env' : Env m D ℝ) (T : (Fin m → ℝ) → Fin n → ℝ)
    (A : (Fin m → ℝ) → (Fin D → ℝ) ≃ₗ[ℝ] (Fin D → ℝ)) (c s : ℝ) (hc : c ≠ 0) (hs : 0 < s)
    (hsame : UnitsProblem c (c ^ 2 * s) env env' T A)
    (hE : LDLTContract env.E) (hE' : LDLTContract env'.E) (hN : NSContract env.NE) (hN' : NSContract env'.NE)
    (hp : WellPosed env.p n) (hp' : WellPosed env'.p m) (hi : env.p.ineq = []) (hi' : env'.p.ineq = [])
    (prm : NLSParams ℝ) (y0 : Fin m → ℝ) (o o1 : env.Obj) (o' o1' : env'.Obj) (out out' : NLSOutputs ℝ)
    (calls calls' : List (NLSIteration ℝ)) (h : solve env prm (T y0) o = .ok (o1, out, calls))
    (h' : solve env' (paramsInUnits (c ^ 2) (c ^ 2 * s) prm) y0 o' = .ok (o1', out', calls'))
    (hreg : env.p.eqs = [] → ∀ k it a, out.iterations[k]? = some it → After env prm (T y0) o k a →
      0 < it.lambda ∨ RegularAt env.p a.vars)
    (hlam : Similar s A ∨ ∀ it ∈ out.iterations, it.lambda ≤ 0)
    (htol : env.p.eqs = [] ∨ ∀ t ∈ [NLSTermination.satisfiedAbsoluteTol, .satisfiedFirstOrderTol],
      out.termination ≠ t ∧ out'.termination ≠ t) :
    o1.vars = T o1'.vars ∧ out'.termination = out.termination ∧
    out'.iterations.map withoutQP = out.iterations.map (inUnits (c ^ 2) (c ^ 2 * s)) ∧
    calls'.map withoutQP = calls.map (inUnits (c ^ 2) (c ^ 2 * s)) := by
  have hγ : 0 < c ^ 2 := by positivity
  have hκ : 0 < c ^ 2 * s := mul_pos hγ hs
  obtain ⟨S, U, W, hv⟩ := solve_view h
  obtain ⟨S', U', W', hv'⟩ := solve_view h'
  have hend : ∀ {j : Nat} {e : NLSTermination}, j < out.iterations.length → U j = some e → out.termination = e := by
    intro j e hj he
    have hj2 : j + 1 = out.iterations.length := by
      by_contra hne
      rw [hv.cont j (by omega)] at he
      cases he
    rcases hv.stop with ⟨_, _, hn, _⟩ | ⟨_, _, hT, _⟩ | ⟨_, _, hn, _⟩
    · rw [hn j hj] at he; cases he
    · rw [← hj2, Nat.add_sub_cancel, he] at hT
      exact (Option.some.inj hT).symm
    · rw [hn j hj] at he; cases he
  have hend' : ∀ {j : Nat} {e : NLSTermination}, j < out'.iterations.length → U' j = some e → out'.termination = e := by
    intro j e hj he
    have hj2 : j + 1 = out'.iterations.length := by
      by_contra hne
      rw [hv'.cont j (by omega)] at he
      cases he
    rcases hv'.stop with ⟨_, _, hn, _⟩ | ⟨_, _, hT, _⟩ | ⟨_, _, hn, _⟩
    · rw [hn j hj] at he; cases he
    · rw [← hj2, Nat.add_sub_cancel, he] at hT
      exact (Option.some.inj hT).symm
    · rw [hn j hj] at he; cases he
  have hiso : ∀ k, k < out.iterations.length → (S k).lambda ≤ 0 ∨ Similar s A := by
    intro k hk
    rcases hlam with h1 | h1
    · exact .inr h1
    · have := h1 _ (List.mem_of_getElem? (hv.log k hk))
      rw [(hv.pass k hk).ilambda] at this
      exact .inl this
  have key : ∀ k, k ≤ out.iterations.length → k ≤ out'.iterations.length →
      ULinked T (c ^ 2) (c ^ 2 * s) (S k) (S' k) ∧ ∀ j, j < k → U' j = U j := by
    intro k
    induction k with
    | zero =>
      intro _ _
      rw [hv.start, hv'.start]
      exact ⟨⟨rfl, rfl, rfl, rfl, rfl, rfl⟩, fun j hj => by omega⟩
    | succ k ih =>
      intro hk hk'
      obtain ⟨hlk, hU⟩ := ih (by omega) (by omega)
      have P := hv.pass k (by omega)
      have P' := hv'.pass k (by omega)
      have hlog := hv.log k (by omega)
      obtain ⟨q1, q2⟩ := units_pass hsame hc hκ rfl hE hE' hN hN' hp hp' hi hi' hlk P P'
        (fun he => by
          have := hreg he k _ _ hlog ((hv.after k (by omega) _).mpr rfl)
          rwa [P.ilambda] at this)
        (hiso k (by omega))
        (view_solver hv k (by omega)) (view_solver hv' k (by omega))
        hv.prmOk.armijoSearchTau.1
        (htol.imp id fun h1 e he => ⟨fun hU => (h1 e he).1 (hend (by omega) hU), fun hU => (h1 e he).2 (hend' (by omega) hU)⟩)
      refine ⟨q1, fun j hj => ?_⟩
      rcases Nat.lt_succ_iff_lt_or_eq.mp hj with h1 | rfl
      · exact hU j h1
      · exact q2
  have hkinds : ∀ k, k ≤ out.iterations.length → k ≤ out'.iterations.length →
      ((∃ s, (S k).obj.solver = .ns s) ↔ ∃ s, (S' k).obj.solver = .ns s) := by
    intro k hk hk'
    rw [view_solver hv k hk, view_solver hv' k hk', hi, hi', Ne, Ne, units_nil hsame]
  have hlen : out'.iterations.length = out.iterations.length := by
    rcases Nat.lt_trichotomy out.iterations.length out'.iterations.length with hlt | he | hgt
    · exfalso
      obtain ⟨hlk, hU⟩ := key out.iterations.length le_rfl hlt.le
      rcases hv.stop with ⟨_, e1, _⟩ | ⟨_, hpos, e1, _⟩ | ⟨_, _, _, qp, pre, ob1, res, hl, hd, hw, _⟩
      · have := hv'.le
        have : (paramsInUnits (c ^ 2) (c ^ 2 * s) prm).maxIterations = prm.maxIterations := rfl
        omega
      · have e2 := hU (out.iterations.length - 1) (by omega)
        rw [e1, hv'.cont (out.iterations.length - 1) (by omega)] at e2
        cases e2
      · have P' := hv'.pass _ hlt
        obtain ⟨sol', hd', -⟩ := P'.dir
        have hl' := P'.lin
        rw [hlk.vars] at hl
        rw [hlk.lambda] at hl'
        obtain ⟨u1, u2, u3⟩ := units_positive hsame hc hκ hp hp' _ _ hl hl'
        have := units_indefinite hN hN' u1 u2 u3 hd hd' (hkinds _ le_rfl hlt.le)
        rw [hw, P'.notIndef] at this
        cases this
    · exact he.symm
    · exfalso
      obtain ⟨hlk, hU⟩ := key out'.iterations.length hgt.le le_rfl
      rcases hv'.stop with ⟨_, e1, _⟩ | ⟨_, hpos, e1, _⟩ | ⟨_, _, _, qp, pre, ob1, res, hl, hd, hw, _⟩
      · have := hv.le
        have : (paramsInUnits (c ^ 2) (c ^ 2 * s) prm).maxIterations = prm.maxIterations := rfl
        omega
      · have e2 := hU (out'.iterations.length - 1) (by omega)
        rw [e1, hv.cont (out'.iterations.length - 1) (by omega)] at e2
        cases e2
      · have P := hv.pass _ hgt
        obtain ⟨sol', hd', -⟩ := P.dir
        have hl' := P.lin
        rw [hlk.vars] at hl'
        rw [hlk.lambda] at hl
        obtain ⟨u1, u2, u3⟩ := units_positive hsame hc hκ hp hp' _ _ hl' hl
        have := units_indefinite hN hN' u1 u2 u3 hd' hd (hkinds _ hgt.le le_rfl)
        rw [hw, P.notIndef] at this
        cases this
  obtain ⟨hlk, hU⟩ := key out.iterations.length le_rfl hlen.ge
  refine ⟨?_, ?_, ?_, ?_⟩
  · rw [hv.vars, hv'.vars, hlen]; exact hlk.vars
  · have hs' := hv'.stop
    rw [hlen] at hs'
    rcases hv.stop with ⟨t1, e1, n1, _⟩ | ⟨_, hpos, e1, _⟩ | ⟨t1, lt1, n1, _⟩ <;>
      rcases hs' with ⟨t2, e2, n2, _⟩ | ⟨_, hpos2, e2, _⟩ | ⟨t2, lt2, n2, _⟩
    · rw [t1, t2]
    · have := hU (out.iterations.length - 1) (by omega)
      rw [e2, n1 _ (by omega)] at this; cases this
    · have : (paramsInUnits (c ^ 2) (c ^ 2 * s) prm).maxIterations = prm.maxIterations := rfl
      omega
    · have := hU (out.iterations.length - 1) (by omega)
      rw [e1, n2 _ (by omega)] at this; cases this
    · have := hU (out.iterations.length - 1) (by omega)
      rw [e1, e2] at this
      exact Option.some.inj this
    · have := hU (out.iterations.length - 1) (by omega)
      rw [e1, n2 _ (by omega)] at this; cases this
    · have : (paramsInUnits (c ^ 2) (c ^ 2 * s) prm).maxIterations = prm.maxIterations := rfl
      omega
    · have := hU (out.iterations.length - 1) (by omega)
      rw [e2, n1 _ (by omega)] at this; cases this
    · rw [t1, t2]
  · have := hlk.log
    rw [hv.slog _ le_rfl, hv'.slog _ hlen.ge, List.take_length, ← hlen, List.take_length] at this
    exact this
  · rw [hv.calls, hv'.calls, hlen]; exact hlk.calls

/-! ## The cost alone, and linear changes of variables -/

theorem multiplied_params (c : ℝ) (r : Residual ℝ) (x : Fin n → ℝ) : params (multiplied c r) x = params r x := rfl

theorem multiplied_value (c : ℝ) (r : Residual ℝ) (x : Fin n → ℝ) (k : Fin r.dim) :
    valueAt (multiplied c r) x k = c * valueAt r x k := rfl

theorem multiplied_slope (c : ℝ) (r : Residual ℝ) (x : Fin n → ℝ) (e : Fin D → ℝ) (k : Fin r.dim) :
    slopeAt (multiplied c r) x e k = c * slopeAt r x e k := by
  have hj : ∀ j : Fin D, jacAt (multiplied c r) x D k j = c * jacAt r x D k j := by
    intro j
    have e1 : jacAt (multiplied c r) x D k j = ∑ l : Fin r.P, if r.index l = (j.val : Int) then c * r.jac (params r x) k l else 0 := rfl
    have e2 : jacAt r x D k j = ∑ l : Fin r.P, if r.index l = (j.val : Int) then r.jac (params r x) k l else 0 := rfl
    rw [e1, e2, Finset.mul_sum]
    exact Finset.sum_congr rfl fun l _ => by split_ifs <;> simp
  have e1 : slopeAt (multiplied c r) x e k = ∑ j, jacAt (multiplied c r) x D k j * e j := rfl
  have e2 : slopeAt r x e k = ∑ j, jacAt r x D k j * e j := rfl
  rw [e1, e2, Finset.mul_sum]
  exact Finset.sum_congr rfl fun j _ => by rw [hj]; ring

theorem multiplied_wellPosed {p : Problem D ℝ} {x : Nat} (hp : WellPosed p x) (c : ℝ) :
    WellPosed (⟨p.costs.map (multiplied c), p.ineq, p.eqs⟩ : Problem D ℝ) x := by
  have hmem : ∀ {P : Residual ℝ → Prop}, (∀ r ∈ p.costs ++ p.eqs, P r) → (∀ r, P r → P (multiplied c r)) →
      ∀ r ∈ p.costs.map (multiplied c) ++ p.eqs, P r := by
    intro P h h2 r hr
    rcases List.mem_append.mp hr with hr | hr
    · obtain ⟨r0, h0, rfl⟩ := List.mem_map.mp hr
      exact h2 _ (h r0 (by simp [h0]))
    · exact h r (by simp [hr])
  refine ⟨hmem hp.idx fun r h => h, hmem hp.idxD fun r h => h, hmem hp.distinct fun r h => h,
    hmem hp.consistent fun r h q => ?_, hp.ineq⟩
  show (fun k => c * r.valueJ q k) = fun k => c * r.value q k
  rw [h q]

/-- **C118** (the unit of the cost). Multiplying every cost residual by `c ≠ 0` and the parameters that carry units by
`c²` changes nothing but the units of the log: the same variables, step lengths, step results and termination. -/
theorem C118_cost_units (env env' : Env n D ℝ) (c : ℝ) (hc : c ≠ 0)
    (hpr : env'.p = ⟨env.p.costs.map (multiplied c), env.p.ineq, env.p.eqs⟩) (hR : env'.retraction = env.retraction)
    (hcb : UnitsCallback (c ^ 2) (c ^ 2) env.callback env'.callback)
    (hE : LDLTContract env.E) (hE' : LDLTContract env'.E) (hN : NSContract env.NE) (hN' : NSContract env'.NE)
    (hp : WellPosed env.p n) (hi : env.p.ineq = [])
    (prm : NLSParams ℝ) (x0 : Fin n → ℝ) (o o1 : env.Obj) (o' o1' : env'.Obj) (out out' : NLSOutputs ℝ)
    (calls calls' : List (NLSIteration ℝ)) (h : solve env prm x0 o = .ok (o1, out, calls))
    (h' : solve env' (paramsInUnits (c ^ 2) (c ^ 2) prm) x0 o' = .ok (o1', out', calls'))
    (hreg : env.p.eqs = [] → ∀ k it a, out.iterations[k]? = some it → After env prm x0 o k a →
      0 < it.lambda ∨ RegularAt env.p a.vars)
    (htol : env.p.eqs = [] ∨ ∀ t ∈ [NLSTermination.satisfiedAbsoluteTol, .satisfiedFirstOrderTol],
      out.termination ≠ t ∧ out'.termination ≠ t) :
    o1'.vars = o1.vars ∧ out'.termination = out.termination ∧
    out'.iterations.map withoutQP = out.iterations.map (inUnits (c ^ 2) (c ^ 2)) ∧
    calls'.map withoutQP = calls.map (inUnits (c ^ 2) (c ^ 2)) := by
  have hc1 : env'.p.costs = env.p.costs.map (multiplied c) := by rw [hpr]
  have he1 : env'.p.eqs = env.p.eqs := by rw [hpr]
  have hi1 : env'.p.ineq = env.p.ineq := by rw [hpr]
  have hsame : UnitsProblem c (c ^ 2 * 1) env env' id (fun _ => LinearEquiv.refl ℝ (Fin D → ℝ)) := by
    refine ⟨?_, ?_, ?_, by rw [mul_one]; exact hcb⟩
    · rw [hc1]
      refine forall2_map fun r _ => ⟨fun y => rfl, fun y e => congrArg List.ofFn (funext fun k => multiplied_slope c r y e k)⟩
    · rw [he1]
      exact List.forall₂_same.mpr fun r _ => ⟨fun y => rfl, fun y e => rfl⟩
    · intro y e a x z hx hz
      unfold retract at hx hz
      rw [hR] at hz
      cases hret : env.retraction with
      | some R =>
        rw [hret] at hx hz
        dsimp only at hx hz
        split_ifs at hx hz
        cases hx; cases hz; rfl
      | none =>
        rw [hret] at hx hz
        dsimp only at hx hz
        split_ifs at hx hz
        cases hx; cases hz; rfl
  have hp' : WellPosed env'.p n := by rw [hpr]; exact multiplied_wellPosed hp c
  have h'' : solve env' (paramsInUnits (c ^ 2) (c ^ 2 * 1) prm) x0 o' = .ok (o1', out', calls') := by rw [mul_one]; exact h'
  have := C118_units env env' id _ c 1 hc one_pos hsame hE hE' hN hN' hp hp' hi (hi1.trans hi) prm x0 o o1 o' o1' out out' calls calls'
    h h'' hreg (.inl fun _ e => by simp) htol
  rw [mul_one] at this
  exact ⟨this.1.symm, this.2⟩

/-- **C118** (units of the variables and of the cost). `x = B y + t` where `B` multiplies squared lengths by `s` (a unit of length,
a rotated frame, another origin), cost residuals multiplied by `c`, parameters scaled accordingly, default retraction. -/
theorem C118_similarity (env env' : Env D D ℝ) (B : (Fin D → ℝ) ≃ₗ[ℝ] (Fin D → ℝ)) (t : Fin D → ℝ) (c s : ℝ) (hc : c ≠ 0) (hs : 0 < s)
    (hB : ∀ e, ∑ i, B e i ^ 2 = s * ∑ i, e i ^ 2)
    (hpr : env'.p = ⟨env.p.costs.map fun r => multiplied c (rewrittenResidual B t r), [], env.p.eqs.map (rewrittenResidual B t)⟩)
    (hR : env.retraction = none) (hR' : env'.retraction = none)
    (hcb : UnitsCallback (c ^ 2) (c ^ 2 * s) env.callback env'.callback)
    (hE : LDLTContract env.E) (hE' : LDLTContract env'.E) (hN : NSContract env.NE) (hN' : NSContract env'.NE)
    (hp : WellPosed env.p D) (hi : env.p.ineq = [])
    (prm : NLSParams ℝ) (y0 : Fin D → ℝ) (o o1 : env.Obj) (o' o1' : env'.Obj) (out out' : NLSOutputs ℝ)
    (calls calls' : List (NLSIteration ℝ)) (h : solve env prm (affineMap B t y0) o = .ok (o1, out, calls))
    (h' : solve env' (paramsInUnits (c ^ 2) (c ^ 2 * s) prm) y0 o' = .ok (o1', out', calls'))
    (hreg : env.p.eqs = [] → ∀ k it a, out.iterations[k]? = some it → After env prm (affineMap B t y0) o k a →
      0 < it.lambda ∨ RegularAt env.p a.vars)
    (htol : env.p.eqs = [] ∨ ∀ t ∈ [NLSTermination.satisfiedAbsoluteTol, .satisfiedFirstOrderTol],
      out.termination ≠ t ∧ out'.termination ≠ t) :
    o1.vars = affineMap B t o1'.vars ∧ out'.termination = out.termination ∧
    out'.iterations.map withoutQP = out.iterations.map (inUnits (c ^ 2) (c ^ 2 * s)) ∧
    calls'.map withoutQP = calls.map (inUnits (c ^ 2) (c ^ 2 * s)) := by
  have hc1 : env'.p.costs = env.p.costs.map fun r => multiplied c (rewrittenResidual B t r) := by rw [hpr]
  have he1 : env'.p.eqs = env.p.eqs.map (rewrittenResidual B t) := by rw [hpr]
  have hp' : WellPosed env'.p D := by
    have := multiplied_wellPosed (rewritten_wellPosed hp B t) c
    rw [List.map_map] at this
    rw [hpr]; exact this
  refine C118_units env env' (affineMap B t) (fun _ => B) c s hc hs ⟨?_, ?_, ?_, hcb⟩ hE hE' hN hN' hp hp' hi (by rw [hpr]) prm y0 o o1 o' o1' out
    out' calls calls' h h' hreg (.inl fun _ e => hB e) htol
  · rw [hc1]
    refine forall2_map fun r _ => ?_
    have hr := rewritten_same B t r
    refine ⟨fun y => ?_, fun y e => ?_⟩
    · have e1 := List.ofFn_injective (hr.value y)
      exact congrArg List.ofFn (funext fun k => (multiplied_value c (rewrittenResidual B t r) y k).trans
        (congrArg (c * ·) (congrFun e1 k)))
    · have e1 := List.ofFn_injective (hr.slope y e)
      exact congrArg List.ofFn (funext fun k => (multiplied_slope c (rewrittenResidual B t r) y e k).trans
        (congrArg (c * ·) (congrFun e1 k)))
  · rw [he1]; exact forall2_map fun r _ => rewritten_same B t r
  · intro y e a x z hx hz
    unfold retract at hx hz
    rw [hR] at hx
    rw [hR'] at hz
    simp only [dite_true, Fin.cast_eq_self, Except.ok.injEq] at hx hz
    subst hx hz
    funext i
    have : (fun i => y i + e i * a) = y + a • e := by funext i; simp [mul_comm]
    show B y i + t i + B e i * a = B (fun i => y i + e i * a) i + t i
    rw [this, map_add, map_smul, Pi.add_apply, Pi.smul_apply, smul_eq_mul]
    ring

end MiniOpt.Props
