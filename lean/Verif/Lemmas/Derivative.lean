import Verif.Spec.DerivativeSpec
import Verif.Props.Linearize
import Mathlib.Analysis.Calculus.Deriv.Abs
import Mathlib.Analysis.Calculus.Deriv.Slope
import Mathlib.Analysis.Calculus.Deriv.Pow
import Mathlib.Analysis.Calculus.Deriv.Add
import Mathlib.Analysis.Calculus.Deriv.Mul
import Mathlib.Analysis.Calculus.Deriv.Comp

/-! Closed forms of the error and of the directional derivatives (exact arithmetic). -/

set_option autoImplicit false

namespace MiniOpt.NLS

open MiniOpt MiniOpt.Spec MiniOpt.Props Set

variable {n D : Nat}

theorem foldl_add_sum {β : Type} (l : List β) (f : β → ℝ) (a : ℝ) :
    l.foldl (fun acc r => acc + f r) a = a + (l.map f).sum := by
  induction l generalizing a with
  | nil => simp
  | cons b l ih => rw [List.foldl_cons, ih, List.map_cons, List.sum_cons]; ring

theorem real_half : (Residual.half : ℝ) = 1 / 2 := by
  unfold Residual.half
  norm_num

theorem costAt_real (p : Problem D ℝ) (x : Fin n → ℝ) :
    costAt p x = (p.costs.map fun r => (1 / 2) * ∑ k, valueAt r x k ^ 2).sum := by
  unfold costAt
  rw [foldl_add_sum, zero_add]
  simp only [real_half, real_squaredNorm]

theorem violationAt_real (p : Problem D ℝ) (x : Fin n → ℝ) :
    violationAt p x = (p.eqs.map fun r => ∑ k, |valueAt r x k|).sum := by
  unfold violationAt
  rw [foldl_add_sum, zero_add]
  simp only [real_lpNorm1]

theorem violationAt_nonneg (p : Problem D ℝ) (x : Fin n → ℝ) : 0 ≤ violationAt p x := by
  rw [violationAt_real]
  refine List.sum_nonneg fun a ha => ?_
  obtain ⟨r, _, rfl⟩ := List.mem_map.mp ha
  exact Finset.sum_nonneg fun k _ => abs_nonneg _

theorem costAt_nonneg (p : Problem D ℝ) (x : Fin n → ℝ) : 0 ≤ costAt p x := by
  rw [costAt_real]
  refine List.sum_nonneg fun a ha => ?_
  obtain ⟨r, _, rfl⟩ := List.mem_map.mp ha
  have : 0 ≤ ∑ k, valueAt r x k ^ 2 := Finset.sum_nonneg fun k _ => sq_nonneg _
  positivity

/-- The result of a linearisation is the one of `C34_gauss_newton`. -/
theorem linearize_facts {p : Problem D ℝ} (hp : WellPosed p n) {x : Fin n → ℝ} {lam : ℝ} {qp0 qp : QPData D p.M p.K ℝ}
    {pre : Errors ℝ} (h : linearize p x lam qp0 = .ok (qp, pre)) :
    pre = errorsAt p x ∧
      (∀ dx : Fin D → ℝ, ∑ i, qp.c i * dx i = (p.costs.map fun r => ∑ k, valueAt r x k * slopeAt r x dx k).sum) ∧
      (∀ dx : Fin D → ℝ, (List.ofFn fun k => (∑ j, qp.A k j * dx j) + qp.b k) = stackedModel x dx p.eqs) ∧
      List.ofFn qp.b = stackedValues x p.eqs ∧
      (∀ i : Fin p.M, qp.con i = ⟨(p.ineq.get i).var, (p.ineq.get i).a, boundAt (p.ineq.get i) x⟩) ∧
      (∀ dx : Fin D → ℝ, (∑ i, ∑ j, dx i * qp.G (max i j) (min i j) * dx j)
        = (p.costs.map fun r => ∑ k, slopeAt r x dx k ^ 2).sum + max lam 0 * ∑ i, dx i ^ 2) := by
  obtain ⟨qp', pre', h', h1, h2, h3, h4, h5, h6, _⟩ := C34_gauss_newton p hp x (linearize_quiet h) lam qp0
  rw [h] at h'
  cases h'
  refine ⟨h1, ?_, h3, h4, h5, h6⟩
  intro dx
  have e := h2 dx
  rw [h6 dx, h1] at e
  have e1 : (errorsAt p x).f = (p.costs.map fun r => (1 / 2) * ∑ k, valueAt r x k ^ 2).sum := costAt_real p x
  rw [e1] at e
  have e2 : (p.costs.map fun r => (1 / 2) * ∑ k, linAt r x dx k ^ 2).sum
      = (p.costs.map fun r => (1 / 2) * ∑ k, valueAt r x k ^ 2).sum
        + (p.costs.map fun r => ∑ k, valueAt r x k * slopeAt r x dx k).sum
        + (1 / 2) * (p.costs.map fun r => ∑ k, slopeAt r x dx k ^ 2).sum := by
    rw [← List.sum_map_mul_left, ← List.sum_map_add, ← List.sum_map_add]
    refine congrArg List.sum (List.map_congr_left fun r _ => ?_)
    rw [Finset.mul_sum, Finset.mul_sum, Finset.mul_sum, ← Finset.sum_add_distrib, ← Finset.sum_add_distrib]
    refine Finset.sum_congr rfl fun k _ => ?_
    unfold linAt
    change 1 / 2 * (valueAt r x k + slopeAt r x dx k) ^ 2 = _
    ring
  rw [e2] at e
  have e3 : ∀ r : Residual ℝ, ∑ k, (∑ j, jacAt r x D k j * dx j) ^ 2 = ∑ k, slopeAt r x dx k ^ 2 := fun r => rfl
  simp only [e3] at e
  linarith

theorem real_sign (x : ℝ) : sign x = if 0 < x then 1 else if x < 0 then -1 else 0 := rfl

theorem costDerivative_real {M K : Nat} (q : QPData D M K ℝ) (dx : Fin D → ℝ) :
    (costDerivative q dx).dF = ∑ i, q.c i * dx i ∧
    (costDerivative q dx).dEquality = ∑ k, sign (q.b k) * ∑ j, q.A k j * dx j := by
  unfold costDerivative
  constructor
  · exact real_dot _ _
  · rw [foldl_add_sum, zero_add, IP.sum_map_finRange]
    simp only [real_dot]

/-- Sums over the rows of the QP are sums over the stacked residuals. -/
theorem sum_rows (g : ℝ → ℝ → ℝ) (x : Fin n → ℝ) (dx : Fin D → ℝ) {K : Nat} (b m : Fin K → ℝ) : ∀ l : List (Residual ℝ),
    List.ofFn b = stackedValues x l → List.ofFn m = stackedModel x dx l →
    ∑ k, g (b k) (m k) = (l.map fun r => ∑ k, g (valueAt r x k) (linAt r x dx k)).sum := by
  intro l hb hm
  have h1 : ∑ k, g (b k) (m k) = (List.zipWith g (List.ofFn b) (List.ofFn m)).sum := by
    rw [← List.sum_ofFn]
    congr 1
    apply List.ext_getElem
    · simp
    · intro i h1 h2; simp
  rw [h1, hb, hm]
  clear h1 hb hm b m K
  induction l with
  | nil => rfl
  | cons r l ih =>
    unfold stackedValues stackedModel
    rw [List.zipWith_append (by simp), List.sum_append, ih, List.map_cons, List.sum_cons]
    congr 1
    rw [← List.sum_ofFn]
    congr 1
    apply List.ext_getElem
    · simp
    · intro i h1 h2; simp

theorem dEquality_sum {p : Problem D ℝ} {x : Fin n → ℝ} {qp : QPData D p.M p.K ℝ}
    (hA : ∀ dx : Fin D → ℝ, (List.ofFn fun k => (∑ j, qp.A k j * dx j) + qp.b k) = stackedModel x dx p.eqs)
    (hb : List.ofFn qp.b = stackedValues x p.eqs) (dx : Fin D → ℝ) :
    (costDerivative qp dx).dEquality
      = (p.eqs.map fun r => ∑ k, sign (valueAt r x k) * slopeAt r x dx k).sum := by
  rw [(costDerivative_real qp dx).2]
  have := sum_rows (fun v m => sign v * (m - v)) x dx qp.b (fun k => (∑ j, qp.A k j * dx j) + qp.b k) p.eqs hb (hA dx)
  simp only [add_sub_cancel_right] at this
  rw [this]
  refine congrArg List.sum (List.map_congr_left fun r _ => Finset.sum_congr rfl fun k _ => ?_)
  unfold linAt slopeAt
  rw [add_sub_cancel_left]

/-! ## Calculus -/

theorem hasDerivAt_list_sum {β : Type} (l : List β) (f : β → ℝ → ℝ) (f' : β → ℝ) (t : ℝ) (s : Set ℝ)
    (h : ∀ r ∈ l, HasDerivWithinAt (f r) (f' r) s t) :
    HasDerivWithinAt (fun u => (l.map fun r => f r u).sum) (l.map f').sum s t := by
  induction l with
  | nil => simpa using hasDerivWithinAt_const t s (0 : ℝ)
  | cons a l ih =>
    simp only [List.map_cons, List.sum_cons]
    exact (h a (by simp)).add (ih fun r hr => h r (by simp [hr]))

theorem abs_deriv_zero {v : ℝ → ℝ} {v' : ℝ} (h : HasDerivAt v v' 0) (h0 : v 0 = 0) :
    HasDerivWithinAt (fun t => |v t|) |v'| (Ici 0) 0 := by
  rw [← hasDerivWithinAt_Ioi_iff_Ici]
  rw [hasDerivWithinAt_iff_tendsto_slope' (by simp)]
  have h1 := h.hasDerivWithinAt (s := Ioi 0)
  rw [hasDerivWithinAt_iff_tendsto_slope' (by simp)] at h1
  refine (h1.abs).congr' ?_
  filter_upwards [self_mem_nhdsWithin] with t ht
  simp only [slope, vsub_eq_sub, sub_zero, smul_eq_mul, h0, abs_zero, abs_mul]
  rw [abs_of_pos (inv_pos.mpr ht)]

theorem abs_deriv_ne {v : ℝ → ℝ} {v' : ℝ} (h : HasDerivAt v v' 0) (h0 : v 0 ≠ 0) :
    HasDerivAt (fun t => |v t|) (sign (v 0) * v') 0 := by
  have := (hasDerivAt_abs h0).comp (0 : ℝ) h
  refine this.congr_deriv ?_
  congr 1
  rw [real_sign]
  rcases lt_or_gt_of_ne h0 with hn | hp
  · rw [sign_neg hn, if_neg (not_lt.mpr hn.le), if_pos hn]; simp
  · rw [sign_pos hp, if_pos hp]; simp

end MiniOpt.NLS
