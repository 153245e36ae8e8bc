import Verif.Props.QPOrder
import Verif.Spec.QPUnitsSpec

/-!
# C120: the iterates of the interior point solver do not depend on the units
-/

set_option autoImplicit false

namespace MiniOpt.Props

open MiniOpt MiniOpt.Spec MiniOpt.IP

variable {N M K : Nat}

/-- The inverse of a matrix whose rows and columns are multiplied by nonzero numbers. -/
theorem scaled_inverse {ι : Type} [Fintype ι] [DecidableEq ι] (H H' Hi : Matrix ι ι ℝ) (hH : H * Hi = 1) (u v : ι → ℝ)
    (hu : ∀ r, u r ≠ 0) (hv : ∀ r, v r ≠ 0) (h : ∀ r c, H' r c = u r * H r c * v c) :
    H' * (Matrix.of fun r c => Hi r c / (v r * u c)) = 1 := by
  ext r c
  rw [Matrix.mul_apply]
  have e1 : ∀ j, H' r j * (Matrix.of fun r c => Hi r c / (v r * u c)) j c = u r / u c * (H r j * Hi j c) := by
    intro j
    rw [h, Matrix.of_apply]
    field_simp [hu c, hv j]
  rw [Finset.sum_congr rfl fun j _ => e1 j, ← Finset.mul_sum, ← Matrix.mul_apply, hH, Matrix.one_apply]
  split_ifs with hrc
  · rw [hrc, div_self (hu c), one_mul]
  · rw [mul_zero]

section units

variable (u : Units N M K) (p : QP N M K ℝ)

/-- Weights of the rows of the reduced system. -/
def rowUnits : Red N K → ℝ
  | .inl i => u.γ * u.d i
  | .inr k => u.e k

/-- Weights of its columns. -/
noncomputable def colUnits : Red N K → ℝ
  | .inl i => u.d i
  | .inr k => u.e k / u.γ

theorem rowUnits_ne (r : Red N K) : rowUnits u r ≠ 0 := by
  rcases r with i | k
  · exact mul_ne_zero u.γ_pos.ne' (u.d_ne i)
  · exact u.e_ne k

theorem colUnits_ne (r : Red N K) : colUnits u r ≠ 0 := by
  rcases r with i | k
  · exact u.d_ne i
  · exact div_ne_zero (u.e_ne k) u.γ_pos.ne'

theorem units_G (i j : Fin N) : Gsym (QPInUnits u p) i j = u.γ * (u.d i * Gsym p i j * u.d j) := by
  unfold Gsym QPInUnits
  rcases le_total i j with h | h
  · simp only [max_eq_right h, min_eq_left h]; ring
  · simp only [max_eq_left h, min_eq_right h]

theorem units_ineqVal (v : Blocks N M K ℝ) (m : Fin M) :
    ineqVal (QPInUnits u p) (pointInUnits u v).x m = u.t m * ineqVal p v.x m := by
  simp only [ineqVal, QPInUnits, pointInUnits]
  have := u.d_ne (p.con m).var
  field_simp

theorem units_eqVal (v : Blocks N M K ℝ) (k : Fin K) :
    eqVal (QPInUnits u p) (pointInUnits u v).x k = u.e k * eqVal p v.x k := by
  simp only [eqVal, QPInUnits, pointInUnits]
  rw [mul_add, Finset.mul_sum]
  congr 1
  refine Finset.sum_congr rfl fun j _ => ?_
  have := u.d_ne j
  field_simp

theorem units_grad0 (v : Blocks N M K ℝ) (i : Fin N) :
    (∑ j, Gsym (QPInUnits u p) i j * (pointInUnits u v).x j) + (QPInUnits u p).c i
        - (∑ k, (QPInUnits u p).A k i * (pointInUnits u v).y k)
      = u.γ * u.d i * ((∑ j, Gsym p i j * v.x j) + p.c i - ∑ k, p.A k i * v.y k) := by
  have e1 : ∑ j, Gsym (QPInUnits u p) i j * (pointInUnits u v).x j = u.γ * u.d i * ∑ j, Gsym p i j * v.x j := by
    rw [Finset.mul_sum]
    refine Finset.sum_congr rfl fun j _ => ?_
    rw [units_G]
    simp only [pointInUnits]
    have := u.d_ne j
    field_simp
  have e2 : ∑ k, (QPInUnits u p).A k i * (pointInUnits u v).y k = u.γ * u.d i * ∑ k, p.A k i * v.y k := by
    rw [Finset.mul_sum]
    refine Finset.sum_congr rfl fun k _ => ?_
    simp only [QPInUnits, pointInUnits]
    have := u.e_ne k
    field_simp
  rw [e1, e2]
  simp only [QPInUnits]
  ring

theorem units_grad (v : Blocks N M K ℝ) (i : Fin N) :
    gradLagrangian (QPInUnits u p) (pointInUnits u v) i = u.γ * u.d i * gradLagrangian p v i := by
  unfold gradLagrangian
  rw [units_grad0, mul_sub _ (_ - _) (Finset.sum _ _)]
  congr 1
  rw [Finset.mul_sum]
  refine Finset.sum_congr rfl fun m _ => ?_
  by_cases h : (p.con m).var = i
  · rw [if_pos (show ((QPInUnits u p).con m).var = i from h), if_pos h]
    simp only [QPInUnits, pointInUnits, h]
    have := (u.t_pos m).ne'
    field_simp
  · rw [if_neg (show ¬ ((QPInUnits u p).con m).var = i from h), if_neg h, mul_zero]

theorem units_reduced (v : Blocks N M K ℝ) (r c : Red N K) :
    reducedMatrix (QPInUnits u p) (pointInUnits u v) r c = rowUnits u r * reducedMatrix p v r c * colUnits u c := by
  rcases r with i | k <;> rcases c with j | l
  · simp only [reducedMatrix, rowUnits, colUnits, units_G]
    by_cases hij : i = j
    · subst hij
      simp only [if_true]
      have : (∑ m, if ((QPInUnits u p).con m).var = i then
          ((QPInUnits u p).con m).a * ((pointInUnits u v).z m / (pointInUnits u v).s m) * ((QPInUnits u p).con m).a else 0)
          = u.γ * u.d i * u.d i * ∑ m, if (p.con m).var = i then (p.con m).a * (v.z m / v.s m) * (p.con m).a else 0 := by
        rw [Finset.mul_sum]
        refine Finset.sum_congr rfl fun m _ => ?_
        by_cases h : (p.con m).var = i
        · rw [if_pos (show ((QPInUnits u p).con m).var = i from h), if_pos h]
          simp only [QPInUnits, pointInUnits, h]
          have := (u.t_pos m).ne'
          field_simp
        · rw [if_neg (show ¬ ((QPInUnits u p).con m).var = i from h), if_neg h, mul_zero]
      rw [this]; ring
    · simp only [hij, if_false]; ring
  · simp only [reducedMatrix, rowUnits, colUnits, QPInUnits]
    have := u.γ_pos.ne'
    field_simp
  · simp only [reducedMatrix, rowUnits, colUnits, QPInUnits]; ring
  · simp only [reducedMatrix]; ring

theorem units_kkt (r c : Red N K) : kktMatrix (QPInUnits u p) r c = rowUnits u r * kktMatrix p r c * colUnits u c := by
  rcases r with i | k <;> rcases c with j | l
  · simp only [kktMatrix, rowUnits, colUnits, units_G]; ring
  · simp only [kktMatrix, rowUnits, colUnits, QPInUnits]
    have := u.γ_pos.ne'
    field_simp
  · simp only [kktMatrix, rowUnits, colUnits, QPInUnits]; ring
  · simp only [kktMatrix]; ring

/-- Residuals in the new units. -/
def residualInUnits (r : Blocks N M K ℝ) : Blocks N M K ℝ :=
  ⟨fun i => u.γ * u.d i * r.x i, fun m => u.γ * r.s m, fun k => u.e k * r.y k, fun m => u.t m * r.z m⟩

/-- Objects that hold the same values in the two units. -/
structure URel (st st' : IPState N M K ℝ) : Prop where
  v : st'.v = pointInUnits u st.v
  r : st'.r = residualInUnits u st.r
  wf : WF st
  wf' : WF st'

/-- The same after the factorisation. -/
structure URelH (st st' : IPState N M K ℝ) : Prop extends URel u st st' where
  Hinv : st'.Hinv = fun r c => st.Hinv r c / (colUnits u r * rowUnits u c)
  delta : st'.delta = pointInUnits u st.delta
  deltaAff : st'.deltaAff = pointInUnits u st.deltaAff

variable {u p}

theorem evaluateKKT_units {st st' : IPState N M K ℝ} (hv : st'.v = pointInUnits u st.v)
    (hw : WF st) (hw' : WF st') : URel u (evaluateKKT p true st) (evaluateKKT (QPInUnits u p) true st') := by
  refine ⟨?_, ?_, WF_evaluateKKT hw, WF_evaluateKKT hw'⟩
  · rw [evaluateKKT_v, evaluateKKT_v, hv]
  · have e1 : (evaluateKKT (QPInUnits u p) true st').r = ⟨(evaluateKKT (QPInUnits u p) true st').r.x,
      (evaluateKKT (QPInUnits u p) true st').r.s, (evaluateKKT (QPInUnits u p) true st').r.y,
      (evaluateKKT (QPInUnits u p) true st').r.z⟩ := rfl
    rw [e1]
    unfold residualInUnits
    congr 1
    · funext i; rw [evaluateKKT_rx, evaluateKKT_rx, hv, units_grad]
    · funext i
      rw [evaluateKKT_rs, evaluateKKT_rs, hv]
      simp only [pointInUnits]
      have := (u.t_pos i).ne'
      field_simp
    · funext i; rw [evaluateKKT_ry, evaluateKKT_ry, hv, units_eqVal]
    · funext i
      rw [evaluateKKT_rz, evaluateKKT_rz, hv, units_ineqVal]
      simp only [pointInUnits]
      ring

theorem zero_units : (Blocks.zero : Blocks N M K ℝ) = pointInUnits u Blocks.zero := by
  unfold Blocks.zero pointInUnits
  simp

theorem computeLDLT_units {E E' : Eigen N K ℝ} (hE : LDLTContract E) (hE' : LDLTContract E') {st st' s1 s1' : IPState N M K ℝ}
    (hr : URel u st st') (hsym : ∀ r c, reducedMatrix p st.v r c = reducedMatrix p st.v c r)
    (hdet : IsUnit (reducedMatrix p st.v).det)
    (h : computeLDLT E p true st = .ok s1) (h' : computeLDLT E' (QPInUnits u p) true st' = .ok s1') : URelH u s1 s1' := by
  obtain ⟨-, h2, h3⟩ := computeLDLT_ok h
  obtain ⟨-, h2', h3'⟩ := computeLDLT_ok h'
  rw [symRed_fillH p st hr.wf] at h2
  rw [symRed_fillH _ st' hr.wf', hr.v] at h2'
  have hmul := hE _ _ hsym hdet h2
  have hW := scaled_inverse _ _ _ hmul (rowUnits u) (colUnits u) (rowUnits_ne u) (colUnits_ne u) (units_reduced u p st.v)
  have hmul' := hE' _ _ (reducedMatrix_symm _ _) (Matrix.isUnit_det_of_right_inverse hW) h2'
  have hinv : (s1'.Hinv : Matrix (Red N K) (Red N K) ℝ) = Matrix.of fun r c => s1.Hinv r c / (colUnits u r * rowUnits u c) :=
    (Matrix.inv_eq_right_inv hmul').symm.trans (Matrix.inv_eq_right_inv hW)
  rw [h3, h3']
  refine ⟨⟨hr.v, hr.r, ?_, ?_⟩, ?_, zero_units, zero_units⟩
  · intro k l; exact (fillH_br p true st k l).trans (hr.wf k l)
  · intro k l; exact (fillH_br _ true st' k l).trans (hr.wf' k l)
  · exact hinv

theorem applyInvX_units {st st' : IPState N M K ℝ} {rx rx' : Fin N → ℝ}
    (hH : st'.Hinv = fun r c => st.Hinv r c / (colUnits u r * rowUnits u c)) (hy : st'.r.y = fun k => u.e k * st.r.y k)
    (hx : rx' = fun i => u.γ * u.d i * rx i) (i : Fin N) : applyInvX st' rx' i = applyInvX st rx i / u.d i := by
  subst hx
  unfold applyInvX
  have hγ := u.γ_pos.ne'
  have e1 : dot (fun j => st'.Hinv (.inl i) (.inl j)) (fun j => - (u.γ * u.d j * rx j))
      = dot (fun j => st.Hinv (.inl i) (.inl j)) (fun j => - rx j) / u.d i := by
    rw [real_dot, real_dot, hH, div_eq_mul_inv, Finset.sum_mul]
    refine Finset.sum_congr rfl fun j _ => ?_
    have := u.d_ne j
    have := u.d_ne i
    simp only [rowUnits, colUnits]
    field_simp
  have e2 : dot (fun k => st'.Hinv (.inl i) (.inr k)) (fun k => - st'.r.y k)
      = dot (fun k => st.Hinv (.inl i) (.inr k)) (fun k => - st.r.y k) / u.d i := by
    rw [real_dot, real_dot, hH, hy, div_eq_mul_inv, Finset.sum_mul]
    refine Finset.sum_congr rfl fun k _ => ?_
    have := u.e_ne k
    have := u.d_ne i
    simp only [rowUnits, colUnits]
    field_simp
  by_cases hK : 0 < K
  · simp only [hK, if_true, e1, e2]; ring
  · simp only [hK, if_false, e1]

theorem applyInvY_units {st st' : IPState N M K ℝ} {rx rx' : Fin N → ℝ}
    (hH : st'.Hinv = fun r c => st.Hinv r c / (colUnits u r * rowUnits u c)) (hy : st'.r.y = fun k => u.e k * st.r.y k)
    (hx : rx' = fun i => u.γ * u.d i * rx i) (k : Fin K) : applyInvY st' rx' k = u.γ * applyInvY st rx k / u.e k := by
  subst hx
  have hK : 0 < K := k.pos
  have hγ := u.γ_pos.ne'
  unfold applyInvY
  simp only [hK, if_true]
  have e1 : dot (fun j => st'.Hinv (.inr k) (.inl j)) (fun j => u.γ * u.d j * rx j)
      = u.γ / u.e k * dot (fun j => st.Hinv (.inr k) (.inl j)) rx := by
    rw [real_dot, real_dot, hH, Finset.mul_sum]
    refine Finset.sum_congr rfl fun j _ => ?_
    have := u.d_ne j
    have := u.e_ne k
    simp only [rowUnits, colUnits]
    field_simp
  have e2 : dot (fun l => st'.Hinv (.inr k) (.inr l)) st'.r.y
      = u.γ / u.e k * dot (fun l => st.Hinv (.inr k) (.inr l)) st.r.y := by
    rw [real_dot, real_dot, hH, hy, Finset.mul_sum]
    refine Finset.sum_congr rfl fun l _ => ?_
    have := u.e_ne l
    have := u.e_ne k
    simp only [rowUnits, colUnits]
    field_simp
  rw [e1, e2]; ring

theorem dualAug_units (mu : ℝ) {st st' : IPState N M K ℝ} (hr : URelH u st st') (i : Fin N) :
    dualAug (QPInUnits u p) (u.γ * mu) st' i = u.γ * u.d i * dualAug p mu st i := by
  rw [dualAug_eq, dualAug_eq, hr.v, hr.r, hr.deltaAff, mul_add (u.γ * u.d i), Finset.mul_sum]
  congr 1
  refine Finset.sum_congr rfl fun m _ => ?_
  by_cases h : (p.con m).var = i
  · rw [if_pos (show ((QPInUnits u p).con m).var = i from h), if_pos h]
    simp only [QPInUnits, pointInUnits, residualInUnits, h]
    have ht := (u.t_pos m).ne'
    by_cases hs : st.v.s m = 0
    · rw [hs]; simp
    · field_simp
  · rw [if_neg (show ¬ ((QPInUnits u p).con m).var = i from h), if_neg h, mul_zero]

theorem solveForUpdate_units (mu : ℝ) {st st' : IPState N M K ℝ} (hr : URelH u st st') :
    URelH u (solveForUpdate p mu st) (solveForUpdate (QPInUnits u p) (u.γ * mu) st') := by
  have hy : st'.r.y = fun k => u.e k * st.r.y k := by rw [hr.r]; rfl
  have hx : dualAug (QPInUnits u p) (u.γ * mu) st' = fun i => u.γ * u.d i * dualAug p mu st i := funext (dualAug_units mu hr)
  have hdx := applyInvX_units hr.Hinv hy hx
  refine ⟨⟨hr.v, hr.r, hr.wf, hr.wf'⟩, hr.Hinv, ?_, hr.deltaAff⟩
  unfold solveForUpdate
  simp only
  have hds : ∀ m, ((QPInUnits u p).con m).a * applyInvX st' (dualAug (QPInUnits u p) (u.γ * mu) st') ((QPInUnits u p).con m).var + st'.r.z m =
      u.t m * ((p.con m).a * applyInvX st (dualAug p mu st) (p.con m).var + st.r.z m) := by
    intro m
    rw [hdx, hr.r]
    simp only [QPInUnits, residualInUnits]
    have := u.d_ne (p.con m).var
    field_simp
  unfold pointInUnits
  congr 1
  · funext i; exact hdx i
  · funext m; exact hds m
  · funext k; exact applyInvY_units hr.Hinv hy hx k
  · funext m
    rw [hds, hr.v, hr.r, hr.deltaAff]
    simp only [pointInUnits, residualInUnits]
    have ht := (u.t_pos m).ne'
    by_cases hs : st.v.s m = 0
    · rw [hs]; simp
    · field_simp

theorem alphaLoop_units (w : Fin M → ℝ) (hw : ∀ m, 0 < w m) (val d : Fin M → ℝ) (tau : ℝ) :
    alphaLoop (fun m => w m * val m) (fun m => w m * d m) tau = alphaLoop val d tau := by
  unfold alphaLoop
  have hstep : ∀ (a : ℝ) (m : Fin M),
      (if w m * val m + w m * d m ≤ 0 ∧ 0 < Scalar.abs (w m * d m) then
        (if -tau * (w m * val m) / (w m * d m) < a then -tau * (w m * val m) / (w m * d m) else a) else a)
      = if val m + d m ≤ 0 ∧ 0 < Scalar.abs (d m) then (if -tau * val m / d m < a then -tau * val m / d m else a) else a := by
    intro a m
    have h1 : w m * val m + w m * d m ≤ 0 ↔ val m + d m ≤ 0 := by
      rw [← mul_add]
      exact ⟨fun h => by by_contra hc; exact absurd (mul_pos (hw m) (not_le.mp hc)) (not_lt.mpr h),
        fun h => mul_nonpos_of_nonneg_of_nonpos (hw m).le h⟩
    have e0 : ∀ v : ℝ, (Scalar.abs v : ℝ) = |v| := fun v => rfl
    have h2 : 0 < (Scalar.abs (w m * d m) : ℝ) ↔ 0 < (Scalar.abs (d m) : ℝ) := by
      rw [e0, e0, abs_pos, abs_pos]
      simp [(hw m).ne']
    have h3 : -tau * (w m * val m) / (w m * d m) = -tau * val m / d m := by
      rw [show -tau * (w m * val m) = w m * (-tau * val m) by ring]
      exact mul_div_mul_left _ _ (hw m).ne'
    rw [h3]
    simp only [h1, h2]
  have key : ∀ (l : List (Fin M)) (a : ℝ),
      l.foldl (fun alpha i => if w i * val i + w i * d i ≤ 0 ∧ 0 < Scalar.abs (w i * d i) then
        (if -tau * (w i * val i) / (w i * d i) < alpha then -tau * (w i * val i) / (w i * d i) else alpha) else alpha) a
      = l.foldl (fun alpha i => if val i + d i ≤ 0 ∧ 0 < Scalar.abs (d i) then
        (if -tau * val i / d i < alpha then -tau * val i / d i else alpha) else alpha) a := by
    intro l
    induction l with
    | nil => intro a; rfl
    | cons m l ih => intro a; rw [List.foldl_cons, List.foldl_cons, hstep, ih]
  exact key _ _

theorem computeAlpha_units {st st' : IPState N M K ℝ} (hr : URelH u st st') (tau : ℝ) :
    computeAlpha st' tau = computeAlpha st tau := by
  unfold computeAlpha
  rw [hr.v, hr.delta]
  have e1 := alphaLoop_units u.t u.t_pos st.v.s st.delta.s tau
  have e2 := alphaLoop_units (fun m => u.γ / u.t m) (fun m => div_pos u.γ_pos (u.t_pos m)) st.v.z st.delta.z tau
  have e3 : ∀ v : Blocks N M K ℝ, (pointInUnits u v).z = fun m => u.γ / u.t m * v.z m := by
    intro v; funext m; simp only [pointInUnits]; ring
  rw [e3, e3, e2, show (pointInUnits u st.v).s = fun m => u.t m * st.v.s m from rfl,
    show (pointInUnits u st.delta).s = fun m => u.t m * st.delta.s m from rfl, e1]

theorem dot_units (a b : Blocks N M K ℝ) :
    dot (pointInUnits u a).s (pointInUnits u b).z = u.γ * dot a.s b.z := by
  rw [real_dot, real_dot, Finset.mul_sum]
  refine Finset.sum_congr rfl fun m _ => ?_
  simp only [pointInUnits]
  have := (u.t_pos m).ne'
  field_simp

theorem dot_comm' {n : Nat} (a b : Fin n → ℝ) : dot a b = dot b a := by
  rw [real_dot, real_dot]
  exact Finset.sum_congr rfl fun m _ => mul_comm _ _

theorem computeMu_units {st st' : IPState N M K ℝ} (hv : st'.v = pointInUnits u st.v) :
    computeMu st' = u.γ * computeMu st := by
  unfold computeMu
  rw [hv, dot_units]
  split_ifs
  · rw [mul_div_assoc]
  · rw [mul_zero]

theorem muAffine_units {st st' : IPState N M K ℝ} (mu : ℝ) (ap : AlphaValues ℝ) (hr : URelH u st st') :
    muAffine (u.γ * mu) ap st' = u.γ * muAffine mu ap st := by
  unfold muAffine
  rw [hr.v, hr.deltaAff]
  simp only
  rw [dot_comm' (pointInUnits u st.v).z, dot_units, dot_units, dot_units, dot_comm' st.v.z, real_cmax, real_cmax,
    mul_max_of_nonneg _ _ u.γ_pos.le, mul_zero]
  congr 1
  ring

theorem direction_units (mu : ℝ) (s : BarrierStrategy) {st st' : IPState N M K ℝ}
    (hr : URelH u st st') : URelH u (direction p mu s st).1 (direction (QPInUnits u p) (u.γ * mu) s st').1 ∧
      (direction (QPInUnits u p) (u.γ * mu) s st').2.1 = u.γ * (direction p mu s st).2.1 ∧
      (direction (QPInUnits u p) (u.γ * mu) s st').2.2 = (direction p mu s st).2.2.map fun q => (q.1, u.γ * q.2) := by
  have h0 := solveForUpdate_units (p := p) 0 hr
  rw [mul_zero] at h0
  unfold direction
  by_cases hM : 0 < M
  · rw [if_neg (not_not.mpr hM), if_neg (not_not.mpr hM)]
    by_cases hs : s ≠ .predictorCorrector
    · rw [if_pos hs, if_pos hs]
      exact ⟨solveForUpdate_units mu hr, rfl, rfl⟩
    · rw [if_neg hs, if_neg hs]
      dsimp only
      have h2 : URelH u ({ solveForUpdate p 0 st with deltaAff := (solveForUpdate p 0 st).delta } : IPState N M K ℝ)
          { solveForUpdate (QPInUnits u p) 0 st' with deltaAff := (solveForUpdate (QPInUnits u p) 0 st').delta } :=
        ⟨⟨h0.v, h0.r, h0.wf, h0.wf'⟩, h0.Hinv, h0.delta, h0.delta⟩
      rw [computeAlpha_units h0, muAffine_units _ _ h2, mul_div_mul_left _ _ u.γ_pos.ne', mul_left_comm _ u.γ]
      exact ⟨solveForUpdate_units _ h2, rfl, rfl⟩
  · rw [if_pos hM, if_pos hM]
    exact ⟨h0, rfl, rfl⟩

theorem iterate_units {E E' : Eigen N K ℝ} (hE : LDLTContract E) (hE' : LDLTContract E') (hR : Regular p) (mu : ℝ)
    (s : BarrierStrategy) {st st' : IPState N M K ℝ} (hr : URel u st st') (hs : ∀ m, 0 < st.v.s m) (hz : ∀ m, 0 < st.v.z m)
    {a a' : IPState N M K ℝ × IPIterationOutputs ℝ} (h : iterate E p mu s st = .ok a)
    (h' : iterate E' (QPInUnits u p) (u.γ * mu) s st' = .ok a') :
    a'.1.v = pointInUnits u a.1.v ∧ WF a.1 ∧ WF a'.1 ∧ a'.2 = outputsInUnits u.γ a.2 := by
  have hk := evaluateKKT_units (p := p) hr.v hr.wf hr.wf'
  unfold iterate at h h'
  cases h1 : computeLDLT E p true (evaluateKKT p true st) with
  | error e => rw [h1] at h; cases h
  | ok s1 =>
    cases h1' : computeLDLT E' (QPInUnits u p) true (evaluateKKT (QPInUnits u p) true st') with
    | error e => rw [h1'] at h'; cases h'
    | ok s1' =>
      rw [h1] at h
      rw [h1'] at h'
      dsimp only at h h'
      cases h
      cases h'
      have hH := computeLDLT_units hE hE' hk (reducedMatrix_symm _ _)
        (by rw [evaluateKKT_v]; exact reducedMatrix_nonsing p st.v hR hs hz) h1 h1'
      obtain ⟨h2, h3, h4⟩ := direction_units (p := p) mu s hH
      have hal : (if 0 < M then computeAlpha (direction (QPInUnits u p) (u.γ * mu) s s1').1 tauStep else (⟨1, 1⟩ : AlphaValues ℝ))
          = if 0 < M then computeAlpha (direction p mu s s1).1 tauStep else ⟨1, 1⟩ := by
        rw [computeAlpha_units h2]
      refine ⟨?_, h2.wf, h2.wf', ?_⟩
      · rw [hal]
        generalize (if 0 < M then computeAlpha (direction p mu s s1).1 tauStep else (⟨1, 1⟩ : AlphaValues ℝ)) = al
        unfold applyStep
        simp only
        rw [h2.v, h2.delta]
        unfold pointInUnits
        simp only
        congr 1
        · funext i; ring
        · funext i; ring
        · funext i; ring
        · funext i; ring
      · rw [hal, h3, h4]
        unfold outputsInUnits
        simp only
        congr 1
        · cases (direction p mu s s1).2.2 <;> rfl
        · cases (direction p mu s s1).2.2 <;> rfl

/-- The log only grows. -/
theorem solveLoop_grows (E : Eigen N K ℝ) (p : QP N M K ℝ) (prm : QPParams ℝ) : ∀ (n : Nat) (st : IPState N M K ℝ) (mu : ℝ)
    (log : List (QPIteration ℝ)) (r : IPState N M K ℝ × QPOutputs ℝ), solveLoop E p prm n st mu log = .ok r →
    ∃ l, r.2.iterations = log ++ l ∧ (l = [] → r.1 = st) := by
  intro n
  induction n with
  | zero => intro st mu log r h; cases h; exact ⟨[], by simp, fun _ => rfl⟩
  | succ n ih =>
    intro st mu log r h
    simp only [solveLoop] at h
    cases hi : iterate E p mu prm.barrierStrategy st with
    | error e => rw [hi] at h; cases h
    | ok q =>
      obtain ⟨s1, o⟩ := q
      rw [hi] at h
      dsimp only at h
      split_ifs at h with ht
      · cases h
        exact ⟨_, rfl, fun h => by cases h⟩
      · obtain ⟨l, hl, -⟩ := ih _ _ _ _ h
        refine ⟨_ :: l, by rw [hl, List.append_assoc]; rfl, fun h => by cases h⟩

/-- What the two runs have in common. -/
def SameRun (u : Units N M K) (r r' : IPState N M K ℝ × QPOutputs ℝ) : Prop :=
  (∀ (k : Nat) (it it' : QPIteration ℝ), r.2.iterations[k]? = some it → r'.2.iterations[k]? = some it' → it'.ip = outputsInUnits u.γ it.ip) ∧
  (r'.2.iterations.length = r.2.iterations.length → r'.1.v = pointInUnits u r.1.v)

theorem sameRun_of {r r' : IPState N M K ℝ × QPOutputs ℝ} {st st' : IPState N M K ℝ} {log log' l l' : List (QPIteration ℝ)}
    (hv : st'.v = pointInUnits u st.v) (hlen : log'.length = log.length)
    (hlog : ∀ (k : Nat) (it it' : QPIteration ℝ), log[k]? = some it → log'[k]? = some it' → it'.ip = outputsInUnits u.γ it.ip)
    (e : r.2.iterations = log ++ l) (e' : r'.2.iterations = log' ++ l') (hl : l = [] → r.1.v = st.v) (hl' : l' = [] → r'.1.v = st'.v)
    (h : l = [] ∨ l' = []) : SameRun u r r' := by
  refine ⟨fun k it it' hk hk' => ?_, fun hL => ?_⟩
  · rw [e] at hk
    rw [e'] at hk'
    have hlt : k < log.length := by
      rcases h with h | h
      · rw [h, List.append_nil] at hk
        exact (List.getElem?_eq_some_iff.mp hk).1
      · rw [h, List.append_nil] at hk'
        rw [← hlen]
        exact (List.getElem?_eq_some_iff.mp hk').1
    rw [List.getElem?_append_left hlt] at hk
    rw [List.getElem?_append_left (by omega)] at hk'
    exact hlog k it it' hk hk'
  · rw [e, e', List.length_append, List.length_append, hlen] at hL
    have h1 : l = [] := by
      rcases h with h | h
      · exact h
      · rw [h] at hL; exact List.length_eq_zero_iff.mp (by rw [List.length_nil] at hL; omega)
    have h2 : l' = [] := by
      rw [h1] at hL
      exact List.length_eq_zero_iff.mp (by rw [List.length_nil] at hL; omega)
    rw [hl h1, hl' h2, hv]

theorem solveLoop_units {E E' : Eigen N K ℝ} (hE : LDLTContract E) (hE' : LDLTContract E') (hR : Regular p)
    {prm prm' : QPParams ℝ} (hsame : SameMethod u.γ prm prm') :
    ∀ (n n' : Nat) (st st' : IPState N M K ℝ) (mu : ℝ) (log log' : List (QPIteration ℝ)) (r r' : IPState N M K ℝ × QPOutputs ℝ),
    URel u st st' → (∀ m, 0 < st.v.s m) → (∀ m, 0 < st.v.z m) → log'.length = log.length →
    (∀ (k : Nat) it it', log[k]? = some it → log'[k]? = some it' → it'.ip = outputsInUnits u.γ it.ip) →
    solveLoop E p prm n st mu log = .ok r → solveLoop E' (QPInUnits u p) prm' n' st' (u.γ * mu) log' = .ok r' → SameRun u r r' := by
  intro n
  induction n with
  | zero =>
    intro n' st st' mu log log' r r' hr hs hz hlen hlog h h'
    obtain ⟨l, hl, hl2⟩ := solveLoop_grows _ _ _ _ _ _ _ _ h
    obtain ⟨l', hl', hl2'⟩ := solveLoop_grows _ _ _ _ _ _ _ _ h'
    refine sameRun_of hr.v hlen hlog hl hl' (fun e => by rw [hl2 e]) (fun e => by rw [hl2' e]) (.inl ?_)
    cases h
    exact List.append_right_eq_self.mp hl.symm
  | succ n ih =>
    intro n' st st' mu log log' r r' hr hs hz hlen hlog h h'
    cases n' with
    | zero =>
      obtain ⟨l, hl, hl2⟩ := solveLoop_grows _ _ _ _ _ _ _ _ h
      obtain ⟨l', hl', hl2'⟩ := solveLoop_grows _ _ _ _ _ _ _ _ h'
      refine sameRun_of hr.v hlen hlog hl hl' (fun e => by rw [hl2 e]) (fun e => by rw [hl2' e]) (.inr ?_)
      cases h'
      exact List.append_right_eq_self.mp hl'.symm
    | succ n' =>
      simp only [solveLoop] at h h'
      rw [hsame.strategy] at h'
      cases hi : iterate E p mu prm.barrierStrategy st with
      | error e => rw [hi] at h; cases h
      | ok q =>
        cases hi' : iterate E' (QPInUnits u p) (u.γ * mu) prm.barrierStrategy st' with
        | error e => rw [hi'] at h'; cases h'
        | ok q' =>
          obtain ⟨s1, o⟩ := q
          obtain ⟨s1', o'⟩ := q'
          obtain ⟨hv, hw, hw', ho⟩ := iterate_units hE hE' hR mu prm.barrierStrategy hr hs hz hi hi'
          have hpos := iterate_pos hi hz
          dsimp only at hv hw hw' ho
          rw [hi] at h
          rw [hi'] at h'
          dsimp only at h h'
          have h2 := evaluateKKT_units (p := p) hv hw hw'
          have hmu : ∀ k1 k2, nextMu prm' k1 (evaluateKKT (QPInUnits u p) true s1') (u.γ * mu)
              = u.γ * nextMu prm k2 (evaluateKKT p true s1) mu := by
            intro k1 k2
            unfold nextMu
            rw [if_pos (Or.inr hsame.always'), if_pos (Or.inr hsame.always), hsame.strategy, hsame.sigma, computeMu_units h2.v]
            split_ifs <;> ring
          generalize hL : log ++ [(⟨computeErrors mu st, computeErrors mu (evaluateKKT p true s1), o⟩ : QPIteration ℝ)] = L at h
          generalize hL' : log' ++ [(⟨computeErrors (u.γ * mu) st', computeErrors (u.γ * mu) (evaluateKKT (QPInUnits u p) true s1'), o'⟩ :
            QPIteration ℝ)] = L' at h'
          have hlen2 : L'.length = L.length := by rw [← hL, ← hL']; simp [hlen]
          have hlog2 : ∀ (k : Nat) it it', L[k]? = some it → L'[k]? = some it' → it'.ip = outputsInUnits u.γ it.ip := by
            intro k it it' hk hk'
            rw [← hL] at hk
            rw [← hL'] at hk'
            rcases Nat.lt_trichotomy k log.length with hlt | heq | hgt
            · rw [List.getElem?_append_left hlt] at hk
              rw [List.getElem?_append_left (by omega)] at hk'
              exact hlog k it it' hk hk'
            · rw [List.getElem?_append_right (by omega), show k - log.length = 0 by omega] at hk
              rw [List.getElem?_append_right (by omega), show k - log'.length = 0 by omega] at hk'
              simp only [List.getElem?_cons_zero, Option.some.injEq] at hk hk'
              rw [← hk, ← hk']
              exact ho
            · rw [List.getElem?_eq_none (by simp; omega)] at hk
              cases hk
          have stop : ∀ (l l' : List (QPIteration ℝ)), r.2.iterations = L ++ l → r'.2.iterations = L' ++ l' →
              (l = [] → r.1 = evaluateKKT p true s1) → (l' = [] → r'.1 = evaluateKKT (QPInUnits u p) true s1') →
              (l = [] ∨ l' = []) → SameRun u r r' := fun l l' e1 e2 e3 e4 e5 =>
            sameRun_of h2.v hlen2 hlog2 e1 e2 (fun e => by rw [e3 e]) (fun e => by rw [e4 e]) e5
          split_ifs at h with ht
          · cases h
            split_ifs at h' with ht'
            · cases h'
              exact stop [] [] (List.append_nil _).symm (List.append_nil _).symm (fun _ => rfl) (fun _ => rfl) (.inl rfl)
            · obtain ⟨l', hl', hl2'⟩ := solveLoop_grows _ _ _ _ _ _ _ _ h'
              exact stop [] l' (List.append_nil _).symm hl' (fun _ => rfl) hl2' (.inl rfl)
          · split_ifs at h' with ht'
            · cases h'
              obtain ⟨l, hl, hl2⟩ := solveLoop_grows _ _ _ _ _ _ _ _ h
              exact stop l [] hl (List.append_nil _).symm hl2 (fun _ => rfl) (.inr rfl)
            · rw [hmu _ (computeErrors mu (evaluateKKT p true s1))] at h'
              exact ih _ _ _ _ _ _ _ _ h2 (by rw [evaluateKKT_v]; exact hpos.1) (by rw [evaluateKKT_v]; exact hpos.2) hlen2 hlog2 h h'

theorem clampX_units {c : Con N ℝ} (t d x v v' : ℝ) (ht : 0 < t) (hd : d ≠ 0)
    (h : (c.toIneq).clampX x = .ok v) (h' : (⟨c.var.val, t * (c.a * d), t * c.b⟩ : Ineq ℝ).clampX (x / d) = .ok v') : v' = v / d := by
  unfold Ineq.clampX at h h'
  have e1 : c.toIneq.a = c.a := rfl
  have e2 : c.toIneq.b = c.b := rfl
  rw [e1, e2] at h
  dsimp only at h'
  have hfe : ∀ a : ℝ, (Scalar.feq a 0 : Prop) ↔ a = 0 := fun a => Iff.rfl
  by_cases ha : c.a = 0
  · rw [if_pos ((hfe _).mpr ha)] at h; cases h
  have ha' : t * (c.a * d) ≠ 0 := mul_ne_zero ht.ne' (mul_ne_zero ha hd)
  rw [if_neg (fun hc => ha ((hfe _).mp hc))] at h
  rw [if_neg (fun hc => ha' ((hfe _).mp hc))] at h'
  have q1 : t * c.b / -(t * (c.a * d)) = c.b / -c.a / d := by field_simp
  have q2 : -(t * c.b) / (t * (c.a * d)) = -c.b / c.a / d := by field_simp
  have q3 : -c.b / c.a = c.b / -c.a := by rw [neg_div, div_neg]
  rw [q1, q2] at h'
  rw [q3] at h h'
  rcases lt_or_gt_of_ne hd with hd' | hd'
  · have hmn : ∀ a b : ℝ, max (a / d) (b / d) = min a b / d := by
      intro a b
      rcases le_total a b with hab | hab
      · rw [min_eq_left hab, max_eq_left (div_le_div_of_nonpos_of_le hd'.le hab)]
      · rw [min_eq_right hab, max_eq_right (div_le_div_of_nonpos_of_le hd'.le hab)]
    have hmx : ∀ a b : ℝ, min (a / d) (b / d) = max a b / d := by
      intro a b
      rcases le_total a b with hab | hab
      · rw [max_eq_right hab, min_eq_right (div_le_div_of_nonpos_of_le hd'.le hab)]
      · rw [max_eq_left hab, min_eq_left (div_le_div_of_nonpos_of_le hd'.le hab)]
    by_cases hn : c.a < 0
    · rw [if_pos hn, real_cmin] at h
      rw [if_neg (not_lt.mpr (mul_pos ht (mul_pos_of_neg_of_neg hn hd')).le), real_cmax, hmn] at h'
      cases h; cases h'; rfl
    · rw [if_neg hn, real_cmax] at h
      have hp : 0 < c.a := lt_of_le_of_ne (not_lt.mp hn) (Ne.symm ha)
      rw [if_pos (mul_neg_of_pos_of_neg ht (mul_neg_of_pos_of_neg hp hd')), real_cmin, hmx] at h'
      cases h; cases h'; rfl
  · have hmn : ∀ a b : ℝ, min (a / d) (b / d) = min a b / d := fun a b => (min_div_div_right hd'.le a b)
    have hmx : ∀ a b : ℝ, max (a / d) (b / d) = max a b / d := fun a b => (max_div_div_right hd'.le a b)
    by_cases hn : c.a < 0
    · rw [if_pos hn, real_cmin] at h
      rw [if_pos (mul_neg_of_pos_of_neg ht (mul_neg_of_neg_of_pos hn hd')), real_cmin, hmn] at h'
      cases h; cases h'; rfl
    · rw [if_neg hn, real_cmax] at h
      have hp : 0 < c.a := lt_of_le_of_ne (not_lt.mp hn) (Ne.symm ha)
      rw [if_neg (not_lt.mpr (mul_pos ht (mul_pos hp hd')).le), real_cmax, hmx] at h'
      cases h; cases h'; rfl

theorem clampAll_units : ∀ (l : List (Fin M)) (x y y' : Fin N → ℝ), clampAll p l x = .ok y →
    clampAll (QPInUnits u p) l (fun i => x i / u.d i) = .ok y' → y' = fun i => y i / u.d i := by
  intro l
  induction l with
  | nil => intro x y y' h h'; cases h; cases h'; rfl
  | cons m l ih =>
    intro x y y' h h'
    simp only [clampAll] at h h'
    cases h1 : (p.con m).toIneq.clampX (x (p.con m).var) with
    | error e => rw [h1] at h; cases h
    | ok v =>
      cases h1' : ((QPInUnits u p).con m).toIneq.clampX (x ((QPInUnits u p).con m).var / u.d ((QPInUnits u p).con m).var) with
      | error e => rw [h1'] at h'; cases h'
      | ok v' =>
        rw [h1] at h
        rw [h1'] at h'
        dsimp only at h h'
        have hv : v' = v / u.d (p.con m).var := clampX_units (c := p.con m) _ _ _ _ _ (u.t_pos m) (u.d_ne _) h1 h1'
        refine ih _ _ _ h ?_
        rw [← h']
        congr 1
        funext i
        by_cases hi : i = (p.con m).var
        · subst hi
          rw [Function.update_self, hv]
          exact (Function.update_self (β := fun _ => ℝ) (p.con m).var (v / u.d (p.con m).var) _).symm
        · rw [Function.update_of_ne hi, Function.update_of_ne (show i ≠ ((QPInUnits u p).con m).var from hi)]

theorem finishGuess_units (hγ : u.γ = 1) (ht : ∀ m, u.t m = 1) {st st' a a' : IPState N M K ℝ}
    (hx : st'.v.x = fun i => st.v.x i / u.d i) (hy : st'.v.y = fun k => st.v.y k / u.e k)
    (h : finishGuess p st = .ok a) (h' : finishGuess (QPInUnits u p) st' = .ok a') : a'.v = pointInUnits u a.v := by
  unfold finishGuess at h h'
  rw [hx] at h'
  cases h1 : clampAll p (List.finRange M) st.v.x with
  | error e => rw [h1] at h; cases h
  | ok y =>
    cases h1' : clampAll (QPInUnits u p) (List.finRange M) (fun i => st.v.x i / u.d i) with
    | error e => rw [h1'] at h'; cases h'
    | ok y' =>
      rw [h1] at h
      rw [h1'] at h'
      cases h
      cases h'
      have hyy := clampAll_units _ _ _ _ h1 h1'
      have hsl : ∀ m, ((QPInUnits u p).con m).a * y' ((QPInUnits u p).con m).var + ((QPInUnits u p).con m).b
          = (p.con m).a * y (p.con m).var + (p.con m).b := by
        intro m
        rw [hyy]
        simp only [QPInUnits, ht m]
        have := u.d_ne (p.con m).var
        field_simp
      unfold pointInUnits
      simp only [hsl, hγ, ht, one_mul, div_one, hy]
      congr 1

theorem initialGuess_units {E E' : Eigen N K ℝ} (hE : LDLTContract E) (hE' : LDLTContract E') (method : InitialGuessMethod)
    (hA : IndependentRows p) (hG : method = .solveEqualityConstrained → PosDefOnNull p)
    (hone : method ≠ .userProvided → u.γ = 1 ∧ ∀ m, u.t m = 1)
    {st st' a a' : IPState N M K ℝ} (hv : method = .userProvided → st'.v = pointInUnits u st.v) (hw : WF st) (hw' : WF st')
    (h : initialGuess E p method st = .ok a) (h' : initialGuess E' (QPInUnits u p) method st' = .ok a') :
    a'.v = pointInUnits u a.v := by
  cases method with
  | userProvided => cases h; cases h'; exact hv rfl
  | naive =>
    obtain ⟨h1, h2⟩ := hone (by simp)
    exact finishGuess_units h1 h2 (by funext i; simp) (by funext k; simp) h h'
  | solveEqualityConstrained =>
    obtain ⟨h1, h2⟩ := hone (by simp)
    unfold initialGuess at h h'
    dsimp only at h h'
    generalize hz : ({ st with v := { st.v with x := fun _ => 0, y := fun _ => 0 } } : IPState N M K ℝ) = z at h
    generalize hz' : ({ st' with v := { st'.v with x := fun _ => 0, y := fun _ => 0 } } : IPState N M K ℝ) = z' at h'
    have hwz : WF z := hz ▸ hw
    have hwz' : WF z' := hz' ▸ hw'
    have hx : z.v.x = fun _ => 0 := by rw [← hz]
    have hy : z.v.y = fun _ => 0 := by rw [← hz]
    have hx' : z'.v.x = fun _ => 0 := by rw [← hz']
    have hy' : z'.v.y = fun _ => 0 := by rw [← hz']
    cases hl : computeLDLT E p false z with
    | error e => rw [hl] at h; cases h
    | ok b =>
      cases hl' : computeLDLT E' (QPInUnits u p) false z' with
      | error e => rw [hl'] at h'; cases h'
      | ok b' =>
        rw [hl] at h
        rw [hl'] at h'
        dsimp only at h h'
        obtain ⟨-, i2, i3⟩ := computeLDLT_ok hl
        obtain ⟨-, i2', i3'⟩ := computeLDLT_ok hl'
        rw [symRed_fillH_false p z hwz] at i2
        rw [symRed_fillH_false _ z' hwz'] at i2'
        have hmul := hE _ _ (kktMatrix_symm p) (kktMatrix_nonsing p (hG rfl) hA) i2
        have hW := scaled_inverse _ _ _ hmul (rowUnits u) (colUnits u) (rowUnits_ne u) (colUnits_ne u) (units_kkt u p)
        have hmul' := hE' _ _ (kktMatrix_symm _) (Matrix.isUnit_det_of_right_inverse hW) i2'
        have hinv : (b'.Hinv : Matrix (Red N K) (Red N K) ℝ) = Matrix.of fun r c => b.Hinv r c / (colUnits u r * rowUnits u c) :=
          (Matrix.inv_eq_right_inv hmul').symm.trans (Matrix.inv_eq_right_inv hW)
        have vb : b.v = z.v := by rw [i3]
        have vb' : b'.v = z'.v := by rw [i3']
        have hHe : (evaluateKKT (QPInUnits u p) false b').Hinv
            = fun r c => (evaluateKKT p false b).Hinv r c / (colUnits u r * rowUnits u c) := hinv
        have hrx : (evaluateKKT (QPInUnits u p) false b').r.x = fun i => u.γ * u.d i * (evaluateKKT p false b).r.x i := by
          funext i
          rw [evaluateKKT_false_rx, evaluateKKT_false_rx, vb, vb', hx, hy, hx', hy']
          simp only [mul_zero, Finset.sum_const_zero, zero_add, sub_zero, QPInUnits]
          ring
        have hry : (evaluateKKT (QPInUnits u p) false b').r.y = fun k => u.e k * (evaluateKKT p false b).r.y k := by
          funext k
          rw [evaluateKKT_ry, evaluateKKT_ry, vb, vb', hx, hx']
          simp only [eqVal, mul_zero, Finset.sum_const_zero, zero_add, QPInUnits]
        refine finishGuess_units h1 h2 ?_ ?_ h h'
        · funext i; exact applyInvX_units hHe hry hrx i
        · funext k
          have := applyInvY_units hHe hry hrx k
          rw [h1, one_mul] at this
          exact this

end units

/-- **C120**. Let `u` change the units of the cost, of the variables, of the equality constraints and of the inequality
constraints of a regular problem `p`. Let the barrier parameter be updated in every iteration (the default). Suppose that
`Solve` returns on both problems, started from the same point in the two units. Then iteration by iteration the step lengths
are the same and the barrier parameters are the same in the two units; after equally many iterations the
variables, slacks and multipliers are the same in the two units. The two calls may stop at different times (tolerances and
limits may differ). -/
theorem C120_units (u : Units N M K) (E E' : Eigen N K ℝ) (hE : LDLTContract E) (hE' : LDLTContract E') (p : QP N M K ℝ)
    (hR : Regular p) (prm prm' : QPParams ℝ) (hsame : SameMethod u.γ prm prm') (st st' : IPState N M K ℝ)
    (hr : Reachable E p st) (hr' : Reachable E' (QPInUnits u p) st') (hg : GoodStart prm st)
    (hG : prm.initialGuessMethod = .solveEqualityConstrained → PosDefOnNull p)
    (hone : prm.initialGuessMethod ≠ .userProvided → u.γ = 1 ∧ ∀ m, u.t m = 1)
    (hstart : prm.initialGuessMethod = .userProvided → st'.v = pointInUnits u st.v)
    (r r' : IPState N M K ℝ × QPOutputs ℝ) (h : solve E p prm st = .ok r) (h' : solve E' (QPInUnits u p) prm' st' = .ok r') :
    (∀ (k : Nat) (it it' : QPIteration ℝ), r.2.iterations[k]? = some it → r'.2.iterations[k]? = some it' → it'.ip = outputsInUnits u.γ it.ip) ∧
    (r'.2.iterations.length = r.2.iterations.length → r'.1.v = pointInUnits u r.1.v) := by
  unfold solve at h h'
  cases hc : checkParams prm with
  | error e => rw [hc] at h; cases h
  | ok _ =>
    cases hc' : checkParams prm' with
    | error e => rw [hc'] at h'; cases h'
    | ok _ =>
      rw [hc] at h
      rw [hc'] at h'
      dsimp only at h h'
      rw [hsame.guess] at h'
      cases h0 : initialGuess E p prm.initialGuessMethod st with
      | error e => rw [h0] at h; cases h
      | ok s0 =>
        cases h0' : initialGuess E' (QPInUnits u p) prm.initialGuessMethod st' with
        | error e => rw [h0'] at h'; cases h'
        | ok s0' =>
          rw [h0] at h
          rw [h0'] at h'
          dsimp only at h h'
          have hpos := goodStart_pos hg h0
          have hv := initialGuess_units hE hE' prm.initialGuessMethod hR.rows hG hone hstart hr.wf hr'.wf h0 h0'
          have hk := evaluateKKT_units (p := p) hv (WF_initialGuess hr.wf h0) (WF_initialGuess hr'.wf h0')
          have hmu : initialMu prm' (evaluateKKT (QPInUnits u p) true s0') = u.γ * initialMu prm (evaluateKKT p true s0) := by
            unfold initialMu
            rw [hsame.initMu, hsame.initialMu, computeMu_units hk.v]
            split_ifs <;> rfl
          rw [hmu] at h'
          exact solveLoop_units hE hE' hR hsame _ _ _ _ _ [] [] _ _ hk (by rw [evaluateKKT_v]; exact hpos.1)
            (by rw [evaluateKKT_v]; exact hpos.2) rfl (fun k it it' hk => by cases hk) h h'

/-! ## Signs -/

/-- Only signs change: variables may be replaced by their negatives and equality rows multiplied by `-1`. -/
structure OnlySigns (u : Units N M K) : Prop where
  γ : u.γ = 1
  t : ∀ m, u.t m = 1
  d : ∀ i, |u.d i| = 1
  e : ∀ k, |u.e k| = 1

theorem norm2_signs {n : Nat} (w a : Fin n → ℝ) (hw : ∀ i, |w i| = 1) : norm2 (fun i => w i * a i) = norm2 a := by
  rw [real_norm2, real_norm2]
  congr 1
  refine Finset.sum_congr rfl fun i _ => ?_
  rw [mul_pow, ← sq_abs (w i), hw i, one_pow, one_mul]

theorem computeErrors_signs {u : Units N M K} (hu : OnlySigns u) (mu : ℝ) {st st' : IPState N M K ℝ} (hr : URel u st st') :
    computeErrors mu st' = computeErrors mu st := by
  have h1 : st'.r.x = fun i => u.d i * st.r.x i := by rw [hr.r]; funext i; simp [residualInUnits, hu.γ]
  have h2 : st'.r.s = st.r.s := by rw [hr.r]; funext m; simp [residualInUnits, hu.γ]
  have h3 : st'.r.y = fun k => u.e k * st.r.y k := by rw [hr.r]; rfl
  have h4 : st'.r.z = st.r.z := by rw [hr.r]; funext m; simp [residualInUnits, hu.t]
  unfold computeErrors
  rw [h1, h2, h3, h4, norm2_signs _ _ hu.d, norm2_signs _ _ hu.e]

theorem outputs_one (o : IPIterationOutputs ℝ) : outputsInUnits 1 o = o := by
  cases o with
  | mk mu al pr ma => cases ma <;> simp [outputsInUnits]

theorem solveLoop_signs {u : Units N M K} {p : QP N M K ℝ} (hu : OnlySigns u) {E E' : Eigen N K ℝ} (hE : LDLTContract E) (hE' : LDLTContract E') (hR : Regular p)
    (prm : QPParams ℝ) :
    ∀ (n : Nat) (st st' : IPState N M K ℝ) (mu : ℝ) (log : List (QPIteration ℝ)) (r r' : IPState N M K ℝ × QPOutputs ℝ),
    URel u st st' → (∀ m, 0 < st.v.s m) → (∀ m, 0 < st.v.z m) →
    solveLoop E p prm n st mu log = .ok r → solveLoop E' (QPInUnits u p) prm n st' mu log = .ok r' →
    r'.2.iterations = r.2.iterations ∧ r'.2.termination = r.2.termination ∧ r'.1.v = pointInUnits u r.1.v := by
  intro n
  induction n with
  | zero => intro st st' mu log r r' hr _ _ h h'; cases h; cases h'; exact ⟨rfl, rfl, hr.v⟩
  | succ n ih =>
    intro st st' mu log r r' hr hs hz h h'
    simp only [solveLoop] at h h'
    cases hi : iterate E p mu prm.barrierStrategy st with
    | error e => rw [hi] at h; cases h
    | ok q =>
      cases hi' : iterate E' (QPInUnits u p) mu prm.barrierStrategy st' with
      | error e => rw [hi'] at h'; cases h'
      | ok q' =>
        obtain ⟨s1, o⟩ := q
        obtain ⟨s1', o'⟩ := q'
        have hi2 : iterate E' (QPInUnits u p) (u.γ * mu) prm.barrierStrategy st' = .ok (s1', o') := by rw [hu.γ, one_mul]; exact hi'
        obtain ⟨hv, hw, hw', ho⟩ := iterate_units hE hE' hR mu prm.barrierStrategy hr hs hz hi hi2
        have hpos := iterate_pos hi hz
        dsimp only at hv hw hw' ho
        rw [hu.γ, outputs_one] at ho
        rw [hi] at h
        rw [hi'] at h'
        dsimp only at h h'
        have h2 := evaluateKKT_units (p := p) hv hw hw'
        have hmu : computeMu (evaluateKKT (QPInUnits u p) true s1') = computeMu (evaluateKKT p true s1) := by
          rw [computeMu_units h2.v, hu.γ, one_mul]
        have hnext : ∀ k, nextMu prm k (evaluateKKT (QPInUnits u p) true s1') mu = nextMu prm k (evaluateKKT p true s1) mu := by
          intro k
          unfold nextMu
          rw [hmu]
        rw [computeErrors_signs hu mu hr, computeErrors_signs hu mu h2, hmu, hnext, ho] at h'
        split_ifs at h with ht
        · rw [if_pos ht] at h'
          cases h; cases h'; exact ⟨rfl, rfl, h2.v⟩
        · rw [if_neg ht] at h'
          exact ih _ _ _ _ _ _ h2 (by rw [evaluateKKT_v]; exact hpos.1) (by rw [evaluateKKT_v]; exact hpos.2) h h'

/-- **C120** (signs). Replace some of the variables by their negatives and multiply some equality rows by `-1`. With every
barrier strategy and every initial guess, whenever `Solve` returns on both problems the logs and the exits are the same and the
results are the same up to those signs. -/
theorem C120_signs (u : Units N M K) (hu : OnlySigns u) (E E' : Eigen N K ℝ) (hE : LDLTContract E) (hE' : LDLTContract E') (p : QP N M K ℝ)
    (hR : Regular p) (prm : QPParams ℝ) (st st' : IPState N M K ℝ)
    (hr : Reachable E p st) (hr' : Reachable E' (QPInUnits u p) st') (hg : GoodStart prm st)
    (hG : prm.initialGuessMethod = .solveEqualityConstrained → PosDefOnNull p)
    (hstart : prm.initialGuessMethod = .userProvided → st'.v = pointInUnits u st.v)
    (r r' : IPState N M K ℝ × QPOutputs ℝ) (h : solve E p prm st = .ok r) (h' : solve E' (QPInUnits u p) prm st' = .ok r') :
    r'.2.iterations = r.2.iterations ∧ r'.2.termination = r.2.termination ∧ r'.1.v = pointInUnits u r.1.v := by
  unfold solve at h h'
  cases hc : checkParams prm with
  | error e => rw [hc] at h; cases h
  | ok _ =>
    rw [hc] at h h'
    dsimp only at h h'
    cases h0 : initialGuess E p prm.initialGuessMethod st with
    | error e => rw [h0] at h; cases h
    | ok s0 =>
      cases h0' : initialGuess E' (QPInUnits u p) prm.initialGuessMethod st' with
      | error e => rw [h0'] at h'; cases h'
      | ok s0' =>
        rw [h0] at h
        rw [h0'] at h'
        dsimp only at h h'
        have hpos := goodStart_pos hg h0
        have hv := initialGuess_units hE hE' prm.initialGuessMethod hR.rows hG (fun _ => ⟨hu.γ, hu.t⟩) hstart hr.wf hr'.wf h0 h0'
        have hk := evaluateKKT_units (p := p) hv (WF_initialGuess hr.wf h0) (WF_initialGuess hr'.wf h0')
        have hmu : initialMu prm (evaluateKKT (QPInUnits u p) true s0') = initialMu prm (evaluateKKT p true s0) := by
          unfold initialMu
          rw [computeMu_units hk.v, hu.γ, one_mul]
        rw [hmu] at h'
        exact solveLoop_signs hu hE hE' hR prm _ _ _ _ [] _ _ hk (by rw [evaluateKKT_v]; exact hpos.1)
          (by rw [evaluateKKT_v]; exact hpos.2) h h'

end MiniOpt.Props
