import Verif.Spec.TransformSpec

/-!
# The quaternion formulas of the code against Mathlib's quaternions
-/

set_option autoImplicit false

namespace MiniOpt.TC

open scoped Quaternion
open Spec

@[simp] theorem toH_re (q : Quat ℝ) : (toH q).re = q.w := rfl
@[simp] theorem toH_imI (q : Quat ℝ) : (toH q).imI = q.x := rfl
@[simp] theorem toH_imJ (q : Quat ℝ) : (toH q).imJ = q.y := rfl
@[simp] theorem toH_imK (q : Quat ℝ) : (toH q).imK = q.z := rfl
@[simp] theorem im_re (v : V3 ℝ) : (im v).re = 0 := rfl
@[simp] theorem im_imI (v : V3 ℝ) : (im v).imI = v 0 := rfl
@[simp] theorem im_imJ (v : V3 ℝ) : (im v).imJ = v 1 := rfl
@[simp] theorem im_imK (v : V3 ℝ) : (im v).imK = v 2 := rfl

theorem toH_inj {a b : Quat ℝ} (h : toH a = toH b) : a = b := by
  cases a; cases b
  have h1 := congrArg QuaternionAlgebra.re h
  have h2 := congrArg QuaternionAlgebra.imI h
  have h3 := congrArg QuaternionAlgebra.imJ h
  have h4 := congrArg QuaternionAlgebra.imK h
  simp only [toH_re, toH_imI, toH_imJ, toH_imK] at h1 h2 h3 h4
  rw [h1, h2, h3, h4]

theorem im_inj {a b : V3 ℝ} (h : im a = im b) : a = b := by
  have h2 := congrArg QuaternionAlgebra.imI h
  have h3 := congrArg QuaternionAlgebra.imJ h
  have h4 := congrArg QuaternionAlgebra.imK h
  simp only [im_imI, im_imJ, im_imK] at h2 h3 h4
  funext i
  fin_cases i <;> assumption

theorem im_of_re {a : ℍ[ℝ]} (h : a.re = 0) : im ![a.imI, a.imJ, a.imK] = a := by
  ext <;> simp [h]

theorem toH_mul (a b : Quat ℝ) : toH (a.mul b) = toH a * toH b := by
  ext <;> simp [Quat.mul] <;> ring

theorem toH_one : toH (Quat.one : Quat ℝ) = 1 := by
  ext <;> simp [Quat.one]

theorem toH_conj (a : Quat ℝ) : toH a.conj = star (toH a) := by
  ext <;> simp [Quat.conj]

theorem isUnit_iff (q : Quat ℝ) : IsUnitQ q ↔ q.w ^ 2 + q.x ^ 2 + q.y ^ 2 + q.z ^ 2 = 1 := by
  unfold IsUnitQ
  rw [Quaternion.normSq_def']
  simp

theorem isUnit_mul {a b : Quat ℝ} (ha : IsUnitQ a) (hb : IsUnitQ b) : IsUnitQ (a.mul b) := by
  unfold IsUnitQ at *
  rw [toH_mul, map_mul, ha, hb, one_mul]

theorem isUnit_one : IsUnitQ (Quat.one : Quat ℝ) := by
  rw [isUnit_iff]; simp [Quat.one]

theorem isUnit_conj {a : Quat ℝ} (ha : IsUnitQ a) : IsUnitQ a.conj := by
  rw [isUnit_iff] at *; simp only [Quat.conj, neg_sq]; exact ha

theorem mul_star_of_unit {q : Quat ℝ} (h : IsUnitQ q) : toH q * star (toH q) = 1 := by
  rw [Quaternion.self_mul_star, show Quaternion.normSq (toH q) = 1 from h]; rfl

theorem star_mul_of_unit {q : Quat ℝ} (h : IsUnitQ q) : star (toH q) * toH q = 1 := by
  rw [Quaternion.star_mul_self, show Quaternion.normSq (toH q) = 1 from h]; rfl

theorem im_vadd (a b : V3 ℝ) : im (vadd a b) = im a + im b := by
  ext <;> simp [vadd]

theorem im_add (a b : V3 ℝ) : im (a + b) = im a + im b := by
  ext <;> simp

theorem im_zero : im (fun _ => (0 : ℝ)) = 0 := by
  ext <;> simp

theorem im_neg (a : V3 ℝ) : im (fun i => - a i) = - im a := by
  ext <;> simp

theorem im_smul (c : ℝ) (a : V3 ℝ) : im (c • a) = c • im a := by
  ext <;> simp

theorem star_im (a : V3 ℝ) : star (im a) = - im a := by
  ext <;> simp

theorem im_cross (a b : V3 ℝ) : im (cross a b) = (1 / 2 : ℝ) • (im a * im b - im b * im a) := by
  ext <;> simp [cross] <;> ring

theorem im_rotate {q : Quat ℝ} (h : IsUnitQ q) (v : V3 ℝ) : im (q.rotate v) = toH q * im v * star (toH q) := by
  rw [isUnit_iff] at h
  have hw : q.w ^ 2 = 1 - (q.x ^ 2 + q.y ^ 2 + q.z ^ 2) := by linarith
  ext
  · simp; ring
  all_goals
    simp [Quat.rotate, Quat.vec, cross, vadd]
    ring_nf
    rw [hw]
    ring

theorem matrix_mvec (q : Quat ℝ) (v : V3 ℝ) : mvec q.matrix v = q.rotate v := by
  unfold Quat.rotate Quat.vec cross vadd mvec matVec dot Quat.matrix
  funext i
  fin_cases i <;> simp [List.ofFn_succ] <;> ring

theorem skew3_mvec (a v : V3 ℝ) : mvec (skew3 a) v = cross a v := by
  unfold cross mvec matVec dot skew3
  funext i
  fin_cases i <;> simp [List.ofFn_succ] <;> ring

theorem mmul_mvec (A B : M3 ℝ) (v : V3 ℝ) : mvec (mmul A B) v = mvec A (mvec B v) := by
  unfold mvec matVec mmul dot
  funext i
  simp [List.ofFn_succ]
  ring

theorem ident_mvec (v : V3 ℝ) : mvec (ident : M3 ℝ) v = v := by
  unfold mvec matVec ident dot
  funext i
  fin_cases i <;> simp [List.ofFn_succ]

theorem zero_mvec (v : V3 ℝ) : mvec (fun _ _ => (0 : ℝ)) v = fun _ => 0 := by
  unfold mvec matVec dot
  funext i
  simp [List.ofFn_succ]

/-- `inverse()` of a unit quaternion is its conjugate. -/
theorem inverse_unit {q : Quat ℝ} (h : IsUnitQ q) : q.inverse = q.conj := by
  rw [isUnit_iff] at h
  have hn : q.squaredNorm = 1 := by
    unfold Quat.squaredNorm
    simp
    linarith
  unfold Quat.inverse
  simp only [hn]
  rw [if_pos (show (0 : ℝ) < 1 from one_pos)]
  unfold Quat.conj
  simp

end MiniOpt.TC
