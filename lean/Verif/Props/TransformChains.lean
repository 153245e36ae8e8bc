import Verif.Lemmas.Transform
import Mathlib.LinearAlgebra.Matrix.Notation
import Mathlib.Tactic.NoncommRing

/-!
# C70, C71: poses and chains of poses (`test/transform_chains.{hpp,cc}`, exact arithmetic)
-/

set_option autoImplicit false

namespace MiniOpt.Props

open scoped Quaternion
open MiniOpt.TC MiniOpt.TC.Spec

/-! ## Poses -/

/-- **C70** (what a pose does). A pose with a unit quaternion turns a vector and then translates it; the rotation matrix
does the same as the quaternion. -/
theorem C70_pose_apply (p : Pose ℝ) (hp : IsUnitQ p.rotation) (v : V3 ℝ) :
    (∃ u, Turns p.rotation v u ∧ ∀ i, p.apply v i = u i + p.translation i) ∧
    ∀ i, p.apply v i = ∑ j, p.rotation.matrix i j * v j + p.translation i := by
  refine ⟨⟨p.rotation.rotate v, im_rotate hp v, fun i => rfl⟩, fun i => ?_⟩
  have e : mvec p.rotation.matrix v i = ∑ j, p.rotation.matrix i j * v j := by
    simp [mvec, matVec, dot, List.ofFn_succ, Fin.sum_univ_three]
    ring
  rw [← e, matrix_mvec]
  rfl

theorem rotate_mul {a b : Quat ℝ} (ha : IsUnitQ a) (hb : IsUnitQ b) (v : V3 ℝ) :
    (a.mul b).rotate v = a.rotate (b.rotate v) := by
  apply im_inj
  rw [im_rotate (isUnit_mul ha hb), im_rotate ha, im_rotate hb, toH_mul, StarMul.star_mul]
  simp only [mul_assoc]

theorem rotate_add (a : Quat ℝ) (u v : V3 ℝ) : a.rotate (vadd u v) = vadd (a.rotate u) (a.rotate v) := by
  funext i
  fin_cases i <;> simp [Quat.rotate, Quat.vec, cross, vadd] <;> ring

theorem rotate_neg (a : Quat ℝ) (u : V3 ℝ) : a.rotate (fun i => - u i) = fun i => - a.rotate u i := by
  funext i
  fin_cases i <;> simp [Quat.rotate, Quat.vec, cross, vadd] <;> ring

theorem rotate_zero (a : Quat ℝ) : a.rotate (fun _ => 0) = fun _ => 0 := by
  funext i
  fin_cases i <;> simp [Quat.rotate, Quat.vec, cross, vadd]

theorem conj_mul {a : Quat ℝ} (ha : IsUnitQ a) : a.conj.mul a = .one ∧ a.mul a.conj = .one := by
  constructor
  · apply toH_inj
    rw [toH_mul, toH_conj, toH_one, star_mul_of_unit ha]
  · apply toH_inj
    rw [toH_mul, toH_conj, toH_one, mul_star_of_unit ha]

theorem one_rotate (v : V3 ℝ) : (Quat.one : Quat ℝ).rotate v = v := by
  funext i
  fin_cases i <;> simp [Quat.one, Quat.rotate, Quat.vec, cross, vadd]

/-- **C70** (product). The product of two poses applies the second, then the first; its rotation is the product of the
quaternions. -/
theorem C70_pose_product (p q : Pose ℝ) (hp : IsUnitQ p.rotation) (hq : IsUnitQ q.rotation) :
    (∀ v, (p.mul q).apply v = p.apply (q.apply v)) ∧ toH (p.mul q).rotation = toH p.rotation * toH q.rotation ∧
    IsUnitQ (p.mul q).rotation := by
  refine ⟨fun v => ?_, toH_mul _ _, isUnit_mul hp hq⟩
  unfold Pose.mul Pose.apply
  simp only
  rw [rotate_mul hp hq, rotate_add]
  funext i
  simp only [vadd]
  ring

/-- **C70** (inverse). `Inverse` inverts on both sides. -/
theorem C70_pose_inverse (p : Pose ℝ) (hp : IsUnitQ p.rotation) :
    p.mul p.inverse = .one ∧ p.inverse.mul p = .one ∧ IsUnitQ p.inverse.rotation := by
  unfold Pose.inverse
  simp only [inverse_unit hp]
  obtain ⟨h1, h2⟩ := conj_mul hp
  refine ⟨?_, ?_, isUnit_conj hp⟩
  · unfold Pose.mul Pose.one
    rw [h2]
    congr 1
    simp only
    rw [← rotate_mul hp (isUnit_conj hp), h2, one_rotate]
    funext i
    simp [vadd]
  · unfold Pose.mul Pose.one
    rw [h1]
    congr 1
    simp only
    rw [rotate_neg]
    funext i
    simp [vadd]

/-- The vector with a one at `j`. -/
def axis3 (j : Fin 3) : V3 ℝ := fun i => if i = j then 1 else 0

theorem matrix_col (q : Quat ℝ) (i j : Fin 3) : q.matrix i j = q.rotate (axis3 j) i := by
  rw [← matrix_mvec]
  unfold mvec matVec dot axis3
  fin_cases j <;> simp [List.ofFn_succ]

/-- The matrix of a product of unit quaternions is the product of the matrices. -/
theorem matrix_mul_entry {a b : Quat ℝ} (ha : IsUnitQ a) (hb : IsUnitQ b) (i j : Fin 3) :
    (a.mul b).matrix i j = a.matrix i 0 * b.matrix 0 j + a.matrix i 1 * b.matrix 1 j + a.matrix i 2 * b.matrix 2 j := by
  rw [matrix_col, rotate_mul ha hb, ← matrix_mvec a]
  unfold mvec matVec dot
  simp only [matrix_col b]
  simp [List.ofFn_succ]
  ring

/-- **C70** (matrix). `ToMatrix` is a homomorphism to 4x4 matrices acting on `(v, 1)`. -/
theorem C70_pose_matrix (p q : Pose ℝ) :
    (∀ v, Matrix.mulVec (Matrix.of p.toMatrix) ![v 0, v 1, v 2, 1]
      = ![p.apply v 0, p.apply v 1, p.apply v 2, 1]) ∧
    (IsUnitQ p.rotation → IsUnitQ q.rotation →
      Matrix.of (p.mul q).toMatrix = Matrix.of p.toMatrix * Matrix.of q.toMatrix) := by
  constructor
  · intro v
    funext i
    fin_cases i <;>
      simp [Matrix.mulVec, dotProduct, Fin.sum_univ_four, Pose.toMatrix, Pose.apply, Quat.matrix, Quat.rotate, Quat.vec,
        cross, vadd] <;> ring
  · intro hp hq
    have ht : ∀ i, p.rotation.rotate q.translation i = p.rotation.matrix i 0 * q.translation 0
        + p.rotation.matrix i 1 * q.translation 1 + p.rotation.matrix i 2 * q.translation 2 := by
      intro i
      rw [← matrix_mvec]
      unfold mvec matVec dot
      simp [List.ofFn_succ]
      ring
    ext i j
    fin_cases i <;> fin_cases j <;>
      simp [Matrix.mul_apply, Fin.sum_univ_four, Pose.toMatrix, Pose.mul, matrix_mul_entry hp hq, vadd, ht] <;> ring

/-- A turn about the third axis with a translation satisfies the hypotheses... -/
noncomputable def turnZ : Pose ℝ := ⟨⟨3 / 5, 0, 0, 4 / 5⟩, ![1, 2, 3]⟩

theorem turnZ_unit : IsUnitQ turnZ.rotation := by
  rw [isUnit_iff]; norm_num [turnZ]

example : turnZ.apply ![1, 0, 0] = ![1 - 7 / 25, 2 + 24 / 25, 3] := by
  funext i
  fin_cases i <;> simp [turnZ, Pose.apply, Quat.rotate, Quat.vec, cross, vadd] <;> norm_num

/-- ... and the hypothesis is needed: with a quaternion that is not a unit, `Inverse` does not invert. -/
theorem C70_inverse_needs_unit : ∃ p : Pose ℝ, p.rotation.squaredNorm = 4 ∧
    (p.mul p.inverse).translation ≠ fun _ => 0 := by
  refine ⟨⟨⟨0, 2, 0, 0⟩, ![0, 1, 0]⟩, ?_, ?_⟩
  · norm_num [Quat.squaredNorm]
  · intro h
    have h1 := congrFun h 1
    simp [Pose.mul, Pose.inverse, Quat.inverse, Quat.squaredNorm, Quat.rotate, Quat.vec, cross, vadd] at h1
    norm_num at h1

/-- **C70** (inverse of the rotation part). For every quaternion but zero the rotation of `Inverse` is the inverse of the
rotation; for zero it is zero. -/
theorem C70_inverse_rotation (p : Pose ℝ) :
    (p.rotation ≠ ⟨0, 0, 0, 0⟩ → p.rotation.mul p.inverse.rotation = ⟨1, 0, 0, 0⟩ ∧
      p.inverse.rotation.mul p.rotation = ⟨1, 0, 0, 0⟩) ∧
    (p.rotation = ⟨0, 0, 0, 0⟩ → p.inverse.rotation = ⟨0, 0, 0, 0⟩) := by
  obtain ⟨⟨w, x, y, z⟩, t⟩ := p
  constructor
  · intro hne
    have hpos : 0 < x * x + (y * y + (z * z + w * w)) := by
      by_contra hn
      apply hne
      have h1 := mul_self_nonneg x
      have h2 := mul_self_nonneg y
      have h3 := mul_self_nonneg z
      have h4 := mul_self_nonneg w
      rw [mul_self_eq_zero.mp (by linarith : w * w = 0), mul_self_eq_zero.mp (by linarith : x * x = 0),
        mul_self_eq_zero.mp (by linarith : y * y = 0), mul_self_eq_zero.mp (by linarith : z * z = 0)]
    have hn2 : (Quat.mk w x y z : Quat ℝ).squaredNorm = x * x + (y * y + (z * z + w * w)) := by
      simp [Quat.squaredNorm]
    have hinv : (Pose.mk (Quat.mk w x y z) t : Pose ℝ).inverse.rotation = ⟨w / (x * x + (y * y + (z * z + w * w))),
        -x / (x * x + (y * y + (z * z + w * w))), -y / (x * x + (y * y + (z * z + w * w))),
        -z / (x * x + (y * y + (z * z + w * w)))⟩ := by
      simp only [Pose.inverse, Quat.inverse, hn2, if_pos hpos]
    rw [hinv]
    have hne' := hpos.ne'
    generalize hs : x * x + (y * y + (z * z + w * w)) = n2 at hne'
    constructor <;>
    · unfold Quat.mul
      congr 1 <;> (field_simp; first | ring1 | (rw [← hs]; ring1))
  · intro h0
    cases h0
    simp [Pose.inverse, Quat.inverse, Quat.squaredNorm]

/-! ## Chains of poses -/

/-- The product of the rotations of a chain. -/
noncomputable def qprod : List (Pose ℝ) → Quat ℝ
  | [] => .one
  | p :: ps => p.rotation.mul (qprod ps)

/-- All rotations of a chain are unit quaternions. -/
def UnitLinks (links : List (Pose ℝ)) : Prop := ∀ l ∈ links, IsUnitQ l.rotation

theorem qprod_unit {ls : List (Pose ℝ)} (h : UnitLinks ls) : IsUnitQ (qprod ls) := by
  induction ls with
  | nil => exact isUnit_one
  | cons l ls ih =>
    exact isUnit_mul (h l (by simp)) (ih fun x hx => h x (by simp [hx]))

theorem toH_qprod (ls : List (Pose ℝ)) : toH (qprod ls) = (ls.map fun l => toH l.rotation).prod := by
  induction ls with
  | nil => simp [qprod, toH_one]
  | cons l ls ih => simp [qprod, toH_mul, ih]

theorem composed_eq {ls : List (Pose ℝ)} (h : UnitLinks ls) (v : V3 ℝ) :
    composed ls v = vadd ((qprod ls).rotate v) (composed ls fun _ => 0) := by
  induction ls with
  | nil =>
    funext i
    simp [composed, qprod, one_rotate, vadd]
  | cons l ls ih =>
    have hls : UnitLinks ls := fun x hx => h x (by simp [hx])
    simp only [composed, qprod]
    rw [ih hls, rotate_mul (h l (by simp)) (qprod_unit hls)]
    unfold Pose.apply
    rw [rotate_add]
    funext i
    simp only [vadd]
    ring

theorem composed_append (a b : List (Pose ℝ)) (v : V3 ℝ) : composed (a ++ b) v = composed a (composed b v) := by
  induction a with
  | nil => rfl
  | cons l ls ih => simp only [List.cons_append, composed, ih]

theorem qprod_append (a b : List (Pose ℝ)) : qprod (a ++ b) = (qprod a).mul (qprod b) := by
  apply toH_inj
  simp [toH_mul, toH_qprod]

theorem rotationsToEnd_cons (l : Pose ℝ) (ls : List (Pose ℝ)) :
    rotationsToEnd (l :: ls) = qprod (l :: ls) :: rotationsToEnd ls := by
  induction ls generalizing l with
  | nil => simp [rotationsToEnd, qprod]
  | cons m ms ih =>
    conv_lhs => rw [rotationsToEnd, ih m]
    rw [ih m]
    rfl

theorem translationsToEnd_cons (l : Pose ℝ) (ls : List (Pose ℝ)) :
    translationsToEnd (l :: ls) = composed (l :: ls) (fun _ => 0) :: translationsToEnd ls := by
  induction ls generalizing l with
  | nil => simp [translationsToEnd, composed, Pose.apply]
  | cons m ms ih =>
    conv_lhs => rw [translationsToEnd, ih m]
    rw [ih m]
    rfl

theorem rotationsToEnd_length (ls : List (Pose ℝ)) : (rotationsToEnd ls).length = ls.length + 1 := by
  induction ls with
  | nil => rfl
  | cons l ls ih => rw [rotationsToEnd_cons]; simp [ih]

theorem translationsToEnd_length (ls : List (Pose ℝ)) : (translationsToEnd ls).length = ls.length + 1 := by
  induction ls with
  | nil => rfl
  | cons l ls ih => rw [translationsToEnd_cons]; simp [ih]

theorem rotationsToEnd_get (ls : List (Pose ℝ)) (i : Nat) (hi : i ≤ ls.length) :
    (rotationsToEnd ls)[i]? = some (qprod (ls.drop i)) := by
  induction ls generalizing i with
  | nil =>
    obtain rfl : i = 0 := by simpa using hi
    rfl
  | cons l ls ih =>
    rw [rotationsToEnd_cons]
    cases i with
    | zero => rfl
    | succ i => simpa using ih i (by simpa using hi)

theorem translationsToEnd_get (ls : List (Pose ℝ)) (i : Nat) (hi : i ≤ ls.length) :
    (translationsToEnd ls)[i]? = some (composed (ls.drop i) fun _ => 0) := by
  induction ls generalizing i with
  | nil =>
    obtain rfl : i = 0 := by simpa using hi
    rfl
  | cons l ls ih =>
    rw [translationsToEnd_cons]
    cases i with
    | zero => rfl
    | succ i => simpa using ih i (by simpa using hi)

theorem computeChain_fields {ls : List (Pose ℝ)} (h : ls ≠ []) :
    (computeChain ls).iREnd = rotationsToEnd ls ∧ (computeChain ls).iTEnd = translationsToEnd ls ∧
    (computeChain ls).transDTrans = startRotations .one ls := by
  cases ls with
  | nil => exact absurd rfl h
  | cons l ls => exact ⟨rfl, rfl, rfl⟩

theorem UnitLinks.drop {ls : List (Pose ℝ)} (h : UnitLinks ls) (i : Nat) : UnitLinks (ls.drop i) :=
  fun l hl => h l (List.mem_of_mem_drop hl)

theorem UnitLinks.take {ls : List (Pose ℝ)} (h : UnitLinks ls) (i : Nat) : UnitLinks (ls.take i) :=
  fun l hl => h l (List.mem_of_mem_take hl)

/-- **C71** (frames to the end). For a non empty chain of `n` poses there are `n + 1` frames, and entry `i` of `i_R_end` and
`i_t_end` is the pose of the end in frame `i`: the composition of the links from `i` on. -/
theorem C71_frames_to_end (links : List (Pose ℝ)) (hne : links ≠ []) (hu : ∀ l ∈ links, IsUnitQ l.rotation) :
    (computeChain links).iREnd.length = links.length + 1 ∧ (computeChain links).iTEnd.length = links.length + 1 ∧
    ∀ i, i ≤ links.length → ∃ r t, (computeChain links).iREnd[i]? = some r ∧ (computeChain links).iTEnd[i]? = some t ∧
      IsUnitQ r ∧ toH r = ((links.drop i).map fun l => toH l.rotation).prod ∧
      ∀ v, (Pose.mk r t).apply v = composed (links.drop i) v := by
  obtain ⟨e1, e2, -⟩ := computeChain_fields hne
  rw [e1, e2]
  refine ⟨rotationsToEnd_length _, translationsToEnd_length _, fun i hi => ?_⟩
  refine ⟨_, _, rotationsToEnd_get links i hi, translationsToEnd_get links i hi, qprod_unit (UnitLinks.drop hu i),
    toH_qprod _, fun v => ?_⟩
  exact (composed_eq (UnitLinks.drop hu i) v).symm

/-- **C71** (effector). `start_T_end` is the composition of all links. -/
theorem C71_start_T_end (links : List (Pose ℝ)) (hne : links ≠ []) (hu : ∀ l ∈ links, IsUnitQ l.rotation) :
    ∃ p, (computeChain links).startTEnd = .ok p ∧ IsUnitQ p.rotation ∧
      toH p.rotation = (links.map fun l => toH l.rotation).prod ∧ ∀ v, p.apply v = composed links v := by
  cases links with
  | nil => exact absurd rfl hne
  | cons l ls =>
    obtain ⟨e1, e2, -⟩ := computeChain_fields hne
    refine ⟨⟨qprod (l :: ls), composed (l :: ls) fun _ => 0⟩, ?_, qprod_unit hu, toH_qprod _, fun v => ?_⟩
    · unfold Buffer.startTEnd
      rw [e1, e2, rotationsToEnd_cons, translationsToEnd_cons]
    · exact (composed_eq hu v).symm

/-- **C71** (all poses). `ComputeAllPoses` returns, for every frame `i` from the start to the end, the composition of the
links before it. -/
theorem C71_all_poses (links : List (Pose ℝ)) (hne : links ≠ []) (hu : ∀ l ∈ links, IsUnitQ l.rotation) :
    ∃ ps, computeAllPoses (computeChain links) = .ok ps ∧ ps.length = links.length + 1 ∧
      ∀ i, i ≤ links.length → ∃ p, ps[i]? = some p ∧ IsUnitQ p.rotation ∧
        toH p.rotation = ((links.take i).map fun l => toH l.rotation).prod ∧
        ∀ v, p.apply v = composed (links.take i) v := by
  obtain ⟨e1, e2, -⟩ := computeChain_fields hne
  have hq : ∃ l ls, links = l :: ls := by
    cases links with
    | nil => exact absurd rfl hne
    | cons l ls => exact ⟨l, ls, rfl⟩
  obtain ⟨l, ls, hl⟩ := hq
  have h0 : computeAllPoses (computeChain links) = .ok (List.zipWith (fun ri ti =>
      Pose.mul ⟨qprod links, composed links fun _ => 0⟩ (Pose.inverse ⟨ri, ti⟩))
      (rotationsToEnd links) (translationsToEnd links)) := by
    unfold computeAllPoses
    rw [e1, e2]
    rw [hl, rotationsToEnd_cons, translationsToEnd_cons]
    simp only
    rw [if_pos (by simp [rotationsToEnd_length, translationsToEnd_length])]
  refine ⟨_, h0, by simp [rotationsToEnd_length, translationsToEnd_length], fun i hi => ?_⟩
  have hs : links = links.take i ++ links.drop i := (List.take_append_drop i links).symm
  have ua := UnitLinks.take hu i
  have ub := UnitLinks.drop hu i
  generalize hA : links.take i = A at hs ua
  generalize hB : links.drop i = B at hs ub
  have hui : IsUnitQ (Pose.mk (qprod B) (composed B fun _ => 0)).inverse.rotation :=
    (C70_pose_inverse ⟨qprod B, composed B fun _ => 0⟩ (qprod_unit ub)).2.2
  refine ⟨_, by rw [List.getElem?_zipWith, rotationsToEnd_get links i hi, translationsToEnd_get links i hi], ?_, ?_, ?_⟩
  · rw [hB]
    exact isUnit_mul (qprod_unit hu) hui
  · rw [hB]
    simp only [Pose.mul, Pose.inverse]
    rw [inverse_unit (qprod_unit ub), toH_mul, toH_conj, ← toH_qprod A, hs, qprod_append, toH_mul, mul_assoc,
      mul_star_of_unit (qprod_unit ub), mul_one]
  · intro v
    rw [hB, (C70_pose_product _ _ (qprod_unit hu) hui).1]
    have e : ∀ w, (Pose.mk (qprod links) (composed links fun _ => 0)).apply w = composed links w := by
      exact fun w => (composed_eq hu w).symm
    rw [e, hs, composed_append]
    congr 1
    have e' : ∀ w, (Pose.mk (qprod B) (composed B fun _ => 0)).apply w = composed B w := by
      exact fun w => (composed_eq ub w).symm
    rw [← e', ← (C70_pose_product _ _ (qprod_unit ub) hui).1,
      (C70_pose_inverse ⟨qprod B, composed B fun _ => 0⟩ (qprod_unit ub)).1]
    simp only [Pose.apply, Pose.one, one_rotate]
    funext i
    simp [vadd]

/-- **C71** (empty chain). An empty chain clears the buffer; then `start_T_end` is refused, while `ComputeAllPoses` reads
the front of an empty vector. -/
theorem C71_empty : (computeChain ([] : List (Pose ℝ))) = .empty ∧
    (computeChain ([] : List (Pose ℝ))).startTEnd = .error (.assertion "!i_R_end.empty()") ∧
    ∃ w, computeAllPoses (computeChain ([] : List (Pose ℝ))) = .error (.ub w) :=
  ⟨rfl, rfl, _, rfl⟩

example : ∃ p, (computeChain [turnZ, turnZ]).startTEnd = .ok p ∧ p.translation = ![- 6 / 5, 12 / 5, 6] := by
  refine ⟨_, rfl, ?_⟩
  funext i
  fin_cases i <;> simp [turnZ, Quat.rotate, Quat.vec, cross, vadd] <;> norm_num

end MiniOpt.Props
