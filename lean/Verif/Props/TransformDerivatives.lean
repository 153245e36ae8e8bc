import Verif.Props.TransformChains
import Mathlib.Analysis.Calculus.FDeriv.Mul
import Mathlib.Analysis.Calculus.FDeriv.Star
import Mathlib.Analysis.Calculus.FDeriv.Add
import Mathlib.Analysis.Calculus.FDeriv.Comp
import Mathlib.Analysis.Calculus.FDeriv.Prod
import Mathlib.Analysis.Normed.Module.FiniteDimension
import Mathlib.Topology.Algebra.Module.FiniteDimension
import Mathlib.Analysis.SpecialFunctions.Trigonometric.Deriv

/-!
# C72: the derivatives of a chain of poses (`ComputeChain`, exact arithmetic)
-/

set_option autoImplicit false

namespace MiniOpt.Props

open scoped Quaternion
open MiniOpt.TC MiniOpt.TC.Spec

variable {E : Type} [NormedAddCommGroup E] [NormedSpace ℝ E]

/-- `im` as a continuous linear map. -/
noncomputable def imL : V3 ℝ →L[ℝ] ℍ[ℝ] :=
  LinearMap.toContinuousLinearMap
    { toFun := im, map_add' := im_add, map_smul' := fun c a => by simpa using im_smul c a }

/-- The imaginary part as a continuous linear map. -/
noncomputable def vecL : ℍ[ℝ] →L[ℝ] V3 ℝ :=
  LinearMap.toContinuousLinearMap
    { toFun := fun q => ![q.imI, q.imJ, q.imK]
      map_add' := fun a b => by funext i; fin_cases i <;> simp
      map_smul' := fun c a => by funext i; fin_cases i <;> simp }

@[simp] theorem imL_apply (v : V3 ℝ) : imL v = im v := rfl

@[simp] theorem vecL_im (v : V3 ℝ) : vecL (im v) = v := by
  apply im_inj
  exact im_of_re (by simp)

/-- Conjugation as a continuous linear map. -/
noncomputable def starH : ℍ[ℝ] →L[ℝ] ℍ[ℝ] :=
  LinearMap.toContinuousLinearMap
    { toFun := star
      map_add' := star_add
      map_smul' := fun c a => by ext <;> simp }

@[simp] theorem starH_apply (q : ℍ[ℝ]) : starH q = star q := rfl

/-- The rotation by a fixed quaternion, as a continuous linear map. -/
noncomputable def rotL (q : Quat ℝ) : V3 ℝ →L[ℝ] V3 ℝ :=
  LinearMap.toContinuousLinearMap
    { toFun := q.rotate
      map_add' := fun a b => rotate_add q a b
      map_smul' := fun c a => by
        funext i
        fin_cases i <;> simp [Quat.rotate, Quat.vec, cross, vadd] <;> ring }

@[simp] theorem rotL_apply (q : Quat ℝ) (v : V3 ℝ) : rotL q v = q.rotate v := rfl

/-- The cross product with a fixed vector on the right. -/
noncomputable def crossL (t : V3 ℝ) : V3 ℝ →L[ℝ] V3 ℝ :=
  LinearMap.toContinuousLinearMap
    { toFun := fun v => cross v t
      map_add' := fun a b => by funext i; fin_cases i <;> simp [cross] <;> ring
      map_smul' := fun c a => by funext i; fin_cases i <;> simp [cross] <;> ring }

@[simp] theorem crossL_apply (t v : V3 ℝ) : crossL t v = cross v t := rfl

/-- Derivative of a rotated vector when both the rotation and the vector move. -/
theorem hasFDerivAt_rotate {q : E → Quat ℝ} {v : E → V3 ℝ} {ω : E →L[ℝ] V3 ℝ} {v' : E →L[ℝ] V3 ℝ} {x : E}
    (hu : ∀ y, IsUnitQ (q y)) (hq : HasRightDerivative q ω x) (hv : HasFDerivAt v v' x) :
    HasFDerivAt (fun y => (q y).rotate (v y)) ((rotL (q x)).comp (v' + (crossL (v x)).comp ω)) x := by
  obtain ⟨L, hL, eL⟩ := hq
  have h1 : HasFDerivAt (fun y => im (v y)) (imL.comp v') x := imL.hasFDerivAt.comp x hv
  have h2 : HasFDerivAt (fun y => star (toH (q y))) (starH.comp L) x := starH.hasFDerivAt.comp x hL
  have h4 := vecL.hasFDerivAt.comp x ((hL.mul' h1).mul' h2)
  have e : (fun y => (q y).rotate (v y)) = (⇑vecL ∘ fun y => toH (q y) * im (v y) * star (toH (q y))) := by
    funext y
    simp only [Function.comp]
    rw [← im_rotate (hu y), vecL_im]
  rw [e]
  refine h4.congr_fderiv ?_
  ext1 h
  rw [← vecL_im (((rotL (q x)).comp (v' + (crossL (v x)).comp ω)) h)]
  simp only [ContinuousLinearMap.comp_apply]
  congr 1
  rw [rotL_apply, im_rotate (hu x)]
  have h5 : im ((v' + (crossL (v x)).comp ω) h)
      = im (v' h) + (1 / 2 : ℝ) • (im (ω h) * im (v x) - im (v x) * im (ω h)) := by
    rw [← im_cross, ← im_add]
    rfl
  rw [h5]
  simp [eL, star_im, mul_add, add_mul, mul_sub, sub_mul, smul_sub, mul_assoc]
  abel

/-- Derivative of a product of rotations. -/
theorem hasRightDerivative_mul {q r : E → Quat ℝ} {ω Ω : E →L[ℝ] V3 ℝ} {x : E} (hr : IsUnitQ (r x))
    (hq : HasRightDerivative q ω x) (hR : HasRightDerivative r Ω x) :
    HasRightDerivative (fun y => (q y).mul (r y)) ((rotL (r x).conj).comp ω + Ω) x := by
  obtain ⟨L, hL, eL⟩ := hq
  obtain ⟨M, hM, eM⟩ := hR
  have h1 := hL.mul' hM
  refine ⟨toH (q x) • M + MulOpposite.op (toH (r x)) • L, ?_, fun h => ?_⟩
  · have e : (fun y => toH ((q y).mul (r y))) = fun y => toH (q y) * toH (r y) := by
      funext y; exact toH_mul _ _
    rw [e]
    exact h1
  · rw [toH_mul]
    have h5 : im (((rotL (r x).conj).comp ω + Ω) h) = star (toH (r x)) * im (ω h) * toH (r x) + im (Ω h) := by
      have e1 : im ((r x).conj.rotate (ω h)) = star (toH (r x)) * im (ω h) * toH (r x) := by
        rw [im_rotate (isUnit_conj hr), toH_conj, star_star]
      rw [← e1, ← im_add]
      rfl
    rw [h5]
    have hh : toH (r x) * star (toH (r x)) = 1 := mul_star_of_unit hr
    simp [eL, eM, mul_add, mul_assoc]
    rw [← mul_assoc (toH (r x)) (star (toH (r x))), hh, one_mul, add_comm]

/-- The links at `y`, as the list the code is given. -/
def linksAt {n : Nat} (links : Fin n → E → Pose ℝ) (y : E) : List (Pose ℝ) := List.ofFn fun i => links i y

omit [NormedAddCommGroup E] [NormedSpace ℝ E] in
theorem linksAt_succ {n : Nat} (links : Fin (n + 1) → E → Pose ℝ) (y : E) :
    linksAt links y = links 0 y :: linksAt (fun i => links i.succ) y := by
  unfold linksAt
  rw [List.ofFn_succ]

omit [NormedAddCommGroup E] [NormedSpace ℝ E] in
theorem linksAt_unit {n : Nat} {links : Fin n → E → Pose ℝ} (hu : ∀ i y, IsUnitQ (links i y).rotation) (y : E) :
    UnitLinks (linksAt links y) := by
  intro l hl
  obtain ⟨i, rfl⟩ := (List.mem_ofFn' _ _).1 hl
  exact hu i y

/-- The derivative of the composition, before the matrices of the code come in. -/
theorem chain_derivative {n : Nat} (links : Fin n → E → Pose ℝ) (ω τ : Fin n → E →L[ℝ] V3 ℝ) (x : E)
    (hu : ∀ i y, IsUnitQ (links i y).rotation)
    (hω : ∀ i, HasRightDerivative (fun y => (links i y).rotation) (ω i) x)
    (hτ : ∀ i, HasFDerivAt (fun y => (links i y).translation) (τ i) x) :
    ∃ D Ω : E →L[ℝ] V3 ℝ,
      HasFDerivAt (fun y => composed (linksAt links y) fun _ => 0) D x ∧
      HasRightDerivative (fun y => qprod (linksAt links y)) Ω x ∧
      (∀ h, D h = ∑ i : Fin n,
        ((qprod ((linksAt links x).take (i + 1))).rotate (cross (ω i h) (composed ((linksAt links x).drop (i + 1)) fun _ => 0))
          + (qprod ((linksAt links x).take i)).rotate (τ i h))) ∧
      ∀ h, Ω h = ∑ i : Fin n, (qprod ((linksAt links x).drop (i + 1))).conj.rotate (ω i h) := by
  induction n with
  | zero =>
    refine ⟨0, 0, ?_, ⟨0, ?_, fun h => ?_⟩, fun h => ?_, fun h => ?_⟩
    · exact hasFDerivAt_const (fun _ => (0 : ℝ) : V3 ℝ) x
    · exact hasFDerivAt_const (toH .one) x
    · have e : im (0 : V3 ℝ) = 0 := im_zero
      simp [e]
    · simp
    · simp
  | succ n ih =>
    obtain ⟨D, Ω, hD, hΩ, eD, eΩ⟩ := ih (fun i => links i.succ) (fun i => ω i.succ) (fun i => τ i.succ)
      (fun i y => hu i.succ y) (fun i => hω i.succ) (fun i => hτ i.succ)
    have huls := linksAt_unit (fun i y => hu (Fin.succ i) y)
    have h1 := (hasFDerivAt_rotate (fun y => hu 0 y) (hω 0) hD).add (hτ 0)
    have h2 := hasRightDerivative_mul (q := fun y => (links 0 y).rotation)
      (r := fun y => qprod (linksAt (fun i => links i.succ) y)) (qprod_unit (huls x)) (hω 0) hΩ
    refine ⟨(rotL (links 0 x).rotation).comp
      (D + (crossL (composed (linksAt (fun i => links i.succ) x) fun _ => 0)).comp (ω 0)) + τ 0,
      (rotL (qprod (linksAt (fun i => links i.succ) x)).conj).comp (ω 0) + Ω, ?_, ?_, fun h => ?_, fun h => ?_⟩
    · have e : (fun y => composed (linksAt links y) fun _ => 0)
          = (fun y => (links 0 y).rotation.rotate (composed (linksAt (fun i => links i.succ) y) fun _ => 0))
            + fun y => (links 0 y).translation := by
        funext y
        rw [linksAt_succ]
        rfl
      rw [e]
      exact h1
    · have e : (fun y => qprod (linksAt links y))
          = fun y => (links 0 y).rotation.mul (qprod (linksAt (fun i => links i.succ) y)) := by
        funext y
        rw [linksAt_succ]
        rfl
      rw [e]
      exact h2
    · rw [Fin.sum_univ_succ, linksAt_succ]
      have h3 : ∀ (k : Nat) (v : V3 ℝ), (links 0 x).rotation.rotate
          ((qprod ((linksAt (fun i => links i.succ) x).take k)).rotate v)
          = (qprod ((links 0 x :: linksAt (fun i => links i.succ) x).take (k + 1))).rotate v := by
        intro k v
        rw [List.take_succ_cons, qprod, rotate_mul (hu 0 x) (qprod_unit (UnitLinks.take (huls x) k))]
      have h4 : (links 0 x).rotation.rotate (D h) = ∑ i : Fin n,
          ((qprod ((links 0 x :: linksAt (fun i => links i.succ) x).take (i + 1 + 1))).rotate (cross (ω i.succ h)
            (composed ((linksAt (fun i => links i.succ) x).drop (i + 1)) fun _ => 0))
          + (qprod ((links 0 x :: linksAt (fun i => links i.succ) x).take (i + 1))).rotate (τ i.succ h)) := by
        rw [eD h, ← rotL_apply, map_sum]
        refine Finset.sum_congr rfl fun i _ => ?_
        rw [map_add, rotL_apply, rotL_apply, h3, h3]
      have h5 : ∀ a b, (links 0 x).rotation.rotate (a + b) = (links 0 x).rotation.rotate a + (links 0 x).rotation.rotate b :=
        fun a b => rotate_add _ a b
      show (links 0 x).rotation.rotate (D h + cross (ω 0 h) _) + τ 0 h = _
      rw [h5, h4]
      have h6 := h3 0 (cross (ω 0 h) (composed (linksAt (fun i => links i.succ) x) fun _ => 0))
      simp only [List.take_zero, qprod, one_rotate] at h6
      rw [h6]
      have h7 : (qprod ([] : List (Pose ℝ))).rotate (τ 0 h) = τ 0 h := one_rotate _
      simp only [Fin.val_zero, List.take_zero, h7, zero_add, List.drop_succ_cons, List.drop_zero, Fin.val_succ]
      abel
    · rw [Fin.sum_univ_succ, linksAt_succ]
      show (qprod _).conj.rotate (ω 0 h) + Ω h = _
      rw [eΩ h]
      simp only [Fin.val_zero, zero_add, List.drop_succ_cons, List.drop_zero, Fin.val_succ]

/-! ## The matrices of the code -/

theorem startRotations_get (s : Quat ℝ) (ls : List (Pose ℝ)) (i : Nat) (hi : i < ls.length) :
    (startRotations s ls)[i]? = some (s.mul (qprod (ls.take i))).matrix := by
  induction ls generalizing s i with
  | nil => simp at hi
  | cons l ls ih =>
    rw [startRotations]
    cases i with
    | zero =>
      have : s.mul .one = s := by apply toH_inj; rw [toH_mul, toH_one, mul_one]
      simp [qprod, this]
    | succ i =>
      rw [List.getElem?_cons_succ, ih _ _ (by simpa using hi), List.take_succ_cons, qprod]
      congr 2
      apply toH_inj
      simp only [toH_mul, mul_assoc]

theorem startRotations_length (s : Quat ℝ) (ls : List (Pose ℝ)) : (startRotations s ls).length = ls.length := by
  induction ls generalizing s with
  | nil => rfl
  | cons l ls ih => simp [startRotations, ih]

theorem one_mulQ (q : Quat ℝ) : Quat.one.mul q = q := by
  apply toH_inj; rw [toH_mul, toH_one, one_mul]

/-- `translation_D_translation`, block `i`. -/
theorem transDTrans_get (ls : List (Pose ℝ)) (i : Nat) (hi : i < ls.length) :
    ∃ M, (computeChain ls).transDTrans[i]? = some M ∧ ∀ v, mvec M v = (qprod (ls.take i)).rotate v := by
  have hne : ls ≠ [] := by rintro rfl; simp at hi
  refine ⟨_, ?_, fun v => matrix_mvec _ v⟩
  rw [(computeChain_fields hne).2.2, startRotations_get _ _ _ hi, one_mulQ]

theorem cross_neg_swap (a b : V3 ℝ) : cross (fun i => - a i) b = cross b a := by
  funext i
  fin_cases i <;> simp [cross] <;> ring

theorem cross_zero (a : V3 ℝ) : cross a (fun _ => 0) = fun _ => 0 := by
  funext i
  fin_cases i <;> simp [cross]

/-- `translation_D_rotation`, block `i`. -/
theorem transDRot_get (ls : List (Pose ℝ)) (i : Nat) (hi : i < ls.length) :
    ∃ M, (computeChain ls).transDRot[i]? = some M ∧
      ∀ v, mvec M v = (qprod (ls.take (i + 1))).rotate (cross v (composed (ls.drop (i + 1)) fun _ => 0)) := by
  have hne : ls ≠ [] := by rintro rfl; simp at hi
  have e : (computeChain ls).transDRot = List.zipWith (fun R t => mmul R (skew3 fun i => - t i))
      (startRotations .one ls).tail (translationsToEnd ls).tail ++ [fun _ _ => 0] := by
    cases ls with
    | nil => exact absurd rfl hne
    | cons l ls => rfl
  have hl : (List.zipWith (fun R t => mmul R (skew3 fun i => - t i))
      (startRotations .one ls).tail (translationsToEnd ls).tail).length = ls.length - 1 := by
    simp [startRotations_length, translationsToEnd_length]
  rw [e]
  by_cases hlast : i < ls.length - 1
  · rw [List.getElem?_append_left (by rw [hl]; exact hlast), List.getElem?_zipWith, List.getElem?_tail, List.getElem?_tail,
      startRotations_get _ _ _ (by omega), translationsToEnd_get _ _ (by omega), one_mulQ]
    refine ⟨_, rfl, fun v => ?_⟩
    rw [mmul_mvec, skew3_mvec, matrix_mvec, cross_neg_swap]
  · have hil : i = ls.length - 1 := by omega
    rw [List.getElem?_append_right (by rw [hl]; omega), hl]
    refine ⟨fun _ _ => 0, by rw [hil]; simp, fun v => ?_⟩
    have h1 : ls.drop (i + 1) = [] := List.drop_eq_nil_of_le (by omega)
    rw [h1, zero_mvec]
    simp only [composed]
    rw [cross_zero, rotate_zero]

/-- `rotation_D_rotation`, block `i`. -/
theorem rotDRot_get (ls : List (Pose ℝ)) (i : Nat) (hi : i < ls.length) :
    ∃ M, (computeChain ls).rotDRot[i]? = some M ∧
      ∀ v, mvec M v = (qprod (ls.drop (i + 1))).conj.rotate v := by
  have hne : ls ≠ [] := by rintro rfl; simp at hi
  have e : (computeChain ls).rotDRot = (((rotationsToEnd ls).tail.take (ls.length - 1)).map fun r => r.conj.matrix)
      ++ [ident] := by
    cases ls with
    | nil => exact absurd rfl hne
    | cons l ls => rfl
  have hl : (((rotationsToEnd ls).tail.take (ls.length - 1)).map fun r => r.conj.matrix).length = ls.length - 1 := by
    simp [rotationsToEnd_length]
  rw [e]
  by_cases hlast : i < ls.length - 1
  · rw [List.getElem?_append_left (by rw [hl]; exact hlast), List.getElem?_map, List.getElem?_take_of_lt hlast,
      List.getElem?_tail, rotationsToEnd_get _ _ (by omega)]
    exact ⟨_, rfl, fun v => matrix_mvec _ v⟩
  · have hil : i = ls.length - 1 := by omega
    rw [List.getElem?_append_right (by rw [hl]; omega), hl]
    refine ⟨ident, by rw [hil]; simp, fun v => ?_⟩
    have h1 : ls.drop (i + 1) = [] := List.drop_eq_nil_of_le (by omega)
    have h2 : (Quat.one : Quat ℝ).conj = .one := by unfold Quat.conj Quat.one; simp
    rw [h1, ident_mvec, qprod, h2, one_rotate]

theorem rotDRot_length {ls : List (Pose ℝ)} (h : ls ≠ []) : (computeChain ls).rotDRot.length = ls.length := by
  cases ls with
  | nil => exact absurd rfl h
  | cons l ls =>
    show (((rotationsToEnd (l :: ls)).tail.take ((l :: ls).length - 1)).map (fun r : Quat ℝ => r.conj.matrix) ++ [ident]).length = _
    simp [rotationsToEnd_length]

theorem transDRot_length {ls : List (Pose ℝ)} (h : ls ≠ []) : (computeChain ls).transDRot.length = ls.length := by
  cases ls with
  | nil => exact absurd rfl h
  | cons l ls =>
    show (List.zipWith (fun (R : M3 ℝ) (t : V3 ℝ) => mmul R (skew3 fun i => - t i)) (startRotations .one (l :: ls)).tail
      (translationsToEnd (l :: ls)).tail ++ [fun _ _ => 0]).length = _
    simp [startRotations_length, translationsToEnd_length]

theorem transDTrans_length {ls : List (Pose ℝ)} (h : ls ≠ []) : (computeChain ls).transDTrans.length = ls.length := by
  rw [(computeChain_fields h).2.2, startRotations_length]

/-- **C72** (derivatives of a chain). Let every link of a non empty chain move with a parameter `y`: the rotation with right
velocity `ω i`, the translation with derivative `τ i`. Then the end of the chain, as reported by `start_T_end`, has
translation derivative `Σ translation_D_rotation[i] ω[i] + translation_D_translation[i] τ[i]` and right velocity
`Σ rotation_D_rotation[i] ω[i]`, with the blocks computed by `ComputeChain`. -/
theorem C72_chain_derivatives {n : Nat} (hn : 0 < n) (links : Fin n → E → Pose ℝ) (ω τ : Fin n → E →L[ℝ] V3 ℝ) (x : E)
    (hu : ∀ i y, IsUnitQ (links i y).rotation)
    (hω : ∀ i, HasRightDerivative (fun y => (links i y).rotation) (ω i) x)
    (hτ : ∀ i, HasFDerivAt (fun y => (links i y).translation) (τ i) x)
    (effector : E → Pose ℝ) (heff : ∀ y, (computeChain (List.ofFn fun i => links i y)).startTEnd = .ok (effector y))
    (c : Buffer ℝ) (hc : c = computeChain (List.ofFn fun i => links i x)) :
    c.rotDRot.length = n ∧ c.transDRot.length = n ∧ c.transDTrans.length = n ∧
    ∀ rotDRot transDRot transDTrans : Fin n → M3 ℝ, (∀ i : Fin n, c.rotDRot[i.val]? = some (rotDRot i)) →
      (∀ i : Fin n, c.transDRot[i.val]? = some (transDRot i)) → (∀ i : Fin n, c.transDTrans[i.val]? = some (transDTrans i)) →
      ∃ D Ω : E →L[ℝ] V3 ℝ,
        HasFDerivAt (fun y => (effector y).translation) D x ∧ HasRightDerivative (fun y => (effector y).rotation) Ω x ∧
        (∀ h, D h = ∑ i, (Matrix.mulVec (transDRot i) (ω i h) + Matrix.mulVec (transDTrans i) (τ i h))) ∧
        ∀ h, Ω h = ∑ i, Matrix.mulVec (rotDRot i) (ω i h) := by
  subst hc
  have hlen : (linksAt links x).length = n := by simp [linksAt]
  have hne : ∀ y, linksAt links y ≠ [] := by
    intro y h
    have := congrArg List.length h
    simp [linksAt] at this
    omega
  have heq : ∀ y, effector y = ⟨qprod (linksAt links y), composed (linksAt links y) fun _ => 0⟩ := by
    intro y
    have h := heff y
    change (computeChain (linksAt links y)).startTEnd = _ at h
    obtain ⟨e1, e2, -⟩ := computeChain_fields (hne y)
    unfold Buffer.startTEnd at h
    rw [e1, e2] at h
    obtain ⟨l, ls, hl⟩ : ∃ l ls, linksAt links y = l :: ls := by
      cases hh : linksAt links y with
      | nil => exact absurd hh (hne y)
      | cons l ls => exact ⟨l, ls, rfl⟩
    rw [hl, rotationsToEnd_cons, translationsToEnd_cons] at h
    rw [hl]
    injection h with h
    exact h.symm
  have mv : ∀ (M : M3 ℝ) (v : V3 ℝ), Matrix.mulVec M v = mvec M v := by
    intro M v
    funext i
    simp [Matrix.mulVec, dotProduct, Fin.sum_univ_three, mvec, matVec, dot, List.ofFn_succ]
    ring
  refine ⟨?_, ?_, ?_, ?_⟩
  · exact (rotDRot_length (hne x)).trans hlen
  · exact (transDRot_length (hne x)).trans hlen
  · exact (transDTrans_length (hne x)).trans hlen
  intro rr tr tt hrr htr htt
  obtain ⟨D, Ω, hD, hΩ, eD, eΩ⟩ := chain_derivative links ω τ x hu hω hτ
  refine ⟨D, Ω, ?_, ?_, fun h => ?_, fun h => ?_⟩
  · simpa only [heq] using hD
  · simpa only [heq] using hΩ
  · rw [eD h]
    refine Finset.sum_congr rfl fun i _ => ?_
    obtain ⟨M1, g1, k1⟩ := transDRot_get (linksAt links x) i (by rw [hlen]; exact i.isLt)
    obtain ⟨M2, g2, k2⟩ := transDTrans_get (linksAt links x) i (by rw [hlen]; exact i.isLt)
    have e1 : tr i = M1 := Option.some.inj ((htr i).symm.trans g1)
    have e2 : tt i = M2 := Option.some.inj ((htt i).symm.trans g2)
    rw [mv, mv, e1, e2, k1, k2]
  · rw [eΩ h]
    refine Finset.sum_congr rfl fun i _ => ?_
    obtain ⟨M1, g1, k1⟩ := rotDRot_get (linksAt links x) i (by rw [hlen]; exact i.isLt)
    have e1 : rr i = M1 := Option.some.inj ((hrr i).symm.trans g1)
    rw [mv, e1, k1]

/-! ## One link at a time -/

/-- A pose whose rotation is followed by `g` and whose translation is moved by `d`. -/
noncomputable def nudged (p : Pose ℝ) (g : Quat ℝ) (d : V3 ℝ) : Pose ℝ := ⟨p.rotation.mul g, vadd p.translation d⟩

theorem hasRightDerivative_of_velocity {q : ℝ → Quat ℝ} {v : V3 ℝ} {s : ℝ} (h : HasRightVelocity q v s) :
    HasRightDerivative q (ContinuousLinearMap.toSpanSingleton ℝ v) s := by
  refine ⟨ContinuousLinearMap.toSpanSingleton ℝ (toH (q s) * ((1 / 2 : ℝ) • im v)), h, fun r => ?_⟩
  have e : im (ContinuousLinearMap.toSpanSingleton ℝ v r) = r • im v := by
    rw [← im_smul]; rfl
  rw [e]
  simp only [ContinuousLinearMap.toSpanSingleton_apply, mul_smul_comm]
  rw [smul_comm]

theorem velocity_of_hasRightDerivative {q : ℝ → Quat ℝ} {D : ℝ →L[ℝ] V3 ℝ} {s : ℝ} (h : HasRightDerivative q D s) :
    HasRightVelocity q (D 1) s := by
  obtain ⟨L, hL, e⟩ := h
  unfold HasRightVelocity
  rw [← e 1]
  exact hL.hasDerivAt

/-- **C72** (meaning of each block). Let `γ` be a curve of rotations through the identity with velocity `v`, and `d` a
direction. If only link `k` of the chain is changed, its rotation being followed by `γ s` and its translation moved by
`s d`, then at `s = 0` the translation of the effector changes at the rate
`translation_D_rotation[k] v + translation_D_translation[k] d`, and its rotation with right velocity
`rotation_D_rotation[k] v`. -/
theorem C72_one_link {n : Nat} (links : Fin n → Pose ℝ) (hu : ∀ i, IsUnitQ (links i).rotation) (k : Fin n)
    (γ : ℝ → Quat ℝ) (v d : V3 ℝ) (hγ : ∀ s, IsUnitQ (γ s)) (h0 : γ 0 = .one) (hv : HasRightVelocity γ v 0)
    (effector : ℝ → Pose ℝ)
    (heff : ∀ s, (computeChain (List.ofFn fun i => if i = k then nudged (links i) (γ s) (s • d) else links i)).startTEnd
      = .ok (effector s)) :
    ∃ rr tr tt : M3 ℝ, (computeChain (List.ofFn links)).rotDRot[k.val]? = some rr ∧
      (computeChain (List.ofFn links)).transDRot[k.val]? = some tr ∧
      (computeChain (List.ofFn links)).transDTrans[k.val]? = some tt ∧
      HasDerivAt (fun s => (effector s).translation) (Matrix.mulVec tr v + Matrix.mulVec tt d) 0 ∧
      HasRightVelocity (fun s => (effector s).rotation) (Matrix.mulVec rr v) 0 := by
  have hn : 0 < n := lt_of_le_of_lt (Nat.zero_le _) k.isLt
  have mulOne : ∀ q : Quat ℝ, q.mul .one = q := fun q => by apply toH_inj; rw [toH_mul, toH_one, mul_one]
  have eat : (List.ofFn fun i => if i = k then nudged (links i) (γ 0) ((0 : ℝ) • d) else links i) = List.ofFn links := by
    congr 1
    funext i
    split
    · unfold nudged
      rw [h0, mulOne]
      have : vadd (links i).translation ((0 : ℝ) • d) = (links i).translation := by funext j; simp [vadd]
      rw [this]
    · rfl
  have hc := C72_chain_derivatives (E := ℝ) hn
    (fun i s => if i = k then nudged (links i) (γ s) (s • d) else links i)
    (fun i => if i = k then ContinuousLinearMap.toSpanSingleton ℝ v else 0)
    (fun i => if i = k then ContinuousLinearMap.toSpanSingleton ℝ d else 0) 0
    (fun i s => by
      split
      · exact isUnit_mul (hu i) (hγ s)
      · exact hu i)
    (fun i => by
      by_cases hi : i = k
      · simp only [if_pos hi]
        have h1 := hasRightDerivative_of_velocity hv
        have hconst : HasRightDerivative (fun _ : ℝ => (links i).rotation) 0 0 := by
          refine ⟨0, hasFDerivAt_const _ _, fun h => ?_⟩
          have e : im (0 : V3 ℝ) = 0 := im_zero
          simp [e]
        have h2 := hasRightDerivative_mul (hγ 0) hconst h1
        have e3 : (rotL (γ 0).conj).comp (0 : ℝ →L[ℝ] V3 ℝ) + ContinuousLinearMap.toSpanSingleton ℝ v
            = ContinuousLinearMap.toSpanSingleton ℝ v := by simp
        rw [e3] at h2
        exact h2
      · simp only [if_neg hi]
        refine ⟨0, hasFDerivAt_const _ _, fun h => ?_⟩
        have e : im (0 : V3 ℝ) = 0 := im_zero
        simp [e])
    (fun i => by
      by_cases hi : i = k
      · simp only [if_pos hi]
        exact (ContinuousLinearMap.toSpanSingleton ℝ d).hasFDerivAt.const_add (links i).translation
      · simp only [if_neg hi]
        exact hasFDerivAt_const _ _)
    effector heff (computeChain (List.ofFn links)) (by rw [eat])
  obtain ⟨l1, l2, l3, hc⟩ := hc
  obtain ⟨D, Ω, hD, hΩ, eD, eΩ⟩ := hc (fun i => (computeChain (List.ofFn links)).rotDRot[i.val]'(by rw [l1]; exact i.isLt))
    (fun i => (computeChain (List.ofFn links)).transDRot[i.val]'(by rw [l2]; exact i.isLt))
    (fun i => (computeChain (List.ofFn links)).transDTrans[i.val]'(by rw [l3]; exact i.isLt))
    (fun i => List.getElem?_eq_getElem _) (fun i => List.getElem?_eq_getElem _) (fun i => List.getElem?_eq_getElem _)
  refine ⟨_, _, _, List.getElem?_eq_getElem (by rw [l1]; exact k.isLt), List.getElem?_eq_getElem (by rw [l2]; exact k.isLt),
    List.getElem?_eq_getElem (by rw [l3]; exact k.isLt), ?_, ?_⟩
  · have h1 := hD.hasDerivAt
    rw [eD 1, Finset.sum_eq_single k] at h1
    · simpa using h1
    · intro i _ hi
      simp only [if_neg hi]
      have e0 : ∀ M : M3 ℝ, Matrix.mulVec M ((0 : ℝ →L[ℝ] V3 ℝ) 1) = 0 := fun M => Matrix.mulVec_zero M
      simp only [e0, add_zero]
    · simp
  · have h1 := velocity_of_hasRightDerivative hΩ
    rw [eΩ 1, Finset.sum_eq_single k] at h1
    · simpa using h1
    · intro i _ hi
      simp only [if_neg hi]
      have e0 : ∀ M : M3 ℝ, Matrix.mulVec M ((0 : ℝ →L[ℝ] V3 ℝ) 1) = 0 := fun M => Matrix.mulVec_zero M
      exact e0 _
    · simp

/-! ## Non vacuity: turning about an axis -/

/-- The rotation by the angle `s` about the unit vector `n`. -/
noncomputable def axisQ (n : V3 ℝ) (s : ℝ) : Quat ℝ :=
  ⟨Real.cos (s / 2), n 0 * Real.sin (s / 2), n 1 * Real.sin (s / 2), n 2 * Real.sin (s / 2)⟩

theorem axisQ_unit {n : V3 ℝ} (hn : n 0 ^ 2 + n 1 ^ 2 + n 2 ^ 2 = 1) (s : ℝ) : IsUnitQ (axisQ n s) := by
  rw [isUnit_iff]
  unfold axisQ
  have h := Real.sin_sq_add_cos_sq (s / 2)
  simp only
  calc _ = Real.cos (s / 2) ^ 2 + (n 0 ^ 2 + n 1 ^ 2 + n 2 ^ 2) * Real.sin (s / 2) ^ 2 := by ring
    _ = 1 := by rw [hn]; linarith

/-- Its right velocity is the axis. -/
theorem axisQ_velocity {n : V3 ℝ} (hn : n 0 ^ 2 + n 1 ^ 2 + n 2 ^ 2 = 1) (s : ℝ) : HasRightVelocity (axisQ n) n s := by
  unfold HasRightVelocity
  have hs : HasDerivAt (fun t : ℝ => Real.sin (t / 2)) (Real.cos (s / 2) * (1 / 2)) s :=
    ((hasDerivAt_id s).div_const 2).sin
  have hcs : HasDerivAt (fun t : ℝ => Real.cos (t / 2)) (- Real.sin (s / 2) * (1 / 2)) s :=
    ((hasDerivAt_id s).div_const 2).cos
  have e : (fun t => toH (axisQ n t)) = fun t => Real.cos (t / 2) • (1 : ℍ[ℝ]) + Real.sin (t / 2) • im n := by
    funext t
    ext <;> simp [axisQ] <;> ring
  rw [e]
  have h := (hcs.smul_const (1 : ℍ[ℝ])).add (hs.smul_const (im n))
  have e2 : toH (axisQ n s) * ((1 / 2 : ℝ) • im n)
      = (- Real.sin (s / 2) * (1 / 2)) • (1 : ℍ[ℝ]) + (Real.cos (s / 2) * (1 / 2)) • im n := by
    ext
    · simp [axisQ]
      calc _ = - ((n 0 ^ 2 + n 1 ^ 2 + n 2 ^ 2) * Real.sin (s / 2) * 2⁻¹) := by ring
        _ = _ := by rw [hn]; ring
    all_goals
      simp [axisQ]
      ring
  rw [e2]
  exact h

theorem axisQ_zero (n : V3 ℝ) : axisQ n 0 = .one := by
  unfold axisQ Quat.one
  simp

/-- The hypotheses of the theorem on one link can be met by any chain of unit rotations: turn link `k` about a unit axis. -/
example {n : Nat} (links : Fin n → Pose ℝ) (hu : ∀ i, IsUnitQ (links i).rotation) (k : Fin n) (a d : V3 ℝ)
    (ha : a 0 ^ 2 + a 1 ^ 2 + a 2 ^ 2 = 1) : ∃ (effector : ℝ → Pose ℝ) (tr tt : M3 ℝ),
    (∀ s, (computeChain (List.ofFn fun i => if i = k then nudged (links i) (axisQ a s) (s • d) else links i)).startTEnd
      = .ok (effector s)) ∧
    (computeChain (List.ofFn links)).transDRot[k.val]? = some tr ∧
    (computeChain (List.ofFn links)).transDTrans[k.val]? = some tt ∧
    HasDerivAt (fun s => (effector s).translation) (Matrix.mulVec tr a + Matrix.mulVec tt d) 0 := by
  have h : ∀ s, ∃ p, (computeChain (List.ofFn fun i => if i = k then nudged (links i) (axisQ a s) (s • d)
      else links i)).startTEnd = .ok p := by
    intro s
    obtain ⟨p, hp, -⟩ := C71_start_T_end (List.ofFn fun i => if i = k then nudged (links i) (axisQ a s) (s • d)
      else links i) (by
        intro h
        have h1 := congrArg List.length h
        rw [List.length_ofFn] at h1
        exact absurd (lt_of_lt_of_eq k.isLt h1) (Nat.not_lt_zero _)) (by
        intro l hl
        obtain ⟨i, rfl⟩ := (List.mem_ofFn' _ _).1 hl
        simp only
        split
        · exact isUnit_mul (hu i) (axisQ_unit ha s)
        · exact hu i)
    exact ⟨p, hp⟩
  choose eff heff using h
  obtain ⟨rr, tr, tt, -, h2, h3, h4, -⟩ := C72_one_link links hu k (axisQ a) a d (axisQ_unit ha) (axisQ_zero a)
    (axisQ_velocity ha 0) eff heff
  exact ⟨eff, tr, tt, heff, h2, h3, h4⟩

end MiniOpt.Props
