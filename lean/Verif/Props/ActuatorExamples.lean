import Verif.Props.Actuator
import Verif.Props.ActuatorUpdate
import Verif.Lemmas.F64

/-!
# Concrete actuator chains for C73, C74 and C75
-/

set_option autoImplicit false

namespace MiniOpt.Props

open scoped Quaternion
open MiniOpt.TC MiniOpt.TC.Spec

/-- The axes. -/
def eX : V3 ℝ := ![1, 0, 0]
def eY : V3 ℝ := ![0, 1, 0]
def eZ : V3 ℝ := ![0, 0, 1]

/-- Rotation from Euler angles in the order XYZ, with its derivative in the right tangent space. -/
noncomputable def xyzSo3 (a : V3 ℝ) : Quat ℝ × M3 ℝ :=
  let qx := axisQ eX (a 0)
  let qy := axisQ eY (a 1)
  let qz := axisQ eZ (a 2)
  (qx.mul (qy.mul qz),
    fun i j => ![qz.conj.rotate (qy.conj.rotate eX) i, qz.conj.rotate eY i, eZ i] j)

/-- Those two functions satisfy the contract. -/
theorem xyz_contract (euler : Quat ℝ → V3 ℝ) : EulerContract ⟨euler, xyzSo3⟩ := by
  have hX : eX 0 ^ 2 + eX 1 ^ 2 + eX 2 ^ 2 = 1 := by simp [eX]
  have hY : eY 0 ^ 2 + eY 1 ^ 2 + eY 2 ^ 2 = 1 := by simp [eY]
  have hZ : eZ 0 ^ 2 + eZ 1 ^ 2 + eZ 2 ^ 2 = 1 := by simp [eZ]
  have hd : ∀ (n : V3 ℝ) (_ : n 0 ^ 2 + n 1 ^ 2 + n 2 ^ 2 = 1) (k : Fin 3) (a : V3 ℝ),
      HasRightDerivative (fun b : V3 ℝ => axisQ n (b k))
        ((ContinuousLinearMap.toSpanSingleton ℝ n).comp (ContinuousLinearMap.proj k)) a := by
    intro n hn k a
    obtain ⟨L, hL, eL⟩ := hasRightDerivative_of_velocity (axisQ_velocity hn (a k))
    refine ⟨L.comp (ContinuousLinearMap.proj k), ?_, fun h => eL (h k)⟩
    have hk : HasFDerivAt (fun b : V3 ℝ => b k) (ContinuousLinearMap.proj (R := ℝ) (φ := fun _ : Fin 3 => ℝ) k) a :=
      (ContinuousLinearMap.proj (R := ℝ) (φ := fun _ : Fin 3 => ℝ) k).hasFDerivAt
    exact HasFDerivAt.comp (g := fun s => toH (axisQ n s)) a hL hk
  refine ⟨fun a => isUnit_mul (axisQ_unit hX _) (isUnit_mul (axisQ_unit hY _) (axisQ_unit hZ _)), fun a => ?_⟩
  have h1 := hasRightDerivative_mul (q := fun b : V3 ℝ => axisQ eY (b 1)) (r := fun b : V3 ℝ => axisQ eZ (b 2))
    (axisQ_unit hZ _) (hd eY hY 1 a) (hd eZ hZ 2 a)
  have h2 := hasRightDerivative_mul (q := fun b : V3 ℝ => axisQ eX (b 0))
    (r := fun b : V3 ℝ => (axisQ eY (b 1)).mul (axisQ eZ (b 2)))
    (isUnit_mul (axisQ_unit hY _) (axisQ_unit hZ _)) (hd eX hX 0 a) h1
  refine ⟨_, fun h i => ?_, h2⟩
  have hconj : ((axisQ eY (a 1)).mul (axisQ eZ (a 2))).conj = (axisQ eZ (a 2)).conj.mul (axisQ eY (a 1)).conj := by
    apply toH_inj
    rw [toH_conj, toH_mul, toH_mul, toH_conj, toH_conj, StarMul.star_mul]
  have e : ∀ v : V3 ℝ, ((axisQ eY (a 1)).mul (axisQ eZ (a 2))).conj.rotate v
      = (axisQ eZ (a 2)).conj.rotate ((axisQ eY (a 1)).conj.rotate v) := by
    intro v
    rw [hconj, rotate_mul (isUnit_conj (axisQ_unit hZ _)) (isUnit_conj (axisQ_unit hY _))]
  have hs : ∀ (q : Quat ℝ) (c : ℝ) (v : V3 ℝ), q.rotate (c • v) = c • q.rotate v := fun q c v => (rotL q).map_smul c v
  show (((axisQ eY (a 1)).mul (axisQ eZ (a 2))).conj.rotate (h 0 • eX)
    + ((axisQ eZ (a 2)).conj.rotate (h 1 • eY) + h 2 • eZ)) i = _
  rw [hs, hs, e]
  simp [Fin.sum_univ_three, xyzSo3]
  ring

/-- The first link of the arm below. -/
noncomputable def armA : Link ℝ := ⟨⟨.one, ![0, 0, 0]⟩, ![false, false, true, false, false, false], fun _ => 0⟩

/-- The second link of the arm below. -/
noncomputable def armB : Link ℝ := ⟨⟨.one, ![1, 0, 0]⟩, ![false, false, false, true, false, false], fun _ => 0⟩

/-- An arm of two links: the first turns about the third axis (parameter 0), the second slides along its first axis
(parameter 1). -/
noncomputable def arm : List (Link ℝ) := [armA, armB]

theorem arm_total : totalActive arm = 2 := by
  have e : List.finRange 6 = [0, 1, 2, 3, 4, 5] := by decide
  simp [totalActive, arm, armA, armB, Link.activeCount, e, List.filter]

/-- The hypotheses of the theorem on derivatives hold for the arm. -/
example : ∃ (c : (Fin 2 → ℝ) → Chain ℝ) (t : (Fin 2 → ℝ) → V3 ℝ), ∀ y,
    update ⟨fun _ => 0, xyzSo3⟩ (List.ofFn y) (.fresh arm) = .ok (c y) ∧ (c y).translation = .ok (t y) ∧
    DifferentiableAt ℝ t y := by
  obtain ⟨c, r, t, h1, h2⟩ := C73_update_derivatives ⟨fun _ => 0, xyzSo3⟩ (xyz_contract _) arm arm_total (by omega) (by
    intro l hl
    simp only [arm, List.mem_cons, List.not_mem_nil, or_false] at hl
    rcases hl with rfl | rfl
    · exact isUnit_one
    · exact isUnit_one)
  refine ⟨c, t, fun y => ⟨(h1 y).1, (h1 y).2.2, ?_⟩⟩
  obtain ⟨l1, l2, h3⟩ := h2 y
  obtain ⟨D, Ω, hD, -⟩ := h3 (fun j => (c y).rotD[j.val]'(by rw [l1]; exact j.isLt))
    (fun j => (c y).transD[j.val]'(by rw [l2]; exact j.isLt)) (fun j => List.getElem?_eq_getElem _)
    (fun j => List.getElem?_eq_getElem _)
  exact hD.differentiableAt

theorem xyz_zero : xyzSo3 ![0, 0, 0] = (.one, ident) := by
  have h1 : ∀ v : V3 ℝ, (Quat.one : Quat ℝ).conj.rotate v = v := by
    intro v
    have h2 : (Quat.one : Quat ℝ).conj = .one := by unfold Quat.conj Quat.one; simp
    rw [h2, one_rotate]
  have h3 : (Quat.one : Quat ℝ).mul .one = .one := one_mulQ _
  unfold xyzSo3
  simp only [Matrix.cons_val, axisQ_zero, h1, h3]
  congr 1
  funext i j
  fin_cases i <;> fin_cases j <;> simp [eX, eY, eZ, ident]

/-- At the angle zero and the extension `2` the effector is at `(2, 0, 0)`; turning moves it along the second axis at the
rate `2`, sliding along the first at the rate `1`. -/
example : ∃ c, update ⟨fun _ => 0, xyzSo3⟩ [0, 2] (.fresh arm) = .ok c ∧ c.translation = .ok ![2, 0, 0] ∧
    c.transD = [![0, 2, 0], ![1, 0, 0]] ∧ c.rotD = [![0, 0, 1], ![0, 0, 0]] := by
  have htot : total arm = 2 := by rw [← totalActive_eq]; exact arm_total
  have hf : List.finRange 3 = [0, 1, 2] := by decide
  have hf6 : List.finRange 6 = [0, 1, 2, 3, 4, 5] := by decide
  have e0 : (Fin.castLE (by omega : 3 ≤ 6) (0 : Fin 3)) = (0 : Fin 6) := rfl
  have e1 : (Fin.castLE (by omega : 3 ≤ 6) (1 : Fin 3)) = (1 : Fin 6) := rfl
  have e2 : (Fin.castLE (by omega : 3 ≤ 6) (2 : Fin 3)) = (2 : Fin 6) := rfl
  have hz : (fun _ => 0 : V3 ℝ) = ![0, 0, 0] := by funext i; fin_cases i <;> rfl
  have h3 : (Quat.one : Quat ℝ).mul .one = .one := one_mulQ _
  have hp : posesOf ⟨fun _ => 0, xyzSo3⟩ arm [0, 2] = [⟨.one, ![0, 0, 0]⟩, ⟨.one, ![2, 0, 0]⟩] := by
    simp [arm, armA, armB, posesOf, linkPose, Link.activeRotationCount, Link.angles, Link.trans, Link.rotEntries,
      Link.transEntries, subst, vec3, at3, xyz_zero, Link.activeCount, hf6, List.filter]
  have hA : linkJ ⟨fun _ => 0, xyzSo3⟩ armA [0, 2] = [![0, 0, 1]] := by
    simp [linkJ, Link.rotAxes, hf, armA, List.filter, e0, e1, e2, Link.angles, subst, Link.rotEntries, vec3, at3, xyz_zero]
    funext i
    fin_cases i <;> simp [col, ident]
  have hB : ∀ ps, linkJ ⟨fun _ => 0, xyzSo3⟩ armB ps = [] := by
    intro ps
    simp [linkJ, Link.rotAxes, hf, armB, List.filter, e0, e1, e2]
  have tA : ∀ M, activeTranslationCols armA M = [] := by
    intro M
    simp [activeTranslationCols, armA, hf, List.filter]
  have tB : ∀ M, activeTranslationCols armB M = [col M 0] := by
    intro M
    simp [activeTranslationCols, armB, hf, List.filter]
  have cA : armA.activeCount = 1 ∧ armA.activeRotationCount = 1 := by
    simp [armA, Link.activeCount, Link.activeRotationCount, hf6, List.filter]
  have cB : armB.activeCount = 1 ∧ armB.activeRotationCount = 0 := by
    simp [armB, Link.activeCount, Link.activeRotationCount, hf6, List.filter]
  refine ⟨_, update_fresh _ arm [0, 2] [] (by rw [htot]; rfl) (by simp), ?_, ?_, ?_⟩
  · simp only [Chain.translation, updated, hp, computeChain, translationsToEnd, one_rotate]
    congr 1
    funext i
    fin_cases i <;> simp [vadd]
  · simp only [updated, hp]
    simp only [computeChain, translationsToEnd, startRotations, one_rotate]
    simp only [arm]
    simp only [List.tail_cons, List.zipWith_cons_cons, List.zipWith_nil_left, List.cons_append, List.nil_append, transCols,
      hA, hB, tA, tB, List.map_cons, List.map_nil, h3, mmul_mvec, matrix_mvec, skew3_mvec, one_rotate]
    congr 1
    · funext i
      fin_cases i <;> simp [cross, vadd]
    · congr 1
      funext i
      fin_cases i <;> simp [col, Quat.matrix, Quat.one]
  · simp only [updated, hp]
    simp only [computeChain, rotationsToEnd]
    simp only [arm]
    have ho : (Quat.one : Quat ℝ).conj = .one := by unfold Quat.conj Quat.one; simp
    simp only [List.tail_cons, List.length_cons, List.length_nil, Nat.zero_add, Nat.add_one_sub_one, List.take_succ_cons,
      List.take_zero, List.map_cons, List.map_nil, List.cons_append, List.nil_append, rotCols, hA, hB, h3, ho, matrix_mvec,
      one_rotate, cA, cB, zeroCols, total, List.replicate_succ, List.replicate_zero, List.drop_succ_cons, List.drop_zero, hz]

/-- The layout of the arm: parameter 0 is an angle of the first link, parameter 1 a translation of the second. -/
example (l0 l1 : Link ℝ) (h : arm = [l0, l1]) : paramIndex arm 0 l0 2 = 0 ∧ paramIndex arm 1 l1 3 = 1 := by
  have e : List.finRange 6 = [0, 1, 2, 3, 4, 5] := by decide
  simp only [arm, List.cons.injEq, and_true] at h
  obtain ⟨rfl, rfl⟩ := h
  simp [paramIndex, entryRank, totalActive, arm, armA, armB, Link.activeCount, e, List.filter, Fin.lt_def]

/-- In exact arithmetic the parameters an update was computed at are within `1e-9` of those given, in every component. -/
theorem C74_tolerance (ext : Ext ℝ) (links : List (Link ℝ)) (hN : 0 < totalActive links) (history : List (List ℝ))
    (params : List ℝ) (hp : params.length = totalActive links) :
    ∃ c q, update ext params (afterCalls ext history (.fresh links)) = .ok c ∧
      update ext q (.fresh links) = .ok c ∧ q.length = params.length ∧
      ∀ (i : Nat) (a b : ℝ), q[i]? = some a → params[i]? = some b → |a - b| ≤ 1 / 10 ^ 9 := by
  obtain ⟨c, q, h1, h2, h3, h4⟩ := C74_cached ext links hN history params hp
  refine ⟨c, q, h1, h2, h3, fun i a b ha hb => ?_⟩
  rcases h4 with rfl | h4
  · rw [Option.some.inj (ha.symm.trans hb), sub_self, abs_zero]
    positivity
  · have := h4 i a b ha hb
    simp at this
    simpa using this

/-- A history with a call of the wrong size in the middle. -/
example : ∃ c q, update ⟨fun _ => 0, xyzSo3⟩ [0, 2]
      (afterCalls ⟨fun _ => 0, xyzSo3⟩ [[1, 1], [3], [3], [0, 2]] (.fresh arm)) = .ok c ∧
    update ⟨fun _ => 0, xyzSo3⟩ q (.fresh arm) = .ok c ∧ q.length = 2 := by
  obtain ⟨c, q, h1, h2, h3, -⟩ := C74_cached ⟨fun _ => 0, xyzSo3⟩ arm (by rw [arm_total]; omega) [[1, 1], [3], [3], [0, 2]] [0, 2]
    (by rw [arm_total]; rfl)
  exact ⟨c, q, h1, h2, h3⟩

/-- The wrong size is accepted the second time. -/
example : ∃ c, update ⟨fun _ => 0, xyzSo3⟩ [3] (.fresh arm) = .error (.assertion "Wrong number of params passed", c) ∧
    update ⟨fun _ => 0, xyzSo3⟩ [3] c = .ok c := by
  obtain ⟨c, h1, h2, -⟩ := C74_wrong_size ⟨fun _ => 0, xyzSo3⟩ arm [3] (by simp) (by rw [arm_total]; simp) (by
    intro a _
    simp)
  exact ⟨c, h1, h2⟩

/-- A link that can be constructed. -/
example : ∃ l, Link.make (α := ℝ) ⟨fun _ => 0, xyzSo3⟩ ⟨.one, ![1, 2, 3]⟩ ![true, false, false, true, false, false] 0 = .ok l := by
  refine ⟨⟨⟨.one, ![1, 2, 3]⟩, ![true, false, false, true, false, false], fun _ => - 0⟩, ?_⟩
  have hz : (fun i => - (0 : V3 ℝ) i) = ![0, 0, 0] := by funext i; fin_cases i <;> simp
  unfold Link.make
  simp only [hz, xyz_zero]
  simp [Link.activeRotationCount]
  funext i
  fin_cases i <;> rfl

/-- ... and one that is refused: an Euler angle function that returns nonsense. -/
example : Link.make (α := ℝ) ⟨fun _ => 0, xyzSo3⟩ ⟨⟨0, 0, 0, 1⟩, ![1, 2, 3]⟩ ![true, false, false, true, false, false] 0
    = .error (.assertion "Euler angle decomposition failed") := by
  have hz : (fun i => - (0 : V3 ℝ) i) = ![0, 0, 0] := by funext i; fin_cases i <;> simp
  unfold Link.make
  simp only [hz, xyz_zero]
  rw [if_pos (by simp [Link.activeRotationCount]), if_neg]
  intro h
  have := h 0 0
  simp [Quat.matrix, Quat.one] at this
  norm_num at this

/-- **C74** (NaN). In doubles, once there are results, an update with parameters that are all NaN is not noticed: the old
results are reported. -/
theorem C74_nan_ignored (L : Libm) (ext : Ext (Dbl L)) (params : List (Dbl L)) (c : Chain (Dbl L))
    (hl : c.cached.length = params.length) (hn : ∀ b ∈ params, b = (F64.nan : Dbl L)) : update ext params c = .ok c := by
  apply update_skip
  unfold shouldUpdate
  rw [if_neg (not_not.2 hl), Bool.eq_false_iff]
  intro h
  obtain ⟨x, hx, hlt⟩ := List.any_eq_true.1 h
  obtain ⟨i, hi⟩ := List.mem_iff_getElem?.1 hx
  rw [List.getElem?_zip_eq_some] at hi
  have hb := hn x.2 (List.mem_of_getElem? hi.2)
  have hlt' := of_decide_eq_true hlt
  rw [hb] at hlt'
  have e : F64.abs (F64.add x.1 (F64.neg .nan)) = F64.nan := by cases x.1 <;> rfl
  have hlt2 : F64.lt (Scalar.lit (α := Dbl L) (1 / 10 ^ 9)) (F64.abs (F64.add x.1 (F64.neg .nan))) = true := hlt'
  rw [e] at hlt2
  exact Bool.noConfusion (hlt2.symm.trans (F64.lt_nan_right _))

end MiniOpt.Props
