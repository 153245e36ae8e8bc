import Verif.Model.TestUtils
import Verif.Spec.QPSpec
import Verif.Props.DoublesMore
import Mathlib.Data.Matrix.Mul
import Mathlib.LinearAlgebra.Matrix.Notation
import Mathlib.Tactic.FinCases

/-!
# C94: the random test problems
-/

set_option autoImplicit false

namespace MiniOpt.Props

open MiniOpt.Spec MiniOpt.TestUtils Matrix

variable {n : Nat}

/-- The rank updates leave the strictly lower triangle alone and build the sum of squares on the diagonal. -/
theorem rank_updates (u : Fin n → Fin n → ℝ) (l : List (Fin n)) (A : Matrix (Fin n) (Fin n) ℝ) (j k : Fin n) :
    (l.foldl (fun A i => rankUpdateUpper A (u i)) A) j k =
      if j ≤ k then A j k + (l.map fun i => u i j * u i k).sum else A j k := by
  induction l generalizing A with
  | nil => simp
  | cons i l ih =>
    rw [List.foldl_cons, ih]
    unfold rankUpdateUpper
    split_ifs <;> simp [add_assoc]

/-- **C94**, finding. `GenerateRandomPDMatrix` returns a *diagonal* matrix, whatever is drawn: the products are accumulated in
the upper triangle, which is then overwritten by the (zero) lower one. -/
theorem C94_random_matrix_diagonal (u : Fin n → Fin n → ℝ) :
    randomPD u = Matrix.diagonal fun j => ∑ i, u i j ^ 2 := by
  ext j k
  unfold randomPD lowerToUpper
  rcases lt_trichotomy j k with h | h | h
  · rw [if_pos h, rank_updates, if_neg (not_le.mpr h), Matrix.diagonal_apply_ne _ (ne_of_lt h)]; rfl
  · subst h
    rw [if_neg (lt_irrefl _), rank_updates, if_pos le_rfl, Matrix.diagonal_apply_eq]
    simp only [Matrix.zero_apply, zero_add, ← List.ofFn_eq_map, List.sum_ofFn, pow_two]
  · rw [if_neg (not_lt.mpr h.le), rank_updates, if_neg (not_le.mpr h), Matrix.diagonal_apply_ne _ (ne_of_gt h)]; rfl

/-- **C94**. It is positive definite exactly when, for every coordinate, one of the numbers drawn is not zero. -/
theorem C94_random_matrix_pd (u : Fin n → Fin n → ℝ) :
    (∀ x : Fin n → ℝ, x ≠ 0 → 0 < ∑ i, ∑ j, x i * randomPD u i j * x j) ↔ ∀ j, ∃ i, u i j ≠ 0 := by
  have hq : ∀ x : Fin n → ℝ, ∑ i, ∑ j, x i * randomPD u i j * x j = ∑ j, (∑ i, u i j ^ 2) * x j ^ 2 := by
    intro x
    rw [C94_random_matrix_diagonal]
    refine Finset.sum_congr rfl fun i _ => ?_
    rw [Finset.sum_eq_single i]
    · rw [Matrix.diagonal_apply_eq]; ring
    · intro j _ hj; rw [Matrix.diagonal_apply_ne _ hj.symm]; ring
    · simp
  constructor
  · intro h j
    by_contra hc
    push Not at hc
    have := h (Pi.single j 1) (by
      intro e; have := congrFun e j; rw [Pi.single_eq_same] at this; exact one_ne_zero this)
    rw [hq] at this
    have z : ∑ k, (∑ i, u i k ^ 2) * (Pi.single j (1 : ℝ) : Fin n → ℝ) k ^ 2 = 0 := by
      refine Finset.sum_eq_zero fun k _ => ?_
      by_cases hk : k = j
      · subst hk; simp [hc]
      · rw [Pi.single_eq_of_ne hk]; ring
    rw [z] at this
    exact lt_irrefl _ this
  · intro h x hx
    rw [hq]
    obtain ⟨j, hj⟩ := Function.ne_iff.mp hx
    obtain ⟨i, hi⟩ := h j
    refine Finset.sum_pos' (fun k _ => mul_nonneg (Finset.sum_nonneg fun _ _ => sq_nonneg _) (sq_nonneg _)) ⟨j, Finset.mem_univ j, ?_⟩
    refine mul_pos ?_ (sq_pos_of_ne_zero hj)
    exact Finset.sum_pos' (fun _ _ => sq_nonneg _) ⟨i, Finset.mem_univ i, by positivity⟩

/-- What the constraints of the generated problem say. -/
theorem generated_constraints (x : Fin n → ℝ) (scale : Fin n → Option ℝ) (c : Con n ℝ) :
    c ∈ constraintList x scale ↔ ∃ t, scale c.var = some t ∧
      ((x c.var < 0 ∧ c.a = 1 ∧ c.b = -(x c.var * t)) ∨ (0 ≤ x c.var ∧ c.a = -1 ∧ c.b = x c.var * t)) := by
  unfold constraintList
  rw [List.mem_filterMap]
  constructor
  · rintro ⟨r, -, hr⟩
    obtain ⟨t, ht, rfl⟩ := Option.map_eq_some_iff.mp hr
    refine ⟨t, ht, ?_⟩
    by_cases h : x r < 0
    · exact .inl ⟨h, by simp [h, varGe], by simp [h, varGe]⟩
    · exact .inr ⟨not_lt.mp h, by simp [h, varLe], by simp [h, varLe]⟩
  · rintro ⟨t, ht, h⟩
    refine ⟨c.var, List.mem_finRange _, ?_⟩
    rw [ht]
    obtain ⟨v, a, b⟩ := c
    rcases h with ⟨h, ha, hb⟩ | ⟨h, ha, hb⟩
    · simp only at h ha hb ⊢; simp [h, varGe, ha, hb]
    · simp only at h ha hb ⊢; simp [not_lt.mpr h, varLe, ha, hb]

theorem shifted_diagonal (d roots : Fin n → ℝ) (hd : ∀ i, d i ≠ 0) (i : Fin n) :
    shifted (Matrix.diagonal d) roots i = 2 * roots i / d i := by
  unfold shifted
  have : (Matrix.diagonal d)⁻¹ = Matrix.diagonal fun i => (d i)⁻¹ := by
    refine Matrix.inv_eq_right_inv ?_
    rw [Matrix.diagonal_mul_diagonal]
    rw [show (fun i => d i * (d i)⁻¹) = fun _ => (1 : ℝ) from funext fun i => mul_inv_cancel₀ (hd i)]
    exact Matrix.diagonal_one
  rw [this, Matrix.mulVec_diagonal]
  field_simp

theorem quadratic_unit (roots : Fin n → ℝ) : (quadratic (fun _ => (1 : ℝ)) roots).1 = (1 : Matrix (Fin n) (Fin n) ℝ) := by
  ext a b
  unfold quadratic
  by_cases h : a = b
  · subst h; simp
  · simp [h]

theorem jumbled_objective (d roots : Fin n → ℝ) (hd : ∀ i, d i ≠ 0) (scale : Fin n → Option ℝ) (x : Fin n → ℝ) :
    objective (jumbledQP (Matrix.diagonal d) roots scale) x =
      ∑ i, (1 / 2) * d i ^ 2 * ((x i - shifted (Matrix.diagonal d) roots i) ^ 2 - shifted (Matrix.diagonal d) roots i ^ 2) := by
  have hG : ∀ i j, (jumbledQP (Matrix.diagonal d) roots scale).G i j = if i = j then d i ^ 2 else 0 := by
    intro i j
    show (Matrix.transpose (Matrix.diagonal d) * (quadratic (fun _ => (1 : ℝ)) roots).1 * Matrix.diagonal d) i j = _
    rw [quadratic_unit, Matrix.mul_one, Matrix.diagonal_transpose, Matrix.diagonal_mul_diagonal]
    by_cases h : i = j
    · subst h; rw [Matrix.diagonal_apply_eq, if_pos rfl, pow_two]
    · rw [Matrix.diagonal_apply_ne _ h, if_neg h]
  have hc : ∀ i, (jumbledQP (Matrix.diagonal d) roots scale).c i = -2 * d i * roots i := by
    intro i
    show (Matrix.diagonal d).mulVec (quadratic (fun _ => (1 : ℝ)) roots).2 i = _
    rw [Matrix.mulVec_diagonal]
    unfold quadratic
    ring
  unfold objective
  rw [Finset.mul_sum, ← Finset.sum_add_distrib]
  refine Finset.sum_congr rfl fun i _ => ?_
  rw [Finset.sum_eq_single i]
  · rw [hc]
    unfold Gsym
    rw [max_self, min_self, hG, if_pos rfl, shifted_diagonal d roots hd]
    have := hd i
    field_simp
    ring
  · intro j _ hj
    unfold Gsym
    rw [hG, if_neg]
    · ring
    · intro h
      rcases le_total i j with h' | h'
      · rw [max_eq_right h', min_eq_left h'] at h; exact hj h
      · rw [max_eq_left h', min_eq_right h'] at h; exact hj h.symm
  · simp

/-- **C94**, the random test problems are sound: for all roots, all draws that do not leave a coordinate of the matrix zero, all
choices of constrained variables and all scales in `[0, 1]`, the solution the generator returns is feasible, makes every
constraint active (the slacks compared with zero by the test), and is the unique minimiser. -/
theorem C94_generated_solution (u : Fin n → Fin n → ℝ) (hu : ∀ j, ∃ i, u i j ≠ 0) (roots : Fin n → ℝ)
    (scale : Fin n → Option ℝ) (hs : ∀ r t, scale r = some t → 0 ≤ t ∧ t ≤ 1) :
    let p := jumbledQP (randomPD u) roots scale
    let x := claimedSolution (randomPD u) roots scale
    Feasible p x ∧ (∀ m, ineqVal p x m = 0) ∧ ∀ x', Feasible p x' → x' ≠ x → objective p x < objective p x' := by
  dsimp only
  obtain ⟨d, hP, hd⟩ : ∃ d : Fin n → ℝ, randomPD u = Matrix.diagonal d ∧ ∀ i, d i ≠ 0 := by
    refine ⟨_, C94_random_matrix_diagonal u, fun j => ?_⟩
    obtain ⟨i, hi⟩ := hu j
    exact ne_of_gt (Finset.sum_pos' (fun _ _ => sq_nonneg _) ⟨i, Finset.mem_univ i, by positivity⟩)
  rw [hP]
  set xs := shifted (Matrix.diagonal d) roots with hxs
  have hact : ∀ m, ineqVal (jumbledQP (Matrix.diagonal d) roots scale) (claimedSolution (Matrix.diagonal d) roots scale) m = 0 := by
    intro m
    have hm : (jumbledQP (Matrix.diagonal d) roots scale).con m ∈ constraintList xs scale := List.get_mem _ _
    obtain ⟨t, ht, h⟩ := (generated_constraints _ _ _).mp hm
    unfold ineqVal claimedSolution
    rw [ht]
    rcases h with ⟨-, ha, hb⟩ | ⟨-, ha, hb⟩ <;> rw [ha, hb] <;> ring
  refine ⟨⟨fun m => (hact m).ge, fun k => k.elim0⟩, hact, fun x' hx' hne => ?_⟩
  rw [jumbled_objective d roots hd, jumbled_objective d roots hd]
  have key : ∀ i, (claimedSolution (Matrix.diagonal d) roots scale i - xs i) ^ 2 ≤ (x' i - xs i) ^ 2 ∧
      (x' i ≠ claimedSolution (Matrix.diagonal d) roots scale i →
        (claimedSolution (Matrix.diagonal d) roots scale i - xs i) ^ 2 < (x' i - xs i) ^ 2) := by
    intro i
    unfold claimedSolution
    cases hsi : scale i with
    | none =>
      simp only
      rw [← hxs, sub_self]
      rw [zero_pow two_ne_zero]
      exact ⟨sq_nonneg _, fun h => sq_pos_of_ne_zero (sub_ne_zero.mpr h)⟩
    | some t =>
      simp only
      rw [← hxs]
      obtain ⟨h0, h1⟩ := hs i t hsi
      have hf : ∀ c ∈ constraintList xs scale, 0 ≤ c.a * x' c.var + c.b := by
        intro c hc
        obtain ⟨m, hm⟩ := List.get_of_mem hc
        have := hx'.1 m
        unfold ineqVal at this
        have e : (jumbledQP (Matrix.diagonal d) roots scale).con m = c := hm
        rwa [e] at this
      rcases lt_or_ge (xs i) 0 with hneg | hpos
      · have := hf ⟨i, 1, -(xs i * t)⟩ ((generated_constraints _ _ _).mpr ⟨t, hsi, .inl ⟨hneg, rfl, rfl⟩⟩)
        simp only at this
        have a : xs i * t - xs i ≥ 0 := by nlinarith
        refine ⟨by nlinarith, fun h => ?_⟩
        have : xs i * t < x' i := lt_of_le_of_ne (by linarith) (Ne.symm h)
        nlinarith
      · have := hf ⟨i, -1, xs i * t⟩ ((generated_constraints _ _ _).mpr ⟨t, hsi, .inr ⟨hpos, rfl, rfl⟩⟩)
        simp only at this
        have a : xs i * t - xs i ≤ 0 := by nlinarith
        refine ⟨by nlinarith, fun h => ?_⟩
        have : x' i < xs i * t := lt_of_le_of_ne (by linarith) h
        nlinarith
  obtain ⟨j, hj⟩ := Function.ne_iff.mp hne
  refine Finset.sum_lt_sum (fun i _ => ?_) ⟨j, Finset.mem_univ j, ?_⟩
  · have : 0 ≤ (1 / 2) * d i ^ 2 := by positivity
    exact mul_le_mul_of_nonneg_left (sub_le_sub_right (key i).1 _) this
  · have : 0 < (1 / 2) * d j ^ 2 := by have := hd j; positivity
    exact mul_lt_mul_of_pos_left (sub_lt_sub_right ((key j).2 hj) _) this

/-- The hypotheses are met: in two dimensions, draws `((1, 0), (1/2, 2))`, one constrained variable. -/
example : ∃ x : Fin 2 → ℝ, Feasible (jumbledQP (randomPD ![![1, 0], ![1 / 2, 2]]) ![3, -1] ![some (1 / 2), none]) x :=
  ⟨_, (C94_generated_solution ![![1, 0], ![1 / 2, 2]] (by
    intro j; fin_cases j
    · exact ⟨0, by simp⟩
    · exact ⟨1, by simp⟩) ![3, -1] ![some (1 / 2), none] (by
    intro r t h
    fin_cases r
    · simp at h; subst h; norm_num
    · simp at h)).1⟩

/-- **C94**, the tests depend on that: with a positive definite matrix that is not diagonal, the generator's solution is not
the minimiser. -/
theorem C94_needs_diagonal : ∃ (P : Matrix (Fin 2) (Fin 2) ℝ) (roots : Fin 2 → ℝ) (scale : Fin 2 → Option ℝ) (x' : Fin 2 → ℝ),
    P.transpose = P ∧ (∀ x : Fin 2 → ℝ, x ≠ 0 → 0 < ∑ i, ∑ j, x i * P i j * x j) ∧
    (∀ r t, scale r = some t → 0 ≤ t ∧ t ≤ 1) ∧ Feasible (jumbledQP P roots scale) x' ∧
    objective (jumbledQP P roots scale) x' < objective (jumbledQP P roots scale) (claimedSolution P roots scale) := by
  have hinv : (!![2, 1; 1, 2] : Matrix (Fin 2) (Fin 2) ℝ)⁻¹ = !![2 / 3, -1 / 3; -1 / 3, 2 / 3] := by
    refine Matrix.inv_eq_right_inv ?_
    ext i j; fin_cases i <;> fin_cases j <;> norm_num [Matrix.mul_apply, Fin.sum_univ_two]
  have hx : shifted !![2, 1; 1, 2] ![3 / 2, 3 / 2] = ![1, 1] := by
    unfold shifted
    rw [hinv]
    ext i; fin_cases i <;> norm_num [Matrix.mulVec, dotProduct, Fin.sum_univ_two]
  have hcl : claimedSolution !![2, 1; 1, 2] ![3 / 2, 3 / 2] ![some (1 / 2), none] = ![1 / 2, 1] := by
    unfold claimedSolution
    rw [hx]
    ext i; fin_cases i <;> norm_num
  refine ⟨!![2, 1; 1, 2], ![3 / 2, 3 / 2], ![some (1 / 2), none], ![1 / 2, 7 / 5], ?_, ?_, ?_, ⟨?_, fun k => k.elim0⟩, ?_⟩
  · ext i j; fin_cases i <;> fin_cases j <;> rfl
  · intro x hne
    have e : ∑ i, ∑ j, x i * (!![2, 1; 1, 2] : Matrix (Fin 2) (Fin 2) ℝ) i j * x j = x 0 ^ 2 + x 1 ^ 2 + (x 0 + x 1) ^ 2 := by
      simp [Fin.sum_univ_two]; ring
    rw [e]
    obtain ⟨j, hj⟩ := Function.ne_iff.mp hne
    fin_cases j
    · have := sq_pos_of_ne_zero hj; simp only [Fin.zero_eta] at this; nlinarith [sq_nonneg (x 1), sq_nonneg (x 0 + x 1)]
    · have := sq_pos_of_ne_zero hj; simp only [Fin.mk_one] at this; nlinarith [sq_nonneg (x 0), sq_nonneg (x 0 + x 1)]
  · intro r t h
    fin_cases r
    · simp at h; subst h; norm_num
    · simp at h
  · intro m
    have hm : (jumbledQP !![2, 1; 1, 2] ![3 / 2, 3 / 2] ![some (1 / 2), none]).con m ∈
        constraintList (shifted !![2, 1; 1, 2] ![3 / 2, 3 / 2]) ![some (1 / 2), none] := List.get_mem _ _
    rw [hx] at hm
    obtain ⟨t, ht, h⟩ := (generated_constraints _ _ _).mp hm
    unfold ineqVal
    generalize (jumbledQP !![2, 1; 1, 2] ![3 / 2, 3 / 2] ![some (1 / 2), none]).con m = c at *
    obtain ⟨v, a, b⟩ := c
    simp only at ht h ⊢
    fin_cases v
    · simp at ht
      subst ht
      rcases h with ⟨h, -⟩ | ⟨-, ha, hb⟩
      · norm_num at h
      · rw [ha, hb]; norm_num
    · simp at ht
  · rw [hcl]
    have hG : ∀ i j, (jumbledQP !![2, 1; 1, 2] ![3 / 2, 3 / 2] ![some (1 / 2), none]).G i j =
        (!![5, 4; 4, 5] : Matrix (Fin 2) (Fin 2) ℝ) i j := by
      intro i j
      show (Matrix.transpose (!![2, 1; 1, 2] : Matrix (Fin 2) (Fin 2) ℝ) * (quadratic (fun _ => (1 : ℝ)) ![3 / 2, 3 / 2]).1 *
        (!![2, 1; 1, 2] : Matrix (Fin 2) (Fin 2) ℝ)) i j = _
      rw [quadratic_unit, Matrix.mul_one]
      fin_cases i <;> fin_cases j <;> norm_num [Matrix.mul_apply, Fin.sum_univ_two]
    have hc : ∀ i, (jumbledQP !![2, 1; 1, 2] ![3 / 2, 3 / 2] ![some (1 / 2), none]).c i = -9 := by
      intro i
      show (!![2, 1; 1, 2] : Matrix (Fin 2) (Fin 2) ℝ).mulVec (quadratic (fun _ => (1 : ℝ)) ![3 / 2, 3 / 2]).2 i = _
      unfold quadratic
      fin_cases i <;> norm_num [Matrix.mulVec, dotProduct, Fin.sum_univ_two]
    unfold objective Gsym
    simp only [Fin.sum_univ_two, hG, hc]
    norm_num [show max (0 : Fin 2) 1 = 1 from rfl, show max (1 : Fin 2) 0 = 1 from rfl, show min (0 : Fin 2) 1 = 0 from rfl,
      show min (1 : Fin 2) 0 = 0 from rfl]

variable {L : Libm}

/-- **C94**, `EXPECT_EIGEN_NEAR` in binary64. A matrix that contains NaN is accepted by no comparison, not even with itself;
nor is an infinity equal to itself; with a NaN tolerance everything whose difference is not NaN is accepted. -/
theorem C94_eigen_near {r c : Nat} (a b : Fin r → Fin c → Dbl L) (tol : Dbl L) :
    ((∃ i j, a i j = F64.nan ∨ b i j = F64.nan ∨ (a i j = b i j ∧ ∃ s, a i j = F64.inf s)) → ¬ eigenNear a b tol) ∧
    (tol = F64.nan → (∀ i j, a i j - b i j ≠ (F64.nan : Dbl L)) → eigenNear a b tol) := by
  have hself : ∀ y : F64, F64.eq y y = true ↔ y ≠ .nan := by
    intro y
    cases y with
    | nan => exact ⟨fun h => absurd h (by decide), fun h => absurd rfl h⟩
    | inf s => simp [F64.eq]
    | fin s m => simp [F64.eq]
  refine ⟨?_, ?_⟩
  · rintro ⟨i, j, h⟩ hn
    refine hn i j (.inr fun hf => (hself _).mp hf ?_)
    show F64.add (a i j) (F64.neg (b i j)) = .nan
    rcases h with h | h | ⟨h, s, hs⟩
    · rw [h]; rfl
    · rw [h]; generalize (a i j) = y; cases (y : F64) <;> rfl
    · rw [← h, hs]; cases s <;> rfl
  · intro ht h i j hn
    rw [ht] at hn
    rcases hn with hn | hn
    · exact (dbl_nan_lt hn).1 rfl
    · exact hn ((hself _).mpr (h i j))

end MiniOpt.Props
