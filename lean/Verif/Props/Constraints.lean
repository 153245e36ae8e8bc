import Verif.Lemmas.QPGuess

/-!
# C01–C04: inequality constraints (exact arithmetic; the binary64 versions are in `Props/DoubleConstraints.lean`)
-/

set_option autoImplicit false

namespace MiniOpt.Props

open MiniOpt MiniOpt.Spec MiniOpt.IP

/-- **C01** (exact arithmetic). `ClampX` throws exactly when `a = 0`; otherwise it returns the nearest
point satisfying `a x + b ≥ 0`, leaves `x` unchanged exactly when `x` satisfies it, and is idempotent. -/
theorem C01_clamp_projects (c : Ineq ℝ) (x : ℝ) :
    (c.a = 0 → ∃ tag, c.clampX x = .error (.assertion tag)) ∧
    (c.a ≠ 0 → ∃ y, c.clampX x = .ok y ∧ 0 ≤ c.a * y + c.b ∧
      (y = x ↔ 0 ≤ c.a * x + c.b) ∧
      (∀ w, 0 ≤ c.a * w + c.b → |y - x| ≤ |w - x|) ∧
      c.clampX y = .ok y) := by
  refine ⟨fun h => ⟨_, clampX_zero c x h⟩, fun ha => ?_⟩
  obtain ⟨y, hy, -⟩ := clampX_real c x ha
  have hfix : ∀ u v, c.clampX u = .ok v → 0 ≤ c.a * u + c.b → v = u := by
    intro u v h hu
    rcases clampX_between h hu with ⟨h1, h2⟩ | ⟨h1, h2⟩
    · exact le_antisymm (by simpa using h2) h1
    · exact le_antisymm h1 (by simpa using h2)
  have hf := clampX_feas hy
  refine ⟨y, hy, hf, ⟨fun h => h ▸ hf, fun h => hfix x y hy h⟩, ?_, ?_⟩
  · intro w hw
    rcases clampX_between hy hw with ⟨h1, h2⟩ | ⟨h1, h2⟩
    · rcases le_max_iff.mp h2 with h2 | h2
      · rw [le_antisymm h2 h1]; simp
      · rw [abs_of_nonneg (by linarith), abs_of_nonneg (by linarith)]; linarith
    · rcases min_le_iff.mp h2 with h2 | h2
      · rw [le_antisymm h1 h2]; simp
      · rw [abs_of_nonpos (by linarith), abs_of_nonpos (by linarith)]; linarith
  · obtain ⟨y2, hy2, -⟩ := clampX_real c y ha
    rw [hy2, hfix y y2 hy2 hf]

/-- Non-vacuity: a constraint that really moves the point (`-2 x + 3 ≥ 0`, `x = 5`). -/
example : (⟨0, -2, 3⟩ : Ineq ℝ).a ≠ 0 ∧ ∃ y, (⟨0, -2, 3⟩ : Ineq ℝ).clampX 5 = .ok y ∧ y = 3 / 2 := by
  refine ⟨by norm_num, ?_⟩
  obtain ⟨y, h, hy⟩ := clampX_real (⟨0, -2, 3⟩ : Ineq ℝ) 5 (by norm_num)
  exact ⟨y, h, by rw [hy]; norm_num⟩

/-- **C02** (exact arithmetic, scalar version). A shifted constraint accepts a displacement exactly when
the original accepts the displaced point; variable and slope are kept. -/
theorem C02_shift (c : Ineq ℝ) (x0 dx : ℝ) :
    ((c.shiftTo x0).isFeasible dx ↔ c.isFeasible (x0 + dx)) ∧
      (c.shiftTo x0).var = c.var ∧ (c.shiftTo x0).a = c.a := by
  refine ⟨?_, rfl, rfl⟩
  unfold Ineq.isFeasible Ineq.shiftTo
  simp only
  rw [show c.a * (x0 + dx) + c.b = c.a * dx + (c.a * x0 + c.b) by ring]

/-- Shifting twice is shifting by the sum (exact arithmetic). -/
theorem C02_shift_shift (c : Ineq ℝ) (x0 x1 : ℝ) :
    (c.shiftTo x0).shiftTo x1 = c.shiftTo (x0 + x1) := by
  unfold Ineq.shiftTo; simp only [Ineq.mk.injEq, true_and]; ring

/-- **C02** (vector version, any arithmetic). Throws exactly when the index is ≥ the vector size;
a negative index is undefined behaviour; otherwise it shifts by that element. -/
theorem C02_shift_vector {α : Type} [Scalar α] (c : Ineq α) (x : List α) :
    ((∃ tag, c.shiftToVec x = .error (.assertion tag)) ↔ (x.length : Int) ≤ c.var) ∧
    ((∃ tag, c.shiftToVec x = .error (.ub tag)) ↔ c.var < 0) ∧
    (∀ i : Fin x.length, c.var = i.val → c.shiftToVec x = .ok (c.shiftTo (x.get i))) := by
  unfold Ineq.shiftToVec
  by_cases h1 : c.var < (x.length : Int)
  · by_cases h0 : 0 ≤ c.var
    · have h2 : c.var.toNat < x.length := by omega
      simp only [h1, if_true, h0, h2, and_self, dif_pos]
      refine ⟨⟨by simp, by omega⟩, ⟨by simp, by omega⟩, ?_⟩
      rintro ⟨i, hi⟩ hv
      simp only at hv
      simp [hv]
    · simp only [h1, if_true]
      rw [dif_neg (by omega)]
      refine ⟨⟨by simp, by omega⟩, ⟨fun _ => by omega, fun _ => ⟨_, rfl⟩⟩, ?_⟩
      rintro ⟨i, hi⟩ hv
      simp only at hv; omega
  · simp only [h1, if_false]
    refine ⟨⟨fun _ => by omega, fun _ => ⟨_, rfl⟩⟩, ⟨by simp, by omega⟩, ?_⟩
    rintro ⟨i, hi⟩ hv
    simp only at hv; omega

/-- **C03** (exact arithmetic; all doubles in `C03_double`). -/
theorem C03_var_bounds (i : Int) (v x : ℝ) :
    ((varGe i v).isFeasible x ↔ v ≤ x) ∧ ((varLe i v).isFeasible x ↔ x ≤ v) := by
  unfold varGe varLe Ineq.isFeasible
  simp only
  constructor
  · rw [one_mul]; constructor <;> intro h <;> linarith
  · constructor <;> intro h <;> linarith

theorem uIcc_step {x0 x y w : ℝ} (hx : min x0 w ≤ x ∧ x ≤ max x0 w)
    (hy : (x ≤ y ∧ y ≤ max x w) ∨ (y ≤ x ∧ min x w ≤ y)) : min x0 w ≤ y ∧ y ≤ max x0 w := by
  rcases hy with ⟨h1, h2⟩ | ⟨h1, h2⟩
  · exact ⟨hx.1.trans h1, h2.trans (max_le hx.2 (le_max_right _ _))⟩
  · exact ⟨(le_min hx.1 (min_le_right _ _)).trans h2, h1.trans hx.2⟩

/-- **C04**. If some point satisfies every constraint, clamping by each constraint in turn (in the order
of the list, any number per variable) ends at a point that satisfies every constraint and is, in every
coordinate, at least as close to the start as any satisfying point. -/
theorem C04_sequential_clamp {N M K : Nat} (p : QP N M K ℝ) (x : Fin N → ℝ)
    (ha : ∀ m, (p.con m).a ≠ 0) (hw : ∃ w, ∀ m, 0 ≤ ineqVal p w m) :
    ∃ x', clampAll p (List.finRange M) x = .ok x' ∧ (∀ m, 0 ≤ ineqVal p x' m) ∧
      ∀ w, (∀ m, 0 ≤ ineqVal p w m) → ∀ j, |x' j - x j| ≤ |w j - x j| := by
  obtain ⟨w0, hw0⟩ := hw
  obtain ⟨x', hx'⟩ := clampAll_ok_of_ne p ha (List.finRange M) x
  refine ⟨x', hx', fun m => clampAll_feas p w0 hw0 _ [] x x' (by simp) hx' m (Or.inr (by simp)), ?_⟩
  intro w hw j
  have key : ∀ (l : List (Fin M)) (u u' : Fin N → ℝ),
      (∀ j, min (x j) (w j) ≤ u j ∧ u j ≤ max (x j) (w j)) → clampAll p l u = .ok u' →
      ∀ j, min (x j) (w j) ≤ u' j ∧ u' j ≤ max (x j) (w j) := by
    intro l
    induction l with
    | nil => intro u u' hu h; cases h; exact hu
    | cons i l ih =>
      intro u u' hu h
      rw [clampAll] at h
      split at h
      · cases h
      · rename_i v hv
        refine ih _ u' ?_ h
        intro j
        by_cases hj : j = (p.con i).var
        · subst hj
          rw [Function.update_self]
          exact uIcc_step (hu _) (clampX_between hv (hw i))
        · rw [Function.update_of_ne hj]; exact hu j
  have := key _ x x' (fun j => ⟨min_le_left _ _, le_max_left _ _⟩) hx' j
  rcases le_total (x j) (w j) with h | h
  · rw [min_eq_left h, max_eq_right h] at this
    rw [abs_of_nonneg (by linarith), abs_of_nonneg (by linarith)]; linarith
  · rw [min_eq_right h, max_eq_left h] at this
    rw [abs_of_nonpos (by linarith), abs_of_nonpos (by linarith)]; linarith

/-- Non-vacuity: a box `0 ≤ x ≤ 1` with a redundant bound `x ≥ -3`, given in mixed order. -/
example : ∃ p : QP 1 3 0 ℝ, (∀ m, (p.con m).a ≠ 0) ∧ ∃ w, ∀ m, 0 ≤ ineqVal p w m := by
  refine ⟨⟨fun _ _ => 1, fun _ => 0, fun k => k.elim0, fun k => k.elim0,
    ![⟨0, -1, 1⟩, ⟨0, 1, 0⟩, ⟨0, 2, 6⟩]⟩, ?_, fun _ => 1 / 2, ?_⟩
  · intro m; fin_cases m <;> norm_num
  · intro m; fin_cases m <;> norm_num [ineqVal]

end MiniOpt.Props
