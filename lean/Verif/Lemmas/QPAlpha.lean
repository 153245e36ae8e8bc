import Verif.Lemmas.QPStep

/-! Step length rule and positivity (exact arithmetic). -/

set_option autoImplicit false

namespace MiniOpt.IP

open MiniOpt MiniOpt.Spec

/-- Component `i` limits the step. -/
def Limits {n : Nat} (val d : Fin n → ℝ) (i : Fin n) : Prop := val i + d i ≤ 0 ∧ 0 < |d i|

theorem alphaFold_spec {n : Nat} (val d : Fin n → ℝ) (tau : ℝ) (l : List (Fin n)) (a0 : ℝ) :
    let a := l.foldl (fun alpha i =>
      if val i + d i ≤ 0 ∧ 0 < |d i| then
        (if -tau * val i / d i < alpha then -tau * val i / d i else alpha) else alpha) a0
    a ≤ a0 ∧ (∀ i ∈ l, Limits val d i → a ≤ -tau * val i / d i) ∧
      (a = a0 ∨ ∃ i ∈ l, Limits val d i ∧ a = -tau * val i / d i) := by
  induction l generalizing a0 with
  | nil => simp
  | cons j l ih =>
    simp only [List.foldl_cons]
    by_cases hj : val j + d j ≤ 0 ∧ 0 < |d j|
    · rw [if_pos hj]
      by_cases hc : -tau * val j / d j < a0
      · rw [if_pos hc]
        obtain ⟨h1, h2, h3⟩ := ih (-tau * val j / d j)
        refine ⟨h1.trans hc.le, ?_, ?_⟩
        · intro i hi hL
          rcases List.mem_cons.mp hi with rfl | hi
          · exact h1
          · exact h2 i hi hL
        · rcases h3 with h3 | ⟨i, hi, hL, h3⟩
          · exact Or.inr ⟨j, by simp, hj, h3⟩
          · exact Or.inr ⟨i, by simp [hi], hL, h3⟩
      · rw [if_neg hc]
        obtain ⟨h1, h2, h3⟩ := ih a0
        refine ⟨h1, ?_, ?_⟩
        · intro i hi hL
          rcases List.mem_cons.mp hi with rfl | hi
          · exact h1.trans (not_lt.mp hc)
          · exact h2 i hi hL
        · rcases h3 with h3 | ⟨i, hi, hL, h3⟩
          · exact Or.inl h3
          · exact Or.inr ⟨i, by simp [hi], hL, h3⟩
    · rw [if_neg hj]
      obtain ⟨h1, h2, h3⟩ := ih a0
      refine ⟨h1, ?_, ?_⟩
      · intro i hi hL
        rcases List.mem_cons.mp hi with rfl | hi
        · exact absurd hL hj
        · exact h2 i hi hL
      · rcases h3 with h3 | ⟨i, hi, hL, h3⟩
        · exact Or.inl h3
        · exact Or.inr ⟨i, by simp [hi], hL, h3⟩

theorem alphaLoop_spec {n : Nat} (val d : Fin n → ℝ) (tau : ℝ) :
    alphaLoop val d tau ≤ 1 ∧ (∀ i, Limits val d i → alphaLoop val d tau ≤ -tau * val i / d i) ∧
      (alphaLoop val d tau = 1 ∨ ∃ i, Limits val d i ∧ alphaLoop val d tau = -tau * val i / d i) := by
  obtain ⟨h1, h2, h3⟩ := alphaFold_spec val d tau (List.finRange n) 1
  refine ⟨h1, fun i hi => h2 i (List.mem_finRange i) hi, ?_⟩
  rcases h3 with h3 | ⟨i, _, hL, h3⟩
  · exact Or.inl h3
  · exact Or.inr ⟨i, hL, h3⟩

theorem limits_neg {n : Nat} {val d : Fin n → ℝ} (hv : ∀ i, 0 < val i) {i : Fin n}
    (h : Limits val d i) : d i < 0 := by
  have := hv i; have := h.1; linarith

theorem alphaLoop_pos {n : Nat} {val d : Fin n → ℝ} (hv : ∀ i, 0 < val i) {tau : ℝ} (ht : 0 < tau) :
    0 < alphaLoop val d tau := by
  obtain ⟨_, _, h3⟩ := alphaLoop_spec val d tau
  rcases h3 with h3 | ⟨i, hL, h3⟩
  · rw [h3]; exact one_pos
  · rw [h3]
    have := limits_neg hv hL
    have hvi := hv i
    rw [← neg_div_neg_eq]
    apply div_pos
    · nlinarith
    · linarith

/-- The updated value keeps at least the fraction `1 - tau` on limiting components and is positive on
the others. -/
theorem alphaLoop_ge {n : Nat} {val d : Fin n → ℝ} (hv : ∀ i, 0 < val i) {tau : ℝ} (ht : 0 < tau)
    (i : Fin n) :
    (Limits val d i → (1 - tau) * val i ≤ val i + alphaLoop val d tau * d i) ∧
      (¬ Limits val d i → 0 < val i + alphaLoop val d tau * d i) := by
  obtain ⟨h1, h2, _⟩ := alphaLoop_spec val d tau
  have hp := alphaLoop_pos (d := d) hv ht
  have hvi := hv i
  constructor
  · intro hL
    have hd := limits_neg hv hL
    have h := h2 i hL
    have : -tau * val i ≤ alphaLoop val d tau * d i := by
      have := mul_le_mul_of_nonpos_right h hd.le
      rwa [div_mul_cancel₀ _ hd.ne] at this
    linarith
  · intro hL
    unfold Limits at hL
    by_cases hs : val i + d i ≤ 0
    · have : ¬ 0 < |d i| := fun h => hL ⟨hs, h⟩
      have hd : d i = 0 := by
        by_contra h; exact this (abs_pos.mpr h)
      rw [hd]; simpa using hvi
    · push Not at hs
      rcases le_or_gt 0 (d i) with hd | hd
      · nlinarith
      · nlinarith

theorem alphaLoop_keeps_pos {n : Nat} {val d : Fin n → ℝ} (hv : ∀ i, 0 < val i) {tau : ℝ}
    (ht : 0 < tau) (ht1 : tau < 1) (i : Fin n) : 0 < val i + alphaLoop val d tau * d i := by
  by_cases hL : Limits val d i
  · have := (alphaLoop_ge (d := d) hv ht i).1 hL
    have := mul_pos (sub_pos.mpr ht1) (hv i)
    linarith
  · exact (alphaLoop_ge hv ht i).2 hL

theorem alphaLoop_keeps_nonneg {n : Nat} {val d : Fin n → ℝ} (hv : ∀ i, 0 < val i) {tau : ℝ}
    (ht : 0 < tau) (ht1 : tau ≤ 1) (i : Fin n) : 0 ≤ val i + alphaLoop val d tau * d i := by
  by_cases hL : Limits val d i
  · have := (alphaLoop_ge (d := d) hv ht i).1 hL
    have := mul_nonneg (sub_nonneg.mpr ht1) (hv i).le
    linarith
  · exact ((alphaLoop_ge hv ht i).2 hL).le

theorem tauStep_bounds : (0 : ℝ) < tauStep ∧ (tauStep : ℝ) < 1 := by
  unfold tauStep; simp only [real_lit]; norm_num

variable {N M K : Nat}

theorem stepAlpha_bounds (st : IPState N M K ℝ) (hs : ∀ m, 0 < st.v.s m) (hz : ∀ m, 0 < st.v.z m) :
    (0 < (stepAlpha st).primal ∧ (stepAlpha st).primal ≤ 1) ∧
      (0 < (stepAlpha st).dual ∧ (stepAlpha st).dual ≤ 1) := by
  unfold stepAlpha
  split_ifs
  · exact ⟨⟨alphaLoop_pos hs tauStep_bounds.1, (alphaLoop_spec _ _ _).1⟩,
      ⟨alphaLoop_pos hz tauStep_bounds.1, (alphaLoop_spec _ _ _).1⟩⟩
  · norm_num

/-- Positivity of slacks and multipliers is preserved by applying the step. -/
theorem applyStep_pos (st : IPState N M K ℝ) (hs : ∀ m, 0 < st.v.s m) (hz : ∀ m, 0 < st.v.z m) :
    (∀ m, 0 < (applyStep (stepAlpha st) st).v.s m) ∧ ∀ m, 0 < (applyStep (stepAlpha st) st).v.z m := by
  constructor
  · intro m
    have hM : 0 < M := m.pos
    have := alphaLoop_keeps_pos (d := st.delta.s) hs tauStep_bounds.1 tauStep_bounds.2 m
    simp only [applyStep, stepAlpha, hM, if_true, computeAlpha]
    rw [mul_comm (st.delta.s m)]; exact this
  · intro m
    have hM : 0 < M := m.pos
    have := alphaLoop_keeps_pos (d := st.delta.z) hz tauStep_bounds.1 tauStep_bounds.2 m
    simp only [applyStep, stepAlpha, hM, if_true, computeAlpha]
    rw [mul_comm (st.delta.z m)]; exact this

theorem iterate_pos {E : Eigen N K ℝ} {p : QP N M K ℝ} {mu : ℝ} {s : BarrierStrategy}
    {st st' : IPState N M K ℝ} {out : IPIterationOutputs ℝ}
    (h : iterate E p mu s st = .ok (st', out))
    (hz : ∀ m, 0 < st.v.z m) :
    (∀ m, 0 < st'.v.s m) ∧ ∀ m, 0 < st'.v.z m := by
  obtain ⟨st1, h1, h2, h3, _⟩ := iterate_ok h
  have hr := ready_of_ldlt h1
  have hv : (direction p mu s st1).1.v = st.v := (direction_fields p mu s st1).1.trans hr.v_eq
  rw [h2, h3]
  apply applyStep_pos
  · rw [hv]; exact hr.spos
  · rw [hv]; exact hz

end MiniOpt.IP
