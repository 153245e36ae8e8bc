import Verif.Lemmas.QPReal

/-! One iteration of the interior point solver. First facts for any arithmetic, then exact ones. -/

set_option autoImplicit false

namespace MiniOpt.IP

open MiniOpt MiniOpt.Spec

section generic
variable {α : Type} [Scalar α] {N M K : Nat}

theorem computeLDLT_ok {E : Eigen N K α} {p : QP N M K α} {b : Bool} {st st1 : IPState N M K α}
    (h : computeLDLT E p b st = .ok st1) :
    (b = true → ∀ i, (0 : α) < st.v.s i) ∧ E.ldltInverse (symRed (fillH p b st)) = some st1.Hinv ∧
      st1 = { st with H := fillH p b st, Hinv := st1.Hinv, delta := Blocks.zero,
                      deltaAff := Blocks.zero } := by
  unfold computeLDLT at h
  split_ifs at h with hs
  refine ⟨?_, ?_⟩
  · intro hb; rcases hs with hs | hs
    · simp [hb] at hs
    · exact hs
  · dsimp only at h
    split at h
    · cases h
    · rename_i Hinv hH
      cases h
      exact ⟨hH, rfl⟩

theorem solveForUpdate_fields (p : QP N M K α) (mu : α) (st : IPState N M K α) :
    (solveForUpdate p mu st).v = st.v ∧ (solveForUpdate p mu st).r = st.r ∧
    (solveForUpdate p mu st).H = st.H ∧ (solveForUpdate p mu st).Hinv = st.Hinv ∧
    (solveForUpdate p mu st).deltaAff = st.deltaAff := ⟨rfl, rfl, rfl, rfl, rfl⟩

theorem direction_fields (p : QP N M K α) (mu : α) (s : BarrierStrategy) (st : IPState N M K α) :
    (direction p mu s st).1.v = st.v ∧ (direction p mu s st).1.r = st.r ∧
    (direction p mu s st).1.H = st.H ∧ (direction p mu s st).1.Hinv = st.Hinv := by
  unfold direction
  split_ifs <;> exact ⟨rfl, rfl, rfl, rfl⟩

/-- The step lengths used by `Iterate`. -/
def stepAlpha (st : IPState N M K α) : AlphaValues α :=
  if 0 < M then computeAlpha st tauStep else ⟨1, 1⟩

theorem iterate_ok {E : Eigen N K α} {p : QP N M K α} {mu : α} {s : BarrierStrategy}
    {st st' : IPState N M K α} {out : IPIterationOutputs α}
    (h : iterate E p mu s st = .ok (st', out)) :
    ∃ st1, computeLDLT E p true (evaluateKKT p true st) = .ok st1 ∧
      st' = applyStep out.alpha (direction p mu s st1).1 ∧
      out.alpha = stepAlpha (direction p mu s st1).1 ∧
      out.mu = (direction p mu s st1).2.1 ∧
      out.alphaProbe = (direction p mu s st1).2.2.map Prod.fst ∧
      out.muAffine = (direction p mu s st1).2.2.map Prod.snd := by
  unfold iterate at h
  split at h
  · cases h
  · rename_i st1 h1
    refine ⟨st1, h1, ?_⟩
    simp only [Except.ok.injEq, Prod.mk.injEq] at h
    obtain ⟨h2, h3⟩ := h
    subst h3
    exact ⟨h2.symm, rfl, rfl, rfl, rfl⟩

theorem evaluateKKT_v' (p : QP N M K α) (b : Bool) (st : IPState N M K α) :
    (evaluateKKT p b st).v = st.v := by
  unfold evaluateKKT; cases b <;> rfl

theorem evaluateKKT_H' (p : QP N M K α) (b : Bool) (st : IPState N M K α) :
    (evaluateKKT p b st).H = st.H := by
  unfold evaluateKKT; cases b <;> rfl

theorem fillH_br (p : QP N M K α) (b : Bool) (st : IPState N M K α) (k l : Fin K) :
    fillH p b st (.inr k) (.inr l) = st.H (.inr k) (.inr l) := by
  have key : ∀ (L : List (Fin M)) (H0 : Red N K → Red N K → α),
      (L.foldl (fun (H : Red N K → Red N K → α) i => Function.update H (.inl (p.con i).var)
        (Function.update (H (.inl (p.con i).var)) (.inl (p.con i).var)
          (H (.inl (p.con i).var) (.inl (p.con i).var) +
            (p.con i).a * (st.v.z i / st.v.s i) * (p.con i).a))) H0) (.inr k) (.inr l)
      = H0 (.inr k) (.inr l) := by
    intro L
    induction L with
    | nil => intro H0; rfl
    | cons a L ih =>
      intro H0
      rw [List.foldl_cons, ih, Function.update_of_ne (by simp)]
  unfold fillH
  cases b
  · rfl
  · simp only [if_true]; rw [key]

theorem WF_computeLDLT {E : Eigen N K α} {p : QP N M K α} {b : Bool} {st st1 : IPState N M K α}
    (hwf : WF st) (h : computeLDLT E p b st = .ok st1) : WF st1 := by
  obtain ⟨_, _, h⟩ := computeLDLT_ok h
  intro k l
  rw [h]
  show fillH p b st _ _ = _
  rw [fillH_br]; exact hwf k l

theorem WF_evaluateKKT {p : QP N M K α} {b : Bool} {st : IPState N M K α} (hwf : WF st) :
    WF (evaluateKKT p b st) := by
  intro k l; rw [evaluateKKT_H']; exact hwf k l

theorem WF_iterate {E : Eigen N K α} {p : QP N M K α} {mu : α} {s : BarrierStrategy}
    {st st' : IPState N M K α} {out : IPIterationOutputs α} (hwf : WF st)
    (h : iterate E p mu s st = .ok (st', out)) : WF st' := by
  obtain ⟨st1, h1, h2, _⟩ := iterate_ok h
  have := WF_computeLDLT (WF_evaluateKKT hwf) h1
  intro k l
  rw [h2]
  show (direction p mu s st1).1.H _ _ = _
  rw [(direction_fields p mu s st1).2.2.1]
  exact this k l

end generic

variable {N M K : Nat}

/-- `SolveForUpdate` solves the full Newton system. -/
theorem solveForUpdate_newton (p : QP N M K ℝ) (mu : ℝ) (st : IPState N M K ℝ)
    (hs : ∀ m, st.v.s m ≠ 0)
    (hrx : ∀ i, st.r.x i = gradLagrangian p st.v i)
    (hrs : ∀ m, st.r.s m = st.v.s m * st.v.z m)
    (hry : ∀ k, st.r.y k = eqVal p st.v.x k)
    (hrz : ∀ m, st.r.z m = ineqVal p st.v.x m - st.v.s m)
    (hH : reducedMatrix p st.v * Matrix.of st.Hinv = 1) :
    NewtonSystem p st.v mu (fun m => st.deltaAff.s m * st.deltaAff.z m)
      (solveForUpdate p mu st).delta := by
  have hsol := applyInv_solves st (dualAug p mu st) (reducedMatrix p st.v) hH
  refine ⟨?_, ?_, ?_, ?_⟩
  · intro i
    have h := hsol (.inl i)
    simp only [Sum.elim_inl, reducedMatrix, dualAug_eq, hrx, add_mul, Finset.sum_add_distrib] at h
    have hite : (∑ j, (if i = j then ∑ m, (if (p.con m).var = i then
        (p.con m).a * (st.v.z m / st.v.s m) * (p.con m).a else 0) else 0) *
          applyInvX st (dualAug p mu st) j)
        = ∑ m, (if (p.con m).var = i then (p.con m).a * (st.v.z m / st.v.s m) * (p.con m).a *
          applyInvX st (dualAug p mu st) (p.con m).var else 0) := by
      rw [Finset.sum_eq_single i]
      · rw [if_pos rfl, Finset.sum_mul]
        apply Finset.sum_congr rfl
        intro m _
        split_ifs with h
        · rw [h]
        · simp
      · intro j _ hj; simp [Ne.symm hj]
      · simp
    rw [hite] at h
    have hz : (∑ m, if (p.con m).var = i then (p.con m).a * (solveForUpdate p mu st).delta.z m else 0)
        = -(∑ m, (if (p.con m).var = i then (p.con m).a * (st.v.z m / st.v.s m) * (p.con m).a *
          applyInvX st (dualAug p mu st) (p.con m).var else 0))
          - ∑ m, (if (p.con m).var = i then (p.con m).a * (st.v.z m / st.v.s m) * st.r.z m +
            (p.con m).a * (st.r.s m + st.deltaAff.s m * st.deltaAff.z m - mu) / st.v.s m else 0) := by
      rw [← Finset.sum_neg_distrib, ← Finset.sum_sub_distrib]
      apply Finset.sum_congr rfl
      intro m _
      split_ifs
      · simp only [solveForUpdate]; ring
      · simp
    rw [hz]
    show (∑ j, Gsym p i j * applyInvX st (dualAug p mu st) j) -
      (∑ k, p.A k i * applyInvY st (dualAug p mu st) k) - _ = _
    linarith
  · intro m
    have h0 := hs m
    have h1 := hrs m
    show st.v.z m * ((solveForUpdate p mu st).delta.s m) + st.v.s m *
      (-(st.v.z m / st.v.s m) * (solveForUpdate p mu st).delta.s m -
      (1 / st.v.s m) * (st.r.s m + st.deltaAff.s m * st.deltaAff.z m - mu)) = _
    rw [h1]
    field_simp
    ring
  · intro k
    have h := hsol (.inr k)
    simp only [Sum.elim_inr, reducedMatrix, hry, zero_mul, Finset.sum_const_zero, sub_zero] at h
    exact h
  · intro m
    have h1 := hrz m
    show (p.con m).a * (solveForUpdate p mu st).delta.x (p.con m).var -
      ((p.con m).a * (solveForUpdate p mu st).delta.x (p.con m).var + st.r.z m) = _
    rw [h1]; ring

/-- Facts about the state on which `Iterate` computes the direction. -/
structure Ready (p : QP N M K ℝ) (v : Blocks N M K ℝ) (st1 : IPState N M K ℝ) : Prop where
  v_eq : st1.v = v
  spos : ∀ m, 0 < v.s m
  rx : ∀ i, st1.r.x i = gradLagrangian p v i
  rs : ∀ m, st1.r.s m = v.s m * v.z m
  ry : ∀ k, st1.r.y k = eqVal p v.x k
  rz : ∀ m, st1.r.z m = ineqVal p v.x m - v.s m
  aff0 : st1.deltaAff = Blocks.zero

theorem ready_of_ldlt {E : Eigen N K ℝ} {p : QP N M K ℝ} {st st1 : IPState N M K ℝ}
    (h : computeLDLT E p true (evaluateKKT p true st) = .ok st1) : Ready p st.v st1 := by
  obtain ⟨h1, _, h3⟩ := computeLDLT_ok h
  have hv : st1.v = st.v := by rw [h3]; exact evaluateKKT_v p true st
  have hr : st1.r = (evaluateKKT p true st).r := by rw [h3]
  have hvv := evaluateKKT_v p true st
  refine ⟨hv, ?_, ?_, ?_, ?_, ?_, ?_⟩
  · rw [hvv] at h1; exact h1 rfl
  · intro i; rw [hr, evaluateKKT_rx]
  · intro i; rw [hr, evaluateKKT_rs]
  · intro i; rw [hr, evaluateKKT_ry]
  · intro i; rw [hr, evaluateKKT_rz]
  · rw [h3]

theorem inverse_of_ldlt {E : Eigen N K ℝ} (hE : LDLTContract E) {p : QP N M K ℝ}
    {st st1 : IPState N M K ℝ} (hwf : WF st) (hdet : IsUnit (reducedMatrix p st.v).det)
    (h : computeLDLT E p true (evaluateKKT p true st) = .ok st1) :
    reducedMatrix p st.v * Matrix.of st1.Hinv = 1 := by
  obtain ⟨_, h2, _⟩ := computeLDLT_ok h
  rw [symRed_fillH p _ (WF_evaluateKKT hwf), evaluateKKT_v] at h2
  exact hE _ _ (reducedMatrix_symm p st.v) hdet h2

/-- The primal direction satisfies the inequality row whatever the linear solver returned. -/
theorem direction_ineq (p : QP N M K ℝ) (mu : ℝ) (s : BarrierStrategy) (st : IPState N M K ℝ)
    (m : Fin M) :
    (direction p mu s st).1.delta.s m
      = (p.con m).a * (direction p mu s st).1.delta.x (p.con m).var + st.r.z m := by
  unfold direction
  split_ifs <;> rfl

end MiniOpt.IP
