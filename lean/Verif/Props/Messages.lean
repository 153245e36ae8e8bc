import Verif.Spec.AssertSpec
import Verif.Props.Residual

/-!
# C80: which condition a rejected call reports
-/

set_option autoImplicit false

namespace MiniOpt.Props

open MiniOpt MiniOpt.Spec

variable {α : Type} [Scalar α]

theorem assertAll_nil : assertAll [] = .ok () := rfl

theorem assertAll_cons_pos {c : Prop} (hc : c) (t : String) (l : List (Prop × String)) :
    assertAll ((c, t) :: l) = assertAll l := by
  unfold assertAll
  rw [firstFailing, if_pos hc]

theorem assertAll_cons_neg {c : Prop} (hc : ¬ c) (t : String) (l : List (Prop × String)) :
    assertAll ((c, t) :: l) = .error (.assertion t) := by
  unfold assertAll
  rw [firstFailing, if_neg hc]

theorem assertAll_step {c : Prop} [Decidable c] (t : String) (l : List (Prop × String)) {r : Res Unit}
    (h : r = assertAll l) : (if ¬ c then .error (.assertion t) else r) = assertAll ((c, t) :: l) := by
  by_cases hc : c
  · rw [if_neg (not_not.2 hc), assertAll_cons_pos hc, h]
  · rw [if_pos hc, assertAll_cons_neg hc]

/-- **C80** (QP parameters). -/
theorem C80_qp_params (p : QPParams α) : checkParams p = assertAll (qpParamConditions p) := by
  unfold checkParams qpParamConditions
  repeat refine assertAll_step _ _ ?_
  rfl

/-- **C80** (solver parameters). -/
theorem C80_nls_params (p : NLSParams α) : NLS.checkParams p = assertAll (nlsParamConditions p) := by
  unfold NLS.checkParams nlsParamConditions
  repeat refine assertAll_step _ _ ?_
  rfl

theorem gather_check (n : Nat) : ∀ l : List Int,
    Residual.checkGather n l = assertAll (gatherConditions n l)
  | [] => rfl
  | i :: is => by
    unfold Residual.checkGather
    refine assertAll_step _ _ (assertAll_step _ _ ?_)
    exact gather_check n is

/-- **C80** (residual indices). Every operation of a residual on `n` parameters reports the first bad index, and
whether it is negative or too large; the outputs are as they were. -/
theorem C80_residual_indices (r : Residual α) {n D : Nat} (x : Fin n → α) (t : String)
    (h : firstFailing (gatherConditions n (List.ofFn r.index)) = some t)
    (H : Fin D → Fin D → α) (b : Fin D → α) (A : Fin r.dim → Fin D → α) (c : Fin r.dim → α) :
    r.updateHessian x H b = .error (.assertion t, H, b) ∧
    r.errorVector x r.dim = .error (.assertion t) ∧
    r.quadraticError x = .error (.assertion t) ∧
    r.updateJacobian x r.dim r.dim A c = .error (.assertion t, A, c) := by
  have hg : r.gather x = .error (.assertion t) := by
    unfold Residual.gather
    rw [gather_check]
    unfold assertAll
    rw [h]
  refine ⟨?_, ?_, ?_, ?_⟩
  · simp [Residual.updateHessian, hg]
  · simp [Residual.errorVector, hg]
  · simp [Residual.quadraticError, Residual.errorVector, hg]
  · simp [Residual.updateJacobian, hg]

/-- The first index that is negative or too large decides the message. -/
theorem gather_first (n : Nat) : ∀ (pre : List Int) (i : Int) (post : List Int),
    (∀ j ∈ pre, 0 ≤ j ∧ j < (n : Int)) → ¬ (0 ≤ i ∧ i < (n : Int)) →
    firstFailing (gatherConditions n (pre ++ i :: post))
      = some (if i < 0 then "i >= 0" else "Index exceeds the number of params")
  | [], i, post, _, hi => by
    rw [List.nil_append]
    unfold gatherConditions
    simp only [List.flatMap_cons, List.cons_append, List.nil_append, firstFailing]
    by_cases h0 : 0 ≤ i
    · rw [if_pos h0, if_neg (fun h => hi ⟨h0, h⟩), if_neg (by omega)]
    · rw [if_neg h0, if_pos (by omega)]
  | j :: pre, i, post, hp, hi => by
    have hj := hp j (List.mem_cons_self ..)
    have := gather_first n pre i post (fun k hk => hp k (List.mem_cons_of_mem _ hk)) hi
    rw [← this]
    unfold gatherConditions
    simp only [List.flatMap_cons, List.cons_append, List.nil_append, firstFailing]
    rw [if_pos hj.1, if_pos hj.2]

/-- **C80** (outputs of a residual). Rejected output matrices are reported by the first condition they do not meet and
are left as they were; an output block of the wrong number of rows has its own message. -/
theorem C80_residual_outputs (r : Residual α) {n D : Nat} (x : Fin n → α) (H : Option (RawMat α))
    (b : Option (RawVec α)) (rows brows : Nat) (A : Fin r.dim → Fin D → α) (c : Fin r.dim → α) :
    (∀ t, firstFailing (hessianConditions H b) = some t → r.updateHessianRaw x H b = .error (.assertion t, H, b)) ∧
    (rows ≠ r.dim → r.errorVector x rows = .error (.assertion "Output vector is wrong dimension")) ∧
    (∀ t, firstFailing [(r.dim = brows, "ResidualDim == b_out.rows()"), (r.dim = rows, "ResidualDim == J_out.rows()")]
      = some t → r.updateJacobian x rows brows A c = .error (.assertion t, A, c)) := by
  refine ⟨?_, fun h => if_pos h, ?_⟩
  · intro t ht
    unfold hessianConditions at ht
    simp only [firstFailing] at ht
    cases H with
    | none =>
      rw [if_neg (by simp)] at ht
      cases ht
      rfl
    | some h =>
      rw [if_pos (by simp)] at ht
      cases b with
      | none =>
        rw [if_neg (by simp)] at ht
        cases ht
        rfl
      | some v =>
        rw [if_pos (by simp)] at ht
        unfold Residual.updateHessianRaw
        simp only
        by_cases h1 : h.rows = h.cols
        · rw [if_pos (by simpa using h1)] at ht
          by_cases h2 : v.rows = h.rows
          · rw [if_pos (by simpa using h2)] at ht
            cases ht
          · rw [if_neg (by simpa using h2)] at ht
            cases ht
            rw [if_neg (not_not.2 h1), if_pos h2]
        · rw [if_neg (by simpa using h1)] at ht
          cases ht
          rw [if_pos h1]
  · intro t ht
    simp only [firstFailing] at ht
    unfold Residual.updateJacobian
    by_cases h1 : r.dim = brows
    · rw [if_pos h1] at ht
      by_cases h2 : r.dim = rows
      · rw [if_pos h2] at ht
        cases ht
      · rw [if_neg h2] at ht
        cases ht
        rw [if_neg (not_not.2 h1), if_pos h2]
    · rw [if_neg h1] at ht
      cases ht
      rw [if_pos h1]

/-- The rows before the first one that is too large do not fault. -/
theorem hessRows_report (r : Residual α) {D d : Nat} (J : Fin d → Fin r.P → α) (v : Fin d → α) (l : Fin r.P)
    (h0 : ∀ k : Fin r.P, 0 ≤ r.index k) (hlt : ∀ k : Fin r.P, k < l → r.index k < (D : Int))
    (hl : ¬ r.index l < (D : Int)) : ∀ (m k : Nat), k + m = l.val → ∀ (H : Fin D → Fin D → α) (b : Fin D → α),
    ∃ H' b', Residual.hessRows r.index J v ((List.finRange r.P).drop k) H b
      = .error (.assertion "Index exceeds bounds of hessian", H', b') := by
  intro m
  induction m with
  | zero =>
    intro k hk H b
    have hkP : k < r.P := by have := l.isLt; omega
    rw [List.drop_eq_getElem_cons (by simpa using hkP)]
    simp only [List.getElem_finRange, Fin.cast_mk, Residual.hessRows]
    have : (⟨k, hkP⟩ : Fin r.P) = l := Fin.ext (by simpa using hk)
    rw [this, if_pos hl]
    exact ⟨H, b, rfl⟩
  | succ m ih =>
    intro k hk H b
    have hkP : k < r.P := by have := l.isLt; omega
    have hkl : (⟨k, hkP⟩ : Fin r.P) < l := by rw [Fin.lt_def]; simp; omega
    rw [List.drop_eq_getElem_cons (by simpa using hkP)]
    simp only [List.getElem_finRange, Fin.cast_mk, Residual.hessRows]
    rw [if_neg (not_not.2 (hlt _ hkl)), toFin_some ⟨h0 _, hlt _ hkl⟩]
    obtain ⟨H', hH'⟩ := hessCols_no_ub r h0 J ⟨k, hkP⟩ (D := D)
      ⟨(r.index ⟨k, hkP⟩).toNat, by have := h0 ⟨k, hkP⟩; have := hlt _ hkl; omega⟩
      ((List.finRange r.P).filter fun c => c ≤ ⟨k, hkP⟩) H (by
        intro c hc
        simp only [List.mem_filter, List.mem_finRange, true_and, decide_eq_true_eq] at hc
        exact hlt c (lt_of_le_of_lt hc hkl))
    simp only [hH']
    exact ih (k + 1) (by omega) _ _

omit [Scalar α] in
theorem scatter_report (r : Residual α) {D d : Nat} (J : Fin d → Fin r.P → α) (l : Fin r.P)
    (h0 : ∀ k : Fin r.P, 0 ≤ r.index k) (hlt : ∀ k : Fin r.P, k < l → r.index k < (D : Int))
    (hl : ¬ r.index l < (D : Int)) : ∀ (m k : Nat), k + m = l.val → ∀ (A : Fin d → Fin D → α),
    ∃ A', Residual.scatterCols r.index J ((List.finRange r.P).drop k) A
      = .error (.assertion "Index exceeds the size of the Jacobian", A') := by
  intro m
  induction m with
  | zero =>
    intro k hk A
    have hkP : k < r.P := by have := l.isLt; omega
    rw [List.drop_eq_getElem_cons (by simpa using hkP)]
    simp only [List.getElem_finRange, Fin.cast_mk, Residual.scatterCols]
    have : (⟨k, hkP⟩ : Fin r.P) = l := Fin.ext (by simpa using hk)
    rw [this, if_pos hl]
    exact ⟨A, rfl⟩
  | succ m ih =>
    intro k hk A
    have hkP : k < r.P := by have := l.isLt; omega
    have hkl : (⟨k, hkP⟩ : Fin r.P) < l := by rw [Fin.lt_def]; simp; omega
    rw [List.drop_eq_getElem_cons (by simpa using hkP)]
    simp only [List.getElem_finRange, Fin.cast_mk, Residual.scatterCols]
    rw [if_neg (not_not.2 (hlt _ hkl)), toFin_some ⟨h0 _, hlt _ hkl⟩]
    exact ih (k + 1) (by omega) _

/-- **C80** (outputs that are too small). If all indices are valid parameters but one does not fit the output, the
Hessian update and the Jacobian update report that; the update of `H` and `b` gives them back with their sizes. -/
theorem C80_index_beyond_output (r : Residual α) {n : Nat} (x : Fin n → α) (hn : IdxIn r n)
    (ht : r.throwsJ (readParams r hn x) = false) {D : Nat} (l : Fin r.P) (hl : (D : Int) ≤ r.index l) :
    (∀ (H : Fin D → Fin D → α) (b : Fin D → α), ∃ H' b',
      r.updateHessian x H b = .error (.assertion "Index exceeds bounds of hessian", H', b')) ∧
    (∀ (H : RawMat α) (b : RawVec α), H.rows = D → H.cols = D → b.rows = D → ∃ H' b',
      r.updateHessianRaw x (some H) (some b)
        = .error (.assertion "Index exceeds bounds of hessian", some H', some b') ∧
      H'.rows = D ∧ H'.cols = D ∧ b'.rows = D) ∧
    (∀ (A : Fin r.dim → Fin D → α) (c : Fin r.dim → α), ∃ A' c',
      r.updateJacobian x r.dim r.dim A c = .error (.assertion "Index exceeds the size of the Jacobian", A', c')) := by
  have hex : ∃ k : Nat, ∃ h : k < r.P, (D : Int) ≤ r.index ⟨k, h⟩ := ⟨l.val, l.isLt, hl⟩
  classical
  obtain ⟨hk, hkl⟩ := Nat.find_spec hex
  have hmin := fun m (hm : m < Nat.find hex) => Nat.find_min hex hm
  generalize Nat.find hex = k at hk hkl hmin
  have hlt : ∀ j : Fin r.P, j < ⟨k, hk⟩ → r.index j < (D : Int) := by
    intro j hj
    have := hmin j.val hj
    by_contra hc
    exact this ⟨j.isLt, by simpa using hc⟩
  have h0 : ∀ j, 0 ≤ r.index j := fun j => (hn j).1
  have hup : ∀ (H : Fin D → Fin D → α) (b : Fin D → α), ∃ H' b',
      r.updateHessian x H b = .error (.assertion "Index exceeds bounds of hessian", H', b') := by
    intro H b
    obtain ⟨H', b', he⟩ := hessRows_report r (r.jac (readParams r hn x)) (r.valueJ (readParams r hn x)) ⟨k, hk⟩ h0 hlt
      (by simpa using hkl) k 0 (by simp) H b
    rw [List.drop_zero] at he
    refine ⟨H', b', ?_⟩
    simp only [Residual.updateHessian, gather_ok r x hn, ht, Bool.false_eq_true, he, if_false]
  refine ⟨hup, ?_, ?_⟩
  · intro H b h1 h2 h3
    subst h1
    obtain ⟨H', b', he⟩ := hup (fun i j => H.get i j) (fun i => b.get i)
    unfold Residual.updateHessianRaw
    simp only [he, h2, h3, ne_eq, not_true, if_false]
    exact ⟨_, _, rfl, rfl, rfl, rfl⟩
  · intro A c
    obtain ⟨A', he⟩ := scatter_report r (r.jac (readParams r hn x)) ⟨k, hk⟩ h0 hlt (by simpa using hkl) k 0 (by simp) A
    rw [List.drop_zero] at he
    refine ⟨A', r.valueJ (readParams r hn x), ?_⟩
    simp only [Residual.updateJacobian, gather_ok r x hn, he, ht, Bool.false_eq_true, ne_eq, not_true, if_false]

omit [Scalar α] in
/-- **C80** (a residual from a list of indices of the wrong length). -/
theorem C80_make_residual (dim P : Nat) (index : List Int) (value valueJ : (Fin P → α) → Fin dim → α)
    (jac : (Fin P → α) → Fin dim → Fin P → α) (th thJ : (Fin P → α) → Bool) :
    (index.length ≠ P →
      Residual.makeFromList dim P index value valueJ jac th thJ = .error (.assertion "index.size() == P")) ∧
    ∀ r, Residual.makeFromList dim P index value valueJ jac th thJ = .ok r →
      index.length = P ∧ r.dim = dim ∧ List.ofFn r.index = index := by
  unfold Residual.makeFromList
  refine ⟨fun h => dif_neg h, ?_⟩
  intro r hr
  by_cases h : index.length = P
  · rw [dif_pos h] at hr
    cases hr
    refine ⟨h, rfl, ?_⟩
    subst h
    simp
  · rw [dif_neg h] at hr
    cases hr

/-- **C80** (a constraint on a variable beyond the vector), for both ways of shifting a constraint. -/
theorem C80_shift (c : Ineq α) (x : List α) (h : (x.length : Int) ≤ c.var) :
    c.shiftToVec x = .error (.assertion "variable < x.rows()") ∧
    ∀ (n : Nat) (v : Fin n → α), n = x.length → NLS.shiftAt v c = .error (.assertion "variable < x.rows()") := by
  constructor
  · unfold Ineq.shiftToVec
    rw [if_neg (by omega)]
  · intro n v hn
    unfold NLS.shiftAt
    rw [if_pos (by omega)]

/-- **C80** (a coefficient that is zero). -/
theorem C80_clamp (c : Ineq α) (x : α) (h : Scalar.feq c.a 0) :
    c.clampX x = .error (.assertion "`a` cannot be zero") := if_pos h

/-- **C80** (constructing the solver): a null problem, and a problem without variables. -/
theorem C80_constructor (dimension : Option Int) :
    NLS.ctorCheck dimension = assertAll
      [(dimension ≠ none, "p_ != nullptr"), (∀ d ∈ dimension, 0 < d, "Need at least one variable")] := by
  cases dimension with
  | none => rw [assertAll_cons_neg (by simp)]; rfl
  | some d =>
    rw [assertAll_cons_pos (by simp)]
    unfold NLS.ctorCheck
    by_cases hd : 0 < d
    · rw [assertAll_cons_pos (by simpa using hd)]
      exact if_pos hd
    · rw [assertAll_cons_neg (by simpa using hd)]
      exact if_neg hd

/-- **C80** (null space solver): a problem without equality constraints. -/
theorem C80_null_space {n M : Nat} (E : NSEigen α) (p : QP n M 0 α) (st : NSState n α) :
    NS.solve E p st = .error (.assertion "Problem must have at least one equality constraint", st) := rfl

/-- **C80** (step size selection): a penalty that is not positive, then an initial error that is not finite; the
object is left as it was. -/
theorem C80_select_step_size {n D : Nat} (env : NLS.Env n D α) (prm : NLSParams α) (pre : Errors α)
    (d : DirectionalDerivatives α) (penalty : α) (o : env.Obj) (t : String)
    (h : firstFailing [((0 : α) < penalty, "penalty > 0.0"),
      (¬ pre.containsInvalid, "!errors_pre.ContainsInvalidValues()")] = some t) :
    NLS.selectStepSize env prm pre d penalty o = .error (.assertion t, o) := by
  simp only [firstFailing] at h
  unfold NLS.selectStepSize
  by_cases h1 : (0 : α) < penalty
  · rw [if_pos h1] at h
    by_cases h2 : pre.containsInvalid
    · rw [if_neg (not_not.2 h2)] at h
      cases h
      rw [if_neg (not_not.2 h1), if_pos h2]
    · rw [if_pos h2] at h
      cases h
  · rw [if_neg h1] at h
    cases h
    rw [if_pos h1]

/-- Not vacuous: two bad indices, of which the first is reported. -/
theorem C80_example : firstFailing (gatherConditions 3 [0, 2, 3, -1]) = some "Index exceeds the number of params" ∧
    firstFailing (gatherConditions 3 [0, 2, -1, 3]) = some "i >= 0" :=
  ⟨gather_first 3 [0, 2] 3 [-1] (by decide) (by decide), gather_first 3 [0, 2] (-1) [3] (by decide) (by decide)⟩

end MiniOpt.Props
