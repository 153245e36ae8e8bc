import Verif.Spec.ResidualSpec
import Verif.Lemmas.QPReal

/-!
# C29–C32: residuals
-/

set_option autoImplicit false

namespace MiniOpt.Props

open MiniOpt MiniOpt.Spec MiniOpt.IP

section generic
variable {α : Type} [Scalar α]

theorem toFin_some {n : Nat} {i : Int} (h : 0 ≤ i ∧ i < (n : Int)) :
    toFin n i = some ⟨i.toNat, by omega⟩ := by
  unfold toFin; rw [dif_pos h]

theorem toFin_none {n : Nat} {i : Int} (h : ¬ (0 ≤ i ∧ i < (n : Int))) : toFin n i = none := by
  unfold toFin; rw [dif_neg h]

theorem checkGather_ok_iff (n : Nat) (l : List Int) :
    Residual.checkGather n l = .ok () ↔ ∀ i ∈ l, 0 ≤ i ∧ i < (n : Int) := by
  induction l with
  | nil => simp [Residual.checkGather]
  | cons i l ih =>
    simp only [Residual.checkGather, List.mem_cons, forall_eq_or_imp]
    by_cases h1 : 0 ≤ i
    · by_cases h2 : i < (n : Int)
      · rw [if_neg (not_not.mpr h1), if_neg (not_not.mpr h2), ih]
        exact ⟨fun h => ⟨⟨h1, h2⟩, h⟩, fun h => h.2⟩
      · rw [if_neg (not_not.mpr h1), if_pos h2]
        exact ⟨fun h => (nomatch h), fun h => absurd h.1.2 h2⟩
    · rw [if_pos h1]
      exact ⟨fun h => (nomatch h), fun h => absurd h.1.1 h1⟩

theorem checkGather_cases (n : Nat) (l : List Int) : Residual.checkGather n l = .ok () ∨
    ∃ t, Residual.checkGather n l = .error (.assertion t) := by
  induction l with
  | nil => simp [Residual.checkGather]
  | cons i l ih =>
    simp only [Residual.checkGather]
    by_cases h1 : 0 ≤ i
    · by_cases h2 : i < (n : Int)
      · rw [if_neg (not_not.mpr h1), if_neg (not_not.mpr h2)]; exact ih
      · rw [if_neg (not_not.mpr h1), if_pos h2]; exact .inr ⟨_, rfl⟩
    · rw [if_pos h1]; exact .inr ⟨_, rfl⟩

omit [Scalar α] in
theorem gather_ok (r : Residual α) {n : Nat} (x : Fin n → α) (h : IdxIn r n) :
    r.gather x = .ok (readParams r h x) := by
  unfold Residual.gather
  have : Residual.checkGather n (List.ofFn r.index) = .ok () := by
    rw [checkGather_ok_iff]
    intro i hi
    obtain ⟨l, rfl⟩ := (List.mem_ofFn' _ _).mp hi
    exact h l
  rw [this]
  exact dif_pos h

omit [Scalar α] in
theorem gather_error (r : Residual α) {n : Nat} (x : Fin n → α) (h : ¬ IdxIn r n) :
    ∃ t, r.gather x = .error (.assertion t) := by
  unfold Residual.gather
  rcases checkGather_cases n (List.ofFn r.index) with hc | ⟨t, hc⟩
  · exfalso; apply h
    intro l
    exact (checkGather_ok_iff _ _).mp hc _ ((List.mem_ofFn' _ _).mpr ⟨l, rfl⟩)
  · rw [hc]; exact ⟨t, rfl⟩

/-- The residual's index `l` as an index of a vector of size `D`. -/
def idxFin (r : Residual α) {D : Nat} (h : IdxIn r D) (l : Fin r.P) : Fin D :=
  ⟨(r.index l).toNat, by have := h l; omega⟩

omit [Scalar α] in
theorem idxFin_eq_iff (r : Residual α) {D : Nat} (h : IdxIn r D) (l : Fin r.P) (j : Fin D) :
    idxFin r h l = j ↔ r.index l = (j.val : Int) := by
  have := h l
  unfold idxFin
  rw [Fin.ext_iff]
  simp only
  omega

theorem hessCols_ok (r : Residual α) {D d : Nat} (h : IdxIn r D) (J : Fin d → Fin r.P → α) (row : Fin r.P)
    (rowG : Fin D) : ∀ (cs : List (Fin r.P)) (H : Fin D → Fin D → α),
    Residual.hessCols r.index J row rowG cs H =
      .ok (cs.foldl (fun H c => Residual.addLower H rowG (idxFin r h c)
        (dot (Residual.col J row) (Residual.col J c))) H) := by
  intro cs
  induction cs with
  | nil => intro H; rfl
  | cons c cs ih =>
    intro H
    simp only [Residual.hessCols, toFin_some (h c), List.foldl_cons]
    exact ih _

theorem hessRows_ok (r : Residual α) {D d : Nat} (h : IdxIn r D) (J : Fin d → Fin r.P → α) (v : Fin d → α) :
    ∀ (rows : List (Fin r.P)) (H : Fin D → Fin D → α) (b : Fin D → α),
    Residual.hessRows r.index J v rows H b =
      .ok (rows.foldl (fun H row => ((List.finRange r.P).filter fun c => c ≤ row).foldl
          (fun H c => Residual.addLower H (idxFin r h row) (idxFin r h c)
            (dot (Residual.col J row) (Residual.col J c))) H) H,
        rows.foldl (fun b row => Function.update b (idxFin r h row)
          (b (idxFin r h row) + dot (Residual.col J row) v)) b) := by
  intro rows
  induction rows with
  | nil => intro H b; rfl
  | cons row rows ih =>
    intro H b
    simp only [Residual.hessRows, not_not.mpr (h row).2, if_false, toFin_some (h row), List.foldl_cons]
    rw [hessCols_ok r h]
    exact ih _ _

omit [Scalar α] in
theorem scatterCols_ok (r : Residual α) {D d : Nat} (h : IdxIn r D) (J : Fin d → Fin r.P → α) :
    ∀ (cs : List (Fin r.P)) (A : Fin d → Fin D → α),
    Residual.scatterCols r.index J cs A =
      .ok (cs.foldl (fun A c => fun k => Function.update (A k) (idxFin r h c) (J k c)) A) := by
  intro cs
  induction cs with
  | nil => intro A; rfl
  | cons c cs ih =>
    intro A
    simp only [Residual.scatterCols, not_not.mpr (h c).2, if_false, toFin_some (h c), List.foldl_cons]
    exact ih _

omit [Scalar α] in
theorem updateJacobian_ok (r : Residual α) {n D : Nat} (x : Fin n → α) (hn : IdxIn r n) (hD : IdxIn r D)
    (ht : r.throwsJ (readParams r hn x) = false) (A : Fin r.dim → Fin D → α) (b : Fin r.dim → α) :
    r.updateJacobian x r.dim r.dim A b = .ok ((List.finRange r.P).foldl
      (fun A c => fun k => Function.update (A k) (idxFin r hD c) (r.jac (readParams r hn x) k c)) A,
      r.valueJ (readParams r hn x)) := by
  simp only [Residual.updateJacobian, gather_ok r x hn, scatterCols_ok r hD, ne_eq, not_true, if_false, ht,
    Bool.false_eq_true]

theorem updateHessian_ok (r : Residual α) {n D : Nat} (x : Fin n → α) (hn : IdxIn r n) (h : IdxIn r D)
    (ht : r.throwsJ (readParams r hn x) = false) (H : Fin D → Fin D → α) (b : Fin D → α) :
    r.updateHessian x H b = .ok ((List.finRange r.P).foldl (fun H row => ((List.finRange r.P).filter fun c => c ≤ row).foldl
          (fun H c => Residual.addLower H (idxFin r h row) (idxFin r h c)
            (dot (Residual.col (r.jac (readParams r hn x)) row) (Residual.col (r.jac (readParams r hn x)) c))) H) H,
        (List.finRange r.P).foldl (fun b row => Function.update b (idxFin r h row)
          (b (idxFin r h row) + dot (Residual.col (r.jac (readParams r hn x)) row) (r.valueJ (readParams r hn x)))) b,
        Residual.half * squaredNorm (r.valueJ (readParams r hn x))) := by
  simp only [Residual.updateHessian, gather_ok r x hn, hessRows_ok r h, ht, Bool.false_eq_true, if_false]

/-- **C32** (any arithmetic). If some index of the residual is negative or not below the number of
parameters, every residual operation throws an assertion, and `H`, `b` and the output blocks are as they were
before the call. -/
theorem C32_bad_index_throws (r : Residual α) {n D : Nat} (x : Fin n → α) (h : ¬ IdxIn r n)
    (H : Fin D → Fin D → α) (b : Fin D → α) (A : Fin r.dim → Fin D → α) (c : Fin r.dim → α) :
    (∃ t, r.updateHessian x H b = .error (.assertion t, H, b)) ∧
    (∃ t, r.errorVector x r.dim = .error (.assertion t)) ∧
    (∃ t, r.quadraticError x = .error (.assertion t)) ∧
    (∃ t, r.updateJacobian x r.dim r.dim A c = .error (.assertion t, A, c)) := by
  obtain ⟨t, ht⟩ := gather_error r x h
  refine ⟨⟨t, ?_⟩, ⟨t, ?_⟩, ⟨t, ?_⟩, ⟨t, ?_⟩⟩
  · simp [Residual.updateHessian, ht]
  · simp [Residual.errorVector, ht]
  · simp [Residual.quadraticError, Residual.errorVector, ht]
  · simp [Residual.updateJacobian, ht]

/-- Faults of a nested loop: never undefined behaviour when the indices are nonnegative. -/
theorem hessCols_no_ub (r : Residual α) {D d : Nat} (h0 : ∀ l, 0 ≤ r.index l) (J : Fin d → Fin r.P → α)
    (row : Fin r.P) (rowG : Fin D) : ∀ (cs : List (Fin r.P)) (H : Fin D → Fin D → α),
    (∀ c ∈ cs, r.index c < (D : Int)) →
    ∃ H', Residual.hessCols r.index J row rowG cs H = .ok H' := by
  intro cs
  induction cs with
  | nil => intro H _; exact ⟨_, rfl⟩
  | cons c cs ih =>
    intro H hc
    simp only [Residual.hessCols, toFin_some ⟨h0 c, hc c (by simp)⟩]
    exact ih _ fun c' hc' => hc c' (by simp [hc'])

theorem hessRows_no_ub (r : Residual α) {D d : Nat} (h0 : ∀ l, 0 ≤ r.index l) (J : Fin d → Fin r.P → α)
    (v : Fin d → α) : ∀ (k : Nat) (H : Fin D → Fin D → α) (b : Fin D → α),
    (∀ l : Fin r.P, l.val < k → r.index l < (D : Int)) → ∀ e,
    Residual.hessRows r.index J v ((List.finRange r.P).drop k) H b = .error e → ∃ t, e.1 = .assertion t := by
  intro k
  induction hm : r.P - k generalizing k with
  | zero =>
    intro H b _ e he
    rw [List.drop_eq_nil_of_le (by simp; omega)] at he
    cases he
  | succ m ih =>
    intro H b hk e he
    have hlt : k < r.P := by omega
    rw [List.drop_eq_getElem_cons (by simpa using hlt)] at he
    simp only [List.getElem_finRange, Fin.cast_mk, Residual.hessRows] at he
    by_cases h1' : r.index ⟨k, hlt⟩ < (D : Int)
    swap
    · rw [if_pos h1'] at he; cases he; exact ⟨_, rfl⟩
    · rw [if_neg (not_not.mpr h1')] at he
      rw [toFin_some ⟨h0 _, h1'⟩] at he
      simp only at he
      obtain ⟨H', hH'⟩ := hessCols_no_ub r h0 J ⟨k, hlt⟩ ⟨(r.index ⟨k, hlt⟩).toNat, by have := h0 ⟨k, hlt⟩; omega⟩
        ((List.finRange r.P).filter fun c => c ≤ ⟨k, hlt⟩) H (by
          intro c hc
          simp only [List.mem_filter, List.mem_finRange, true_and, decide_eq_true_eq] at hc
          rcases Nat.lt_or_ge c.val k with h | h
          · exact hk c h
          · have : c = ⟨k, hlt⟩ := Fin.ext (le_antisymm hc h)
            rw [this]; exact h1')
      rw [hH'] at he
      simp only at he
      refine ih (k + 1) (by omega) _ _ ?_ e he
      intro l hl
      rcases Nat.lt_or_ge l.val k with h | h
      · exact hk l h
      · have : l = ⟨k, hlt⟩ := Fin.ext (by simp; omega)
        rw [this]; exact h1'

omit [Scalar α] in
theorem scatterCols_no_ub (r : Residual α) {D d : Nat} (h0 : ∀ l, 0 ≤ r.index l) (J : Fin d → Fin r.P → α) :
    ∀ (cs : List (Fin r.P)) (A : Fin d → Fin D → α) (e),
    Residual.scatterCols r.index J cs A = .error e → ∃ t, e.1 = .assertion t := by
  intro cs
  induction cs with
  | nil => intro A e he; cases he
  | cons c cs ih =>
    intro A e he
    simp only [Residual.scatterCols] at he
    by_cases h1 : r.index c < (D : Int)
    · rw [if_neg (not_not.mpr h1), toFin_some ⟨h0 c, h1⟩] at he
      exact ih _ e he
    · rw [if_pos h1] at he; cases he; exact ⟨_, rfl⟩

/-- **C32, no out-of-range access** (any arithmetic). No residual operation ever reads or writes out of range:
with any indices, any number of parameters and any sizes of the outputs, the only faults are assertions and exceptions
thrown by the callable itself. -/
theorem C32_no_out_of_range (r : Residual α) {n D : Nat} (x : Fin n → α) (rows brows : Nat)
    (H : Fin D → Fin D → α) (b : Fin D → α) (A : Fin r.dim → Fin D → α) (c : Fin r.dim → α) :
    (∀ e, r.updateHessian x H b = .error e → (∃ t, e.1 = .assertion t) ∨ e.1 = .user ∧ ¬ NeverThrows r) ∧
    (∀ e, r.errorVector x rows = .error e → (∃ t, e = .assertion t) ∨ e = .user ∧ ¬ NeverThrows r) ∧
    (∀ e, r.quadraticError x = .error e → (∃ t, e = .assertion t) ∨ e = .user ∧ ¬ NeverThrows r) ∧
    (∀ e, r.updateJacobian x rows brows A c = .error e → (∃ t, e.1 = .assertion t) ∨ e.1 = .user ∧ ¬ NeverThrows r) := by
  have hev : ∀ rows e, r.errorVector x rows = .error e → (∃ t, e = .assertion t) ∨ e = .user ∧ ¬ NeverThrows r := by
    intro rows e he
    unfold Residual.errorVector at he
    split_ifs at he
    · cases he; exact .inl ⟨_, rfl⟩
    · by_cases h : IdxIn r n
      · rw [gather_ok r x h] at he
        simp only at he
        split_ifs at he with hu
        cases he
        exact .inr ⟨rfl, fun hn => by rw [(hn _).1] at hu; exact absurd hu (by decide)⟩
      · obtain ⟨t, ht⟩ := gather_error r x h
        rw [ht] at he; cases he; exact .inl ⟨_, rfl⟩
  refine ⟨?_, hev rows, ?_, ?_⟩
  · intro e he
    by_cases h : IdxIn r n
    · simp only [Residual.updateHessian, gather_ok r x h] at he
      split_ifs at he with hu
      · cases he
        exact .inr ⟨rfl, fun hn => by rw [(hn _).2] at hu; exact absurd hu (by decide)⟩
      · split at he
        · rename_i e' he'
          cases he
          refine .inl (hessRows_no_ub r (fun l => (h l).1) (r.jac (readParams r h x)) (r.valueJ (readParams r h x)) 0 H b
            (fun l hl => absurd hl (Nat.not_lt_zero _)) e ?_)
          simpa using he'
        · cases he
    · obtain ⟨t, ht⟩ := gather_error r x h
      simp only [Residual.updateHessian, ht] at he
      cases he; exact .inl ⟨_, rfl⟩
  · intro e he
    unfold Residual.quadraticError at he
    split at he
    · rename_i e' he'
      cases he
      exact hev _ _ he'
    · cases he
  · intro e he
    unfold Residual.updateJacobian at he
    split_ifs at he
    · cases he; exact .inl ⟨_, rfl⟩
    · cases he; exact .inl ⟨_, rfl⟩
    · by_cases h : IdxIn r n
      · rw [gather_ok r x h] at he
        simp only at he
        split_ifs at he with hu
        · cases he
          exact .inr ⟨rfl, fun hn => by rw [(hn _).2] at hu; exact absurd hu (by decide)⟩
        · split at he
          · rename_i e' A' he'
            cases he
            exact .inl (scatterCols_no_ub r (fun l => (h l).1) _ _ _ _ he')
          · cases he
      · obtain ⟨t, ht⟩ := gather_error r x h
        rw [ht] at he
        cases he; exact .inl ⟨_, rfl⟩

/-- **C32, exceptions of the callable** (any arithmetic). If the callable throws, the operation throws, and `H`, `b` and
the output blocks are as they were before the call. -/
theorem C32_callable_throws (r : Residual α) {n D : Nat} (x : Fin n → α) (hn : IdxIn r n)
    (H : Fin D → Fin D → α) (b : Fin D → α) (A : Fin r.dim → Fin D → α) (c : Fin r.dim → α) :
    (r.throwsJ (readParams r hn x) = true → r.updateHessian x H b = .error (.user, H, b) ∧
      r.updateJacobian x r.dim r.dim A c = .error (.user, A, c)) ∧
    (r.throws (readParams r hn x) = true → r.errorVector x r.dim = .error .user ∧ r.quadraticError x = .error .user) := by
  refine ⟨fun h => ⟨?_, ?_⟩, fun h => ⟨?_, ?_⟩⟩
  · simp [Residual.updateHessian, gather_ok r x hn, h]
  · simp [Residual.updateJacobian, gather_ok r x hn, h]
  · simp [Residual.errorVector, gather_ok r x hn, h]
  · simp [Residual.quadraticError, Residual.errorVector, gather_ok r x hn, h]

/-- **C32, output sizes** (any arithmetic). Null pointers, a non-square `H`, a `b` of another size, and output
blocks of the wrong number of rows are rejected by an assertion before anything is written. -/
theorem C32_bad_outputs_throw (r : Residual α) {n D : Nat} (x : Fin n → α) (H : Option (RawMat α))
    (b : Option (RawVec α)) (rows brows : Nat) (A : Fin r.dim → Fin D → α) (c : Fin r.dim → α) :
    ((H = none ∨ b = none ∨ (∃ h v, H = some h ∧ b = some v ∧ (h.rows ≠ h.cols ∨ v.rows ≠ h.rows))) →
      ∃ t, r.updateHessianRaw x H b = .error (.assertion t, H, b)) ∧
    (rows ≠ r.dim → ∃ t, r.errorVector x rows = .error (.assertion t)) ∧
    (rows ≠ r.dim ∨ brows ≠ r.dim → ∃ t, r.updateJacobian x rows brows A c = .error (.assertion t, A, c)) := by
  refine ⟨?_, ?_, ?_⟩
  · intro h
    cases H with
    | none => exact ⟨_, rfl⟩
    | some Hm =>
      cases b with
      | none => exact ⟨_, rfl⟩
      | some bv =>
        rcases h with h | h | ⟨h', v, e1, e2, h⟩
        · cases h
        · cases h
        · cases e1; cases e2
          unfold Residual.updateHessianRaw
          simp only
          by_cases h1 : Hm.rows ≠ Hm.cols
          · rw [if_pos h1]; exact ⟨_, rfl⟩
          · rw [if_neg h1, if_pos (h.resolve_left h1)]; exact ⟨_, rfl⟩
  · intro h; exact ⟨_, if_pos h⟩
  · intro h
    unfold Residual.updateJacobian
    by_cases h1 : r.dim ≠ brows
    · rw [if_pos h1]; exact ⟨_, rfl⟩
    · rw [if_neg h1]
      have h2 : r.dim ≠ rows := by
        rcases h with h | h
        · exact Ne.symm h
        · exact absurd (Ne.symm h) h1
      rw [if_pos h2]; exact ⟨_, rfl⟩

/-- **C30** (any arithmetic). For a callable whose behaviour does not depend on whether a Jacobian is requested,
the three error values agree: whenever `UpdateHessian` returns `f`, the error vector is evaluated to some `e`,
`QuadraticError` returns `f` too, and `f` is half the squared norm of `e`; `UpdateJacobian` writes the same
`e`. -/
theorem C30_errors_agree (r : Residual α) (hc : Consistent r) (hs : SameThrows r) {n D : Nat} (x : Fin n → α)
    (H H' : Fin D → Fin D → α) (b b' : Fin D → α) (f : α) (h : r.updateHessian x H b = .ok (H', b', f)) :
    ∃ e : Fin r.dim → α, r.errorVector x r.dim = .ok e ∧ r.quadraticError x = .ok f ∧
      f = Residual.half * squaredNorm e ∧
      ∀ (A : Fin r.dim → Fin D → α) (c : Fin r.dim → α),
        ∃ A', r.updateJacobian x r.dim r.dim A c = .ok (A', e) := by
  by_cases hi : IdxIn r n
  · simp only [Residual.updateHessian, gather_ok r x hi] at h
    split_ifs at h with hu
    rw [Bool.not_eq_true] at hu
    have hu' : r.throws (readParams r hi x) = false := by rw [← hs]; exact hu
    split at h
    · cases h
    · rename_i H1 b1 h1
      have hD : IdxIn r D := by
        intro l
        refine ⟨(hi l).1, ?_⟩
        by_contra hl
        have key : ∀ (rows : List (Fin r.P)) (H : Fin D → Fin D → α) (b : Fin D → α), l ∈ rows →
            ∀ v, Residual.hessRows r.index (r.jac (readParams r hi x)) (r.valueJ (readParams r hi x)) rows H b
              ≠ .ok v := by
          intro rows
          induction rows with
          | nil => intro H b hm; cases hm
          | cons row rows ih =>
            intro H b hm v hv
            simp only [Residual.hessRows] at hv
            split_ifs at hv with h3
            rcases List.mem_cons.mp hm with rfl | hm
            · exact hl h3
            · split at hv
              · cases hv
              · split at hv
                · cases hv
                · exact ih _ _ hm _ hv
        exact key _ _ _ (List.mem_finRange l) _ h1
      cases h
      refine ⟨r.value (readParams r hi x), ?_, ?_, ?_, ?_⟩
      · simp [Residual.errorVector, gather_ok r x hi, hu']
      · simp [Residual.quadraticError, Residual.errorVector, gather_ok r x hi, hc (readParams r hi x), hu']
      · rw [hc]
      · intro A c
        rw [updateJacobian_ok r x hi hD hu, hc (readParams r hi x)]
        exact ⟨_, rfl⟩
  · obtain ⟨t, ht⟩ := gather_error r x hi
    simp only [Residual.updateHessian, ht] at h
    cases h

end generic

/-! ## Exact arithmetic -/

theorem addLower_real {D : Nat} (H : Fin D → Fin D → ℝ) (r c : Fin D) (v : ℝ) (i j : Fin D) :
    Residual.addLower H r c v i j = H i j + if i = max r c ∧ j = min r c then v else 0 := by
  unfold Residual.addLower
  by_cases h : c ≤ r
  · rw [if_pos h, max_eq_left h, min_eq_right h]
    by_cases hi : i = r
    · subst hi
      by_cases hj : j = c
      · subst hj; simp
      · simp [hj]
    · simp [hi]
  · have h' := (not_le.mp h).le
    rw [if_neg h, max_eq_right h', min_eq_left h']
    by_cases hi : i = c
    · subst hi
      by_cases hj : j = r
      · subst hj; simp
      · simp [hj]
    · simp [hi]

theorem foldl_addLower {D : Nat} {ι : Type} (l : List ι) (r c : ι → Fin D) (v : ι → ℝ) (i j : Fin D) :
    ∀ H : Fin D → Fin D → ℝ, l.foldl (fun H a => Residual.addLower H (r a) (c a) (v a)) H i j
      = H i j + (l.map fun a => if i = max (r a) (c a) ∧ j = min (r a) (c a) then v a else 0).sum := by
  induction l with
  | nil => intro H; simp
  | cons a l ih =>
    intro H
    rw [List.foldl_cons, ih, addLower_real, List.map_cons, List.sum_cons, add_assoc]

theorem sum_map_filter {P : Nat} (f : Fin P → ℝ) (q : Fin P → Prop) [DecidablePred q] :
    (((List.finRange P).filter fun c => q c).map f).sum = ∑ c, if q c then f c else 0 := by
  rw [← sum_map_finRange]
  induction List.finRange P with
  | nil => rfl
  | cons a l ih =>
    by_cases h : q a
    · simp [h, ih]
    · simp [h, ih]

/-- The entry `(i, j)` written by the two nested loops. -/
theorem hessRows_real (r : Residual ℝ) {D d : Nat} (h : IdxIn r D) (J : Fin d → Fin r.P → ℝ) (i j : Fin D) :
    ∀ (rows : List (Fin r.P)) (H : Fin D → Fin D → ℝ),
    rows.foldl (fun H row => ((List.finRange r.P).filter fun c => c ≤ row).foldl
          (fun H c => Residual.addLower H (idxFin r h row) (idxFin r h c)
            (dot (Residual.col J row) (Residual.col J c))) H) H i j
      = H i j + (rows.map fun a => ∑ c, if c ≤ a then
          (if i = max (idxFin r h a) (idxFin r h c) ∧ j = min (idxFin r h a) (idxFin r h c) then
            ∑ k, J k a * J k c else 0) else 0).sum := by
  intro rows
  induction rows with
  | nil => intro H; simp
  | cons a rows ih =>
    intro H
    rw [List.foldl_cons, ih, foldl_addLower _ (fun _ => idxFin r h a) (fun c => idxFin r h c),
      List.map_cons, List.sum_cons, sum_map_filter, add_assoc]
    simp only [real_dot, Residual.col]

/-- Splitting a double sum over pairs into the part on or below the diagonal and the part above it,
reindexed. -/
theorem sum_pairs {P : Nat} (f : Fin P → Fin P → ℝ) :
    ∑ a, ∑ c, f a c = (∑ a, ∑ c, if c ≤ a then f a c else 0) + ∑ a, ∑ c, if c < a then f c a else 0 := by
  have hsw : (∑ a, ∑ c, if c < a then f c a else 0) = ∑ a, ∑ c, if a < c then f a c else 0 :=
    Finset.sum_comm
  rw [hsw, ← Finset.sum_add_distrib]
  refine Finset.sum_congr rfl fun a _ => ?_
  rw [← Finset.sum_add_distrib]
  refine Finset.sum_congr rfl fun c _ => ?_
  by_cases h : c ≤ a
  · simp [h, not_lt.mpr h]
  · simp [h, not_le.mp h]

theorem fullJac_gram {d P D : Nat} (index : Fin P → Int) (J : Fin d → Fin P → ℝ) (i j : Fin D) :
    ∑ k, fullJac index J D k i * fullJac index J D k j
      = ∑ a, ∑ c, if index a = (i.val : Int) ∧ index c = (j.val : Int) then ∑ k, J k a * J k c else 0 := by
  unfold fullJac
  simp only [Finset.sum_mul_sum]
  rw [Finset.sum_comm]
  refine Finset.sum_congr rfl fun a _ => ?_
  rw [Finset.sum_comm]
  refine Finset.sum_congr rfl fun c _ => ?_
  by_cases h1 : index a = (i.val : Int) <;> by_cases h2 : index c = (j.val : Int) <;> simp [h1, h2]

/-- **C29, in full generality** (repeated indices allowed). `UpdateHessian` on a residual whose indices are all
valid adds to `H`, on and below the diagonal, the matrix `Jᵀ J` of the Jacobian in full coordinates, except
that on the diagonal every pair of distinct local columns belonging to the same variable is counted once
instead of twice; it leaves the strict upper triangle of `H` alone, adds `Jᵀ h` to `b`, and returns `½‖h‖²`. -/
theorem C29_update_hessian_general (r : Residual ℝ) {n D : Nat} (x : Fin n → ℝ) (hn : IdxIn r n) (hD : IdxIn r D)
    (ht : r.throwsJ (readParams r hn x) = false) (H : Fin D → Fin D → ℝ) (b : Fin D → ℝ) :
    ∃ H' b' f, r.updateHessian x H b = .ok (H', b', f) ∧
      (∀ i j, j < i → H' i j = H i j
        + ∑ k, fullJac r.index (r.jac (readParams r hn x)) D k i * fullJac r.index (r.jac (readParams r hn x)) D k j) ∧
      (∀ i, H' i i = H i i + ∑ k, fullJac r.index (r.jac (readParams r hn x)) D k i ^ 2
        - ∑ a, ∑ c, if c < a ∧ r.index a = (i.val : Int) ∧ r.index c = (i.val : Int) then
            ∑ k, r.jac (readParams r hn x) k a * r.jac (readParams r hn x) k c else 0) ∧
      (∀ i j, i < j → H' i j = H i j) ∧
      (∀ i, b' i = b i + ∑ k, fullJac r.index (r.jac (readParams r hn x)) D k i * r.valueJ (readParams r hn x) k) ∧
      f = (1 / 2) * ∑ k, r.valueJ (readParams r hn x) k ^ 2 := by
  set p := readParams r hn x
  set J := r.jac p
  refine ⟨_, _, _, updateHessian_ok r x hn hD ht H b, ?_, ?_, ?_, ?_, ?_⟩
  · intro i j hij
    have eg := fullJac_gram r.index J i j
    rw [sum_pairs, ← Finset.sum_add_distrib] at eg
    rw [hessRows_real, sum_map_finRange, eg]
    congr 1
    refine Finset.sum_congr rfl fun a _ => ?_
    rw [← Finset.sum_add_distrib]
    refine Finset.sum_congr rfl fun c _ => ?_
    simp only [← idxFin_eq_iff r hD]
    set ia := idxFin r hD a
    set ic := idxFin r hD c
    have hsym : (∑ k, J k c * J k a) = ∑ k, J k a * J k c :=
      Finset.sum_congr rfl fun k _ => mul_comm _ _
    have hmm : (i = max ia ic ∧ j = min ia ic) ↔ (ia = i ∧ ic = j) ∨ (ic = i ∧ ia = j) := by
      constructor
      · rintro ⟨h1, h2⟩
        rcases le_total ia ic with h | h
        · rw [max_eq_right h] at h1; rw [min_eq_left h] at h2
          exact .inr ⟨h1.symm, h2.symm⟩
        · rw [max_eq_left h] at h1; rw [min_eq_right h] at h2
          exact .inl ⟨h1.symm, h2.symm⟩
      · rintro (⟨h1, h2⟩ | ⟨h1, h2⟩)
        · rw [h1, h2, max_eq_left hij.le, min_eq_right hij.le]; exact ⟨rfl, rfl⟩
        · rw [h1, h2, max_eq_right hij.le, min_eq_left hij.le]; exact ⟨rfl, rfl⟩
    show (if c ≤ a then if i = max ia ic ∧ j = min ia ic then ∑ k, J k a * J k c else 0 else 0) = _
    simp only [hmm, hsym]
    by_cases hca : c = a
    · subst hca
      simp only [le_refl, if_true, lt_irrefl, if_false, add_zero]
      have : ¬ (ia = i ∧ ia = j) := fun h => hij.ne' (h.1 ▸ h.2)
      have hcc : ic = ia := rfl
      simp only [hcc, or_self]
    · by_cases hle : c ≤ a
      · have hlt : c < a := lt_of_le_of_ne hle hca
        simp only [hle, hlt, if_true]
        by_cases e1 : ia = i ∧ ic = j
        · have e2 : ¬ (ic = i ∧ ia = j) := fun h => hij.ne' (e1.1 ▸ h.2)
          rw [if_pos (.inl e1), if_pos e1, if_neg e2, add_zero]
        · simp [e1]
      · have hlt : ¬ c < a := fun h => hle h.le
        simp [hle, hlt]
  · intro i
    rw [hessRows_real, sum_map_finRange]
    have e := fullJac_gram r.index J i i
    rw [sum_pairs] at e
    have e' : (∑ k, fullJac r.index J D k i ^ 2) = ∑ k, fullJac r.index J D k i * fullJac r.index J D k i :=
      Finset.sum_congr rfl fun k _ => sq _
    rw [e', e, add_sub_assoc]
    congr 1
    have e2 : (∑ a, ∑ c, if c < a then (if r.index c = (i.val : Int) ∧ r.index a = (i.val : Int) then
          ∑ k, J k c * J k a else 0) else 0)
        = ∑ a, ∑ c, if c < a ∧ r.index a = (i.val : Int) ∧ r.index c = (i.val : Int) then
            ∑ k, J k a * J k c else 0 := by
      refine Finset.sum_congr rfl fun a _ => Finset.sum_congr rfl fun c _ => ?_
      have hsym : (∑ k, J k c * J k a) = ∑ k, J k a * J k c :=
        Finset.sum_congr rfl fun k _ => mul_comm _ _
      by_cases h1 : c < a <;> by_cases h2 : r.index a = (i.val : Int) <;>
        by_cases h3 : r.index c = (i.val : Int) <;> simp [h1, h2, h3, hsym]
    rw [e2, add_sub_cancel_right]
    refine Finset.sum_congr rfl fun a _ => Finset.sum_congr rfl fun c _ => ?_
    simp only [← idxFin_eq_iff r hD]
    set ia := idxFin r hD a
    set ic := idxFin r hD c
    have hmm : (i = max ia ic ∧ i = min ia ic) ↔ (ia = i ∧ ic = i) := by
      constructor
      · rintro ⟨h1, h2⟩
        have hle1 : ia ≤ i := h1 ▸ le_max_left _ _
        have hle2 : ic ≤ i := h1 ▸ le_max_right _ _
        have hge1 : i ≤ ia := h2 ▸ min_le_left _ _
        have hge2 : i ≤ ic := h2 ▸ min_le_right _ _
        exact ⟨le_antisymm hle1 hge1, le_antisymm hle2 hge2⟩
      · rintro ⟨h1, h2⟩; rw [h1, h2]; simp
    simp only [hmm]
    rfl
  · intro i j hij
    rw [hessRows_real, sum_map_finRange]
    rw [Finset.sum_eq_zero, add_zero]
    intro a _
    refine Finset.sum_eq_zero fun c _ => ?_
    have : ¬ (i = max (idxFin r hD a) (idxFin r hD c) ∧ j = min (idxFin r hD a) (idxFin r hD c)) := by
      rintro ⟨h1, h2⟩
      rw [h1, h2] at hij
      exact absurd hij (not_lt.mpr min_le_max)
    rw [if_neg this, ite_self]
  · intro i
    rw [foldl_update_add (List.finRange r.P) (fun row => idxFin r hD row)
      (fun row => dot (Residual.col J row) (r.valueJ p)) b i, sum_map_finRange]
    congr 1
    unfold fullJac
    simp only [Finset.sum_mul]
    rw [Finset.sum_comm]
    refine Finset.sum_congr rfl fun a _ => ?_
    by_cases h : idxFin r hD a = i
    · have h' := (idxFin_eq_iff r hD a i).mp h
      simp [h, h', real_dot, Residual.col]
    · have h' : ¬ r.index a = (i.val : Int) := fun e => h ((idxFin_eq_iff r hD a i).mpr e)
      simp [h, h']
  · simp only [Residual.half, real_squaredNorm, real_lit]; norm_num [p]

/-- **C29**. For a residual with valid, distinct indices `UpdateHessian` adds exactly the lower triangle
(diagonal included) of `Jᵀ J` to `H` and `Jᵀ h` to `b`, and touches nothing else. -/
theorem C29_update_hessian (r : Residual ℝ) {n D : Nat} (x : Fin n → ℝ) (hn : IdxIn r n) (hD : IdxIn r D)
    (ht : r.throwsJ (readParams r hn x) = false) (hd : Distinct r) (H : Fin D → Fin D → ℝ) (b : Fin D → ℝ) :
    ∃ H' b' f, r.updateHessian x H b = .ok (H', b', f) ∧
      (∀ i j, H' i j = if j ≤ i then H i j
        + ∑ k, fullJac r.index (r.jac (readParams r hn x)) D k i * fullJac r.index (r.jac (readParams r hn x)) D k j
        else H i j) ∧
      (∀ i, b' i = b i + ∑ k, fullJac r.index (r.jac (readParams r hn x)) D k i * r.valueJ (readParams r hn x) k) ∧
      f = (1 / 2) * ∑ k, r.valueJ (readParams r hn x) k ^ 2 := by
  obtain ⟨H', b', f, h0, h1, h2, h3, h4, h5⟩ := C29_update_hessian_general r x hn hD ht H b
  refine ⟨H', b', f, h0, ?_, h4, h5⟩
  intro i j
  rcases lt_trichotomy i j with h | h | h
  · rw [if_neg (not_le.mpr h)]; exact h3 i j h
  · subst h
    rw [if_pos le_rfl, h2 i]
    have : (∑ a, ∑ c, if c < a ∧ r.index a = (i.val : Int) ∧ r.index c = (i.val : Int) then
            ∑ k, r.jac (readParams r hn x) k a * r.jac (readParams r hn x) k c else 0) = 0 := by
      refine Finset.sum_eq_zero fun a _ => Finset.sum_eq_zero fun c _ => ?_
      rw [if_neg]
      rintro ⟨hca, ha, hc⟩
      exact hca.ne (hd (hc.trans ha.symm))
    rw [this, sub_zero]
    congr 1
    exact Finset.sum_congr rfl fun k _ => sq _
  · rw [if_pos h.le]; exact h1 i j h

/-- Effect of the scatter loop for distinct indices. -/
theorem scatter_real (r : Residual ℝ) {D d : Nat} (h : IdxIn r D) (hd : Distinct r) (J : Fin d → Fin r.P → ℝ)
    (k : Fin d) (j : Fin D) : ∀ (cs : List (Fin r.P)) (A : Fin d → Fin D → ℝ),
    cs.foldl (fun A c => fun k => Function.update (A k) (idxFin r h c) (J k c)) A k j
      = if ∃ c ∈ cs, idxFin r h c = j then ∑ l, (if r.index l = (j.val : Int) then J k l else 0) else A k j := by
  intro cs
  induction cs with
  | nil => intro A; simp
  | cons c cs ih =>
    intro A
    rw [List.foldl_cons, ih]
    by_cases h1 : ∃ c' ∈ cs, idxFin r h c' = j
    · have h2 : ∃ c' ∈ c :: cs, idxFin r h c' = j := by
        obtain ⟨c', hm, he⟩ := h1; exact ⟨c', by simp [hm], he⟩
      rw [if_pos h1, if_pos h2]
    · rw [if_neg h1]
      by_cases hc : idxFin r h c = j
      · have h2 : ∃ c' ∈ c :: cs, idxFin r h c' = j := ⟨c, by simp, hc⟩
        rw [if_pos h2, ← hc, Function.update_self, Finset.sum_eq_single c]
        · rw [if_pos]; exact (idxFin_eq_iff r h c _).mp rfl
        · intro l _ hl
          rw [if_neg]
          intro e
          exact hl (hd (e.trans ((idxFin_eq_iff r h c _).mp rfl).symm))
        · simp
      · have h2 : ¬ ∃ c' ∈ c :: cs, idxFin r h c' = j := by
          rintro ⟨c', hm, he⟩
          rcases List.mem_cons.mp hm with rfl | hm
          · exact hc he
          · exact h1 ⟨c', hm, he⟩
        rw [if_neg h2, Function.update_of_ne (fun e => hc e.symm)]

/-- **C31**. For valid, distinct indices `UpdateJacobian` replaces the columns of the residual's own
parameters by their columns of the Jacobian, leaves every other column untouched, and writes the residual
value. -/
theorem C31_update_jacobian (r : Residual ℝ) {n D : Nat} (x : Fin n → ℝ) (hn : IdxIn r n) (hD : IdxIn r D)
    (ht : r.throwsJ (readParams r hn x) = false) (hd : Distinct r) (A : Fin r.dim → Fin D → ℝ) (b : Fin r.dim → ℝ) :
    ∃ A' b', r.updateJacobian x r.dim r.dim A b = .ok (A', b') ∧
      (∀ k j, A' k j = if ∃ l, r.index l = (j.val : Int) then
        fullJac r.index (r.jac (readParams r hn x)) D k j else A k j) ∧
      b' = r.valueJ (readParams r hn x) := by
  refine ⟨_, _, updateJacobian_ok r x hn hD ht A b, ?_, rfl⟩
  · intro k j
    rw [scatter_real r hD hd]
    simp only [List.mem_finRange, true_and, idxFin_eq_iff]
    rfl

/-- **C31, on a zeroed block**: exactly the Jacobian in full coordinates. -/
theorem C31_update_jacobian_zero (r : Residual ℝ) {n D : Nat} (x : Fin n → ℝ) (hn : IdxIn r n) (hD : IdxIn r D)
    (ht : r.throwsJ (readParams r hn x) = false) (hd : Distinct r) (b : Fin r.dim → ℝ) :
    r.updateJacobian x r.dim r.dim (fun _ (_ : Fin D) => 0) b
      = .ok (fullJac r.index (r.jac (readParams r hn x)) D, r.valueJ (readParams r hn x)) := by
  obtain ⟨A', b', h, hA, hb⟩ := C31_update_jacobian r x hn hD ht hd (fun _ _ => 0) b
  rw [h, hb]
  congr 2
  funext k j
  rw [hA]
  split_ifs with he
  · rfl
  · unfold fullJac
    symm
    refine Finset.sum_eq_zero fun l _ => if_neg fun e => he ⟨l, e⟩

/-! ### Witnesses -/

/-- `h(u, v) = u + v` read from parameters `i` and `j`, with Jacobian `[1 1]`. -/
def sumResidual (i j : Int) : Residual ℝ where
  dim := 1
  P := 2
  index := ![i, j]
  value p _ := p 0 + p 1
  valueJ p _ := p 0 + p 1
  jac _ _ _ := 1

example : IdxIn (sumResidual 0 1) 2 ∧ Distinct (sumResidual 0 1) ∧ Consistent (sumResidual 0 1) := by
  refine ⟨?_, ?_, fun p => rfl⟩
  · intro l; fin_cases l <;> simp [sumResidual]
  · intro a b; fin_cases a <;> fin_cases b <;> simp [sumResidual]

example : ¬ IdxIn (sumResidual 0 (-1)) 2 ∧ ¬ IdxIn (sumResidual 0 2) 2 := by
  constructor
  · intro h; have := h (1 : Fin 2); simp [sumResidual] at this
  · intro h; have := h (1 : Fin 2); simp [sumResidual] at this

theorem sumResidual_idx00 : IdxIn (sumResidual 0 0) 1 := by
  intro l; fin_cases l <;> simp [sumResidual]

/-- **C29 needs distinct indices**. `h = u + v` with both parameters read from variable 0 is `h = 2 x₀`: the
Hessian contribution should be `4`, but `UpdateHessian` adds `3`. -/
theorem C29_repeated_index_wrong (x : Fin 1 → ℝ) :
    ∃ H' b' f, (sumResidual 0 0).updateHessian x (fun _ (_ : Fin 1) => 0) (fun _ => 0) = .ok (H', b', f) ∧
      H' 0 0 = 3 ∧
      ∑ k, fullJac (sumResidual 0 0).index ((sumResidual 0 0).jac fun _ => 0) 1 k 0 ^ 2 = 4 := by
  have hJ : ∑ k : Fin 1, (∑ l : Fin 2, if (![0, 0] : Fin 2 → Int) l = ((0 : Fin 1).val : Int) then (1 : ℝ) else 0) ^ 2
      = 4 := by
    rw [Fin.sum_univ_one, Fin.sum_univ_two]; norm_num
  obtain ⟨H', b', f, h0, _, h2, _⟩ := C29_update_hessian_general (sumResidual 0 0) x sumResidual_idx00
    sumResidual_idx00 rfl (fun _ _ => 0) (fun _ => 0)
  refine ⟨H', b', f, h0, ?_, hJ⟩
  rw [h2]
  show (0 : ℝ) + ∑ k : Fin 1, (∑ l : Fin 2, if (![0, 0] : Fin 2 → Int) l = ((0 : Fin 1).val : Int) then (1 : ℝ) else 0) ^ 2
    - ∑ a : Fin 2, ∑ c : Fin 2, (if c < a ∧ (![0, 0] : Fin 2 → Int) a = ((0 : Fin 1).val : Int) ∧
      (![0, 0] : Fin 2 → Int) c = ((0 : Fin 1).val : Int) then ∑ k : Fin 1, (1 : ℝ) * 1 else 0) = 3
  rw [hJ, Fin.sum_univ_two, Fin.sum_univ_two, Fin.sum_univ_two]
  norm_num

/-- **C31 needs distinct indices**. With both parameters read from variable 0 the Jacobian row is `[1]` (the
last column written) instead of `[2]`. -/
theorem C31_repeated_index_wrong (x : Fin 1 → ℝ) (b : Fin 1 → ℝ) :
    ∃ A' b', (sumResidual 0 0).updateJacobian x 1 1 (fun _ (_ : Fin 1) => 0) b = .ok (A', b') ∧
      (∀ k, A' k 0 = 1) ∧
      ∀ k, fullJac (sumResidual 0 0).index ((sumResidual 0 0).jac fun _ => 0) 1 k 0 = 2 := by
  refine ⟨_, _, updateJacobian_ok (sumResidual 0 0) x sumResidual_idx00 sumResidual_idx00 rfl _ b, ?_, ?_⟩
  · intro k
    have h0 : idxFin (sumResidual 0 0) sumResidual_idx00 = fun _ => (0 : Fin 1) := by
      funext c; exact Subsingleton.elim _ _
    show (List.finRange 2).foldl (fun (A : Fin 1 → Fin 1 → ℝ) (c : Fin 2) => fun k =>
      Function.update (A k) (idxFin (sumResidual 0 0) sumResidual_idx00 c) ((fun _ _ => 1 : Fin 1 → Fin 2 → ℝ) k c))
        (fun _ _ => 0) k 0 = 1
    simp [h0, List.finRange_succ]
  · intro k
    show (∑ l : Fin 2, if (![0, 0] : Fin 2 → Int) l = ((0 : Fin 1).val : Int) then (1 : ℝ) else 0) = 2
    rw [Fin.sum_univ_two]; norm_num

end MiniOpt.Props
