import Verif.Spec.LinearizeSpec
import Verif.Lemmas.NLSView
import Verif.Lemmas.QPReal

/-!
# Closed form of the linearisation (exact arithmetic)
-/

set_option autoImplicit false

namespace MiniOpt.NLS

open MiniOpt.Spec MiniOpt.Props

variable {n D : Nat}

/-- `UpdateHessian` adds something that does not depend on what was there. -/
theorem updateHessian_add (r : Residual ℝ) (x : Fin n → ℝ) (hn : IdxIn r n) (hD : IdxIn r D) (ht : QuietJ r x) :
    ∃ (dH : Fin D → Fin D → ℝ) (db : Fin D → ℝ) (f : ℝ), ∀ H b,
      r.updateHessian x H b = .ok (fun i j => H i j + dH i j, fun i => b i + db i, f) := by
  refine ⟨fun i j => ((List.finRange r.P).map fun a => ∑ c, if c ≤ a then
      (if i = max (idxFin r hD a) (idxFin r hD c) ∧ j = min (idxFin r hD a) (idxFin r hD c) then
        ∑ k, r.jac (readParams r hn x) k a * r.jac (readParams r hn x) k c else 0) else 0).sum,
    fun i => ((List.finRange r.P).map fun row => if idxFin r hD row = i then
      dot (Residual.col (r.jac (readParams r hn x)) row) (r.valueJ (readParams r hn x)) else 0).sum,
    Residual.half * squaredNorm (r.valueJ (readParams r hn x)), fun H b => ?_⟩
  rw [updateHessian_ok r x hn hD (by rw [params_eq]; exact ht)]
  refine congrArg Except.ok (Prod.ext ?_ (Prod.ext ?_ rfl))
  · funext i j
    exact hessRows_real r hD _ i j _ H
  · funext i
    exact IP.foldl_update_add _ _ _ b i

theorem hessRows_idx {d P : Nat} (index : Fin P → Int) (J : Fin d → Fin P → ℝ) (v : Fin d → ℝ) :
    ∀ (rows : List (Fin P)) (H : Fin D → Fin D → ℝ) (b : Fin D → ℝ) r,
    Residual.hessRows index J v rows H b = .ok r → ∀ l ∈ rows, 0 ≤ index l ∧ index l < (D : Int) := by
  intro rows
  induction rows with
  | nil => intro H b r _ l hl; cases hl
  | cons row rows ih =>
    intro H b r h l hl
    simp only [Residual.hessRows] at h
    split_ifs at h with h1
    split at h
    · cases h
    · rename_i rowG hrow
      split at h
      · cases h
      · rcases List.mem_cons.mp hl with rfl | hl
        · unfold toFin at hrow
          split_ifs at hrow with h2
          exact h2
        · exact ih _ _ _ h l hl

theorem updateHessian_idx {r : Residual ℝ} {x : Fin n → ℝ} {H : Fin D → Fin D → ℝ} {b : Fin D → ℝ} {res}
    (h : r.updateHessian x H b = .ok res) : IdxIn r n ∧ IdxIn r D ∧ QuietJ r x := by
  unfold Residual.updateHessian at h
  by_cases hi : IdxIn r n
  · rw [gather_ok r x hi, params_eq] at h
    simp only at h
    split_ifs at h with hq
    split at h
    · cases h
    · rename_i H' b' hh
      exact ⟨hi, fun l => hessRows_idx _ _ _ _ _ _ _ hh l (List.mem_finRange l), by simpa [QuietJ] using hq⟩
  · obtain ⟨t, ht⟩ := gather_error r x hi
    rw [ht] at h; cases h

/-- The cost loop in closed form. -/
theorem linCosts_add (x : Fin n → ℝ) : ∀ (l : List (Residual ℝ)),
    (∀ r ∈ l, IdxIn r n ∧ IdxIn r D ∧ QuietJ r x) →
    ∃ (dH : Residual ℝ → Fin D → Fin D → ℝ) (db : Residual ℝ → Fin D → ℝ) (f : Residual ℝ → ℝ),
      (∀ r ∈ l, ∀ H b, r.updateHessian x H b = .ok (fun i j => H i j + dH r i j, fun i => b i + db r i, f r)) := by
  intro l hl
  have h := fun r (hr : r ∈ l) => updateHessian_add r x (hl r hr).1 (hl r hr).2.1 (hl r hr).2.2
  classical
  refine ⟨fun r => if hr : r ∈ l then (h r hr).choose else 0,
    fun r => if hr : r ∈ l then (h r hr).choose_spec.choose else 0,
    fun r => if hr : r ∈ l then (h r hr).choose_spec.choose_spec.choose else 0, ?_⟩
  intro r hr H b
  simp only [dif_pos hr]
  exact (h r hr).choose_spec.choose_spec.choose_spec H b

theorem linCosts_sum (x : Fin n → ℝ) (dH : Residual ℝ → Fin D → Fin D → ℝ) (db : Residual ℝ → Fin D → ℝ)
    (f : Residual ℝ → ℝ) : ∀ (l : List (Residual ℝ)),
    (∀ r ∈ l, ∀ H b, r.updateHessian x H b = .ok (fun i j => H i j + dH r i j, fun i => b i + db r i, f r)) →
    ∀ G c f0, linCosts x l G c f0 = .ok (fun i j => G i j + (l.map fun r => dH r i j).sum,
      fun i => c i + (l.map fun r => db r i).sum, f0 + (l.map f).sum) := by
  intro l
  induction l with
  | nil => intro _ G c f0; simp [linCosts]
  | cons r l ih =>
    intro h G c f0
    simp only [linCosts]
    rw [h r (by simp)]
    simp only
    rw [ih (fun r hr => h r (by simp [hr]))]
    simp only [List.map_cons, List.sum_cons, add_assoc]

theorem linCosts_idx {x : Fin n → ℝ} : ∀ {l : List (Residual ℝ)} {G : Fin D → Fin D → ℝ} {c : Fin D → ℝ} {f : ℝ} {r},
    linCosts x l G c f = .ok r → ∀ q ∈ l, IdxIn q n ∧ IdxIn q D ∧ QuietJ q x := by
  intro l
  induction l with
  | nil => intro G c f r _ q hq; cases hq
  | cons a l ih =>
    intro G c f r h q hq
    simp only [linCosts] at h
    split at h
    · cases h
    · rename_i G1 c1 e he
      rcases List.mem_cons.mp hq with rfl | hq
      · exact updateHessian_idx he
      · exact ih h q hq

theorem updateJacobian_quiet {α : Type} [Scalar α] {r : Residual α} {x : Fin n → α} {rows brows : Nat}
    {A : Fin r.dim → Fin D → α} {b : Fin r.dim → α} {res}
    (h : r.updateJacobian x rows brows A b = .ok res) : QuietJ r x := by
  unfold Residual.updateJacobian at h
  split_ifs at h
  by_cases hi : IdxIn r n
  · rw [gather_ok r x hi, params_eq] at h
    simp only at h
    split_ifs at h with hq
    simpa [QuietJ] using hq
  · obtain ⟨t, ht⟩ := gather_error r x hi
    rw [ht] at h; cases h

theorem linEqs_quiet {α : Type} [Scalar α] {K : Nat} {x : Fin n → α} : ∀ {l : List (Residual α)} {row : Nat}
    {A : Fin K → Fin D → α} {b : Fin K → α} {f : α} {res}, linEqs x l row A b f = .ok res → ∀ q ∈ l, QuietJ q x := by
  intro l
  induction l with
  | nil => intro row A b f res _ q hq; cases hq
  | cons a l ih =>
    intro row A b f res h q hq
    simp only [linEqs] at h
    split at h
    · split at h
      · cases h
      · rename_i A1 b1 he
        rcases List.mem_cons.mp hq with rfl | hq
        · exact updateJacobian_quiet he
        · exact ih h q hq
    · cases h

/-- A linearisation that returned met no exception. -/
theorem linearize_quiet {p : Problem D ℝ} {x : Fin n → ℝ} {lam : ℝ}
    {qp : QPData D p.M p.K ℝ} {res} (h : linearize p x lam qp = .ok res) : QuietJP p x := by
  unfold linearize at h
  split at h
  · cases h
  · rename_i G c f hcost
    simp only at h
    split at h
    · cases h
    · rename_i A b err heq
      intro r hr
      rcases List.mem_append.mp hr with hr | hr
      · exact (linCosts_idx hcost r hr).2.2
      · exact linEqs_quiet heq r hr

/-! ## Distinct indices -/

theorem updateHessian_distinct (r : Residual ℝ) (x : Fin n → ℝ) (hn : IdxIn r n) (hD : IdxIn r D) (hd : Distinct r)
    (hc : Consistent r) (ht : QuietJ r x) (H : Fin D → Fin D → ℝ) (b : Fin D → ℝ) :
    r.updateHessian x H b = .ok
      (fun i j => H i j + if j ≤ i then ∑ k, jacAt r x D k i * jacAt r x D k j else 0,
        fun i => b i + ∑ k, jacAt r x D k i * valueAt r x k, (1 / 2) * ∑ k, valueAt r x k ^ 2) := by
  obtain ⟨H', b', f, h, hH, hb, hf⟩ := C29_update_hessian r x hn hD (by rw [params_eq]; exact ht) hd H b
  rw [h]
  have hp : readParams r hn x = params r x := params_eq r x hn
  rw [hp] at hH hb hf
  have hv : r.valueJ (params r x) = valueAt r x := hc _
  rw [hv] at hb hf
  refine congrArg Except.ok (Prod.ext ?_ (Prod.ext ?_ hf))
  · funext i j
    simp only [hH i j, jacAt]
    split_ifs <;> simp
  · funext i
    exact hb i

theorem updateJacobian_distinct (r : Residual ℝ) (x : Fin n → ℝ) (hn : IdxIn r n) (hD : IdxIn r D) (hd : Distinct r)
    (hc : Consistent r) (ht : QuietJ r x) (b : Fin r.dim → ℝ) :
    r.updateJacobian x r.dim r.dim (fun _ (_ : Fin D) => 0) b = .ok (jacAt r x D, valueAt r x) := by
  rw [C31_update_jacobian_zero r x hn hD (by rw [params_eq]; exact ht) hd b]
  have hp : readParams r hn x = params r x := params_eq r x hn
  rw [hp]
  have hv : r.valueJ (params r x) = valueAt r x := hc _
  rw [hv]; rfl

/-! ## Equality constraints -/

theorem ofFn_setRows {K d : Nat} {β : Type} (A : Fin K → β) (row : Nat) (B : Fin d → β) (h : row + d ≤ K) :
    List.ofFn (setRows A row B) = (List.ofFn A).take row ++ List.ofFn B ++ (List.ofFn A).drop (row + d) := by
  apply List.ext_getElem
  · simp; omega
  · intro i h1 h2
    simp only [List.length_ofFn] at h1
    rw [List.getElem_ofFn]
    unfold setRows
    by_cases ha : i < row
    · rw [dif_neg (by simp; omega), List.getElem_append_left (by simp; omega), List.getElem_append_left (by simp; omega)]
      simp
    · by_cases hb : i < row + d
      · rw [dif_pos (by simp; omega), List.getElem_append_left (by simp; omega), List.getElem_append_right (by simp; omega)]
        simp only [List.length_take, List.length_ofFn, List.getElem_ofFn]
        congr 1
        simp only [Fin.mk.injEq]
        omega
      · rw [dif_neg (by simp; omega), List.getElem_append_right (by simp; omega)]
        simp only [List.length_append, List.length_take, List.length_ofFn, List.getElem_drop, List.getElem_ofFn]
        congr 1
        simp only [Fin.mk.injEq]
        omega

theorem linEqs_model {K : Nat} (x : Fin n → ℝ) (dx : Fin D → ℝ) : ∀ (l : List (Residual ℝ)),
    (∀ r ∈ l, IdxIn r n ∧ IdxIn r D ∧ Distinct r ∧ Consistent r ∧ QuietJ r x) →
    ∀ (row : Nat) (A : Fin K → Fin D → ℝ) (b : Fin K → ℝ) (err : ℝ), row + (l.map (·.dim)).sum = K →
    (∀ k : Fin K, row ≤ k.val → A k = fun _ => 0) →
    ∃ A' b', linEqs x l row A b err = .ok (A', b', err + (l.map fun r => ∑ k, |valueAt r x k|).sum) ∧
      (List.ofFn fun k => (∑ j, A' k j * dx j) + b' k)
        = (List.ofFn fun k => (∑ j, A k j * dx j) + b k).take row ++ stackedModel x dx l ∧
      List.ofFn b' = (List.ofFn b).take row ++ stackedValues x l := by
  intro l
  induction l with
  | nil =>
    intro _ row A b err hrow _
    simp only [List.map_nil, List.sum_nil, add_zero] at hrow
    refine ⟨A, b, by simp [linEqs], ?_, ?_⟩
    · rw [List.take_of_length_le (by simp; omega)]; simp [stackedModel]
    · rw [List.take_of_length_le (by simp; omega)]; simp [stackedValues]
  | cons r l ih =>
    intro hl row A b err hrow hA
    obtain ⟨h1, h2, h3, h4, h5⟩ := hl r (by simp)
    simp only [List.map_cons, List.sum_cons] at hrow
    have hle : row + r.dim ≤ K := by omega
    have hg : getRows A row hle = fun _ _ => 0 := by
      funext k
      exact hA _ (by simp)
    simp only [linEqs]
    rw [dif_pos hle, hg, updateJacobian_distinct r x h1 h2 h3 h4 h5]
    simp only
    obtain ⟨A', b', e, hm, hv⟩ := ih (fun r hr => hl r (by simp [hr])) (row + r.dim) (setRows A row (jacAt r x D))
      (setRows b row (valueAt r x)) (err + lpNorm1 (valueAt r x)) (by omega) (by
        intro k hk
        unfold setRows
        rw [dif_neg (by omega)]
        exact hA k (by omega))
    refine ⟨A', b', ?_, ?_, ?_⟩
    · rw [e, real_lpNorm1, List.map_cons, List.sum_cons, add_assoc]
    · rw [hm]
      have hcomb : (fun k => (∑ j, setRows A row (jacAt r x D) k j * dx j) + setRows b row (valueAt r x) k)
          = setRows (fun k => (∑ j, A k j * dx j) + b k) row (linAt r x dx) := by
        funext k
        unfold setRows
        split_ifs with hk
        · unfold linAt; ring
        · rfl
      rw [hcomb, ofFn_setRows _ _ _ hle, List.take_append_of_le_length (by simp <;> omega), List.take_of_length_le (by simp <;> omega)]
      rw [stackedModel, List.append_assoc]
    · rw [hv, ofFn_setRows _ _ _ hle, List.take_append_of_le_length (by simp <;> omega), List.take_of_length_le (by simp <;> omega)]
      rw [stackedValues, List.append_assoc]

/-! ## Inequalities -/

theorem shiftLoop_ok (x : Fin n → ℝ) : ∀ (l : List (Ineq ℝ)) con, shiftLoop x l = .ok con ↔
    (∀ c ∈ l, 0 ≤ c.var ∧ c.var < (n : Int)) ∧
    ∀ i : Fin l.length, con i = ⟨(l.get i).var, (l.get i).a, boundAt (l.get i) x⟩ := by
  intro l
  induction l with
  | nil =>
    intro con
    simp only [shiftLoop, List.not_mem_nil, false_implies, implies_true, true_and]
    constructor
    · intro _ i; exact i.elim0
    · intro _; congr 1; funext i; exact i.elim0
  | cons c l ih =>
    intro con
    simp only [shiftLoop]
    have hc : ∀ c' , shiftAt x c = .ok c' ↔ (0 ≤ c.var ∧ c.var < (n : Int)) ∧ c' = ⟨c.var, c.a, boundAt c x⟩ := by
      intro c'
      unfold shiftAt
      by_cases h1 : c.var < (n : Int)
      · rw [if_neg (not_not.mpr h1)]
        by_cases h0 : 0 ≤ c.var
        · rw [toFin_some ⟨h0, h1⟩]
          simp only [Except.ok.injEq, h0, h1, and_self, true_and, Ineq.shiftTo, boundAt, dif_pos]
          exact eq_comm
        · rw [toFin_none (by omega)]
          simp [h0]
      · rw [if_pos h1]; simp [h1]
    cases hs : shiftAt x c with
    | error e =>
      simp only [reduceCtorEq, false_iff]
      rintro ⟨h, _⟩
      have := (hc _).mpr ⟨h c (by simp), rfl⟩
      rw [hs] at this; cases this
    | ok c' =>
      obtain ⟨h1, rfl⟩ := (hc c').mp hs
      simp only
      cases hl : shiftLoop x l with
      | error e =>
        simp only [reduceCtorEq, false_iff]
        rintro ⟨h, h'⟩
        have := (ih (fun i => con i.succ)).mpr ⟨fun c hc => h c (by simp [hc]), fun i => h' i.succ⟩
        rw [hl] at this; cases this
      | ok cs =>
        obtain ⟨h2, h3⟩ := (ih cs).mp hl
        simp only [Except.ok.injEq]
        constructor
        · rintro rfl
          refine ⟨?_, ?_⟩
          · intro c1 hc1
            rcases List.mem_cons.mp hc1 with rfl | hc1
            · exact h1
            · exact h2 c1 hc1
          · intro i
            refine Fin.cases ?_ (fun i => ?_) i
            · simp
            · rw [Fin.cons_succ, h3]; rfl
        · rintro ⟨_, h⟩
          funext i
          refine Fin.cases ?_ (fun i => ?_) i
          · rw [h 0]; simp
          · rw [Fin.cons_succ, h3, h i.succ]; rfl

end MiniOpt.NLS
