import Verif.Model.Serialization
import Verif.Model.Format
import Verif.Spec.SerializationSpec

/-!
# C57, C58, C59: JSON round trips

More concrete cases: `Props/MoreExamples.lean`.
-/

set_option autoImplicit false
set_option linter.unusedSimpArgs false
set_option linter.unusedSectionVars false

namespace MiniOpt.Props

open MiniOpt.Cpp MiniOpt.Ser MiniOpt.Spec

variable {α : Type} [Scalar α]

open Classical in
/-- A structure is read back if all its doubles are, and reading throws `type_error` otherwise. -/
def Reads {β : Type} (P : α → Prop) (dbl : β → List α) (enc : β → Json α) (dec : Json α → Except JErr β) : Prop :=
  ∀ b, dec (enc b) = if ∀ x ∈ dbl b, P x then .ok b else .error .typeError

theorem bind_ok {β γ : Type} (b : β) (f : β → Except JErr γ) : (Except.ok b >>= f) = f b := rfl
theorem bind_err {β γ : Type} (e : JErr) (f : β → Except JErr γ) : (Except.error e >>= f) = .error e := rfl
theorem pure_ok {β : Type} (b : β) : (pure b : Except JErr β) = .ok b := rfl

section Read
variable {num : α → Json α} {P : α → Prop} (H : Reads P (fun x => [x]) num getDouble)
include H

/-- Evaluates a reader on a written structure once it is known which doubles satisfy `P`. -/
macro "read_simp" "[" ts:Lean.Parser.Tactic.simpLemma,* "]" : tactic =>
  `(tactic| simp_all [at', index, lookup, bind_ok, bind_err, pure_ok, $ts,*])

theorem reads_errors : Reads P doublesErrors (errorsJson num) getErrors := by
  rintro ⟨a, b⟩
  have ha := H a; have hb := H b
  by_cases h1 : P a <;> by_cases h2 : P b <;> read_simp [getErrors, errorsJson, doublesErrors]

theorem reads_eigen : Reads P doublesEigen (eigenJson num) getEigen := by
  rintro ⟨a, b, c⟩
  have ha := H a; have hb := H b; have hc := H c
  by_cases h1 : P a <;> by_cases h2 : P b <;> by_cases h3 : P c <;> read_simp [getEigen, eigenJson, doublesEigen]

theorem reads_deriv : Reads P doublesDeriv (derivJson num) getDeriv := by
  rintro ⟨a, b⟩
  have ha := H a; have hb := H b
  by_cases h1 : P a <;> by_cases h2 : P b <;> read_simp [getDeriv, derivJson, doublesDeriv]

theorem reads_alpha : Reads P doublesAlpha (alphaJson num) getAlpha := by
  rintro ⟨a, b⟩
  have ha := H a; have hb := H b
  by_cases h1 : P a <;> by_cases h2 : P b <;> read_simp [getAlpha, alphaJson, doublesAlpha]

theorem reads_lagrange : Reads P doublesLagrange (lagrangeJson num) getLagrange := by
  rintro ⟨a, b⟩
  have ha := H a; have hb := H b
  by_cases h1 : P a <;> by_cases h2 : P b <;> read_simp [getLagrange, lagrangeJson, doublesLagrange]

theorem reads_kkt : Reads P doublesKKT (kktJson num) getKKT := by
  rintro ⟨a, b, c, d⟩
  have ha := H a; have hb := H b; have hc := H c; have hd := H d
  by_cases h1 : P a <;> by_cases h2 : P b <;> by_cases h3 : P c <;> by_cases h4 : P d <;>
    read_simp [getKKT, kktJson, doublesKKT]

theorem reads_step : Reads P doublesStep (stepJson num) getStep := by
  intro i
  have h1 := H i.alpha
  have h2 := reads_errors H i.errors
  have hall : (∀ x ∈ doublesStep i, P x) ↔ ((∀ x ∈ [i.alpha], P x) ∧ (∀ x ∈ doublesErrors i.errors, P x)) := by
    unfold doublesStep
    simp only [List.mem_cons, or_imp, forall_and, List.not_mem_nil, false_imp_iff, implies_true, and_true]
  have hget : getStep (stepJson num i) = (do
      let c ← getDouble (num i.alpha)
      let d ← getErrors (errorsJson num i.errors)
      pure ⟨c, d⟩) := by
    simp [getStep, stepJson, at', lookup, bind_ok]
  dsimp only at h1 h2
  rw [hget, h1, h2]
  by_cases c1 : ∀ x ∈ [i.alpha], P x
  swap; · rw [if_neg c1, if_neg (fun h => c1 (hall.mp h).1)]; rfl
  by_cases c2 : ∀ x ∈ doublesErrors i.errors, P x
  swap; · rw [if_pos c1, if_neg c2, if_neg (fun h => c2 (hall.mp h).2)]; rfl
  rw [if_pos c1, if_pos c2, if_pos (hall.mpr ⟨c1, c2⟩)]
  rfl

theorem reads_ip : Reads P doublesIP (ipJson num) getIP := by
  intro i
  have h1 := H i.mu
  have h2 := reads_alpha H i.alpha
  have h3 := reads_alpha H i.alphaProbe
  have h4 := H i.muAffine
  have hall : (∀ x ∈ doublesIP i, P x) ↔ ((∀ x ∈ [i.mu], P x) ∧ (∀ x ∈ doublesAlpha i.alpha, P x) ∧
      (∀ x ∈ doublesAlpha i.alphaProbe, P x) ∧ (∀ x ∈ [i.muAffine], P x)) := by
    unfold doublesIP
    simp only [List.mem_append, List.mem_cons, or_imp, forall_and, List.not_mem_nil, false_imp_iff, implies_true,
      and_true, List.cons_append, and_assoc]
  have hget : getIP (ipJson num i) = (do
      let c ← getDouble (num i.mu)
      let d ← getAlpha (alphaJson num i.alpha)
      let e ← getAlpha (alphaJson num i.alphaProbe)
      let f ← getDouble (num i.muAffine)
      pure ⟨c, d, e, f⟩) := by
    simp [getIP, ipJson, at', lookup, bind_ok]
  dsimp only at h1 h2 h3 h4
  rw [hget, h1, h2, h3, h4]
  by_cases c1 : ∀ x ∈ [i.mu], P x
  swap; · rw [if_neg c1, if_neg (fun h => c1 (hall.mp h).1)]; rfl
  by_cases c2 : ∀ x ∈ doublesAlpha i.alpha, P x
  swap; · rw [if_pos c1, if_neg c2, if_neg (fun h => c2 (hall.mp h).2.1)]; rfl
  by_cases c3 : ∀ x ∈ doublesAlpha i.alphaProbe, P x
  swap; · rw [if_pos c1, if_pos c2, if_neg c3, if_neg (fun h => c3 (hall.mp h).2.2.1)]; rfl
  by_cases c4 : ∀ x ∈ [i.muAffine], P x
  swap; · rw [if_pos c1, if_pos c2, if_pos c3, if_neg c4, if_neg (fun h => c4 (hall.mp h).2.2.2)]; rfl
  rw [if_pos c1, if_pos c2, if_pos c3, if_pos c4, if_pos (hall.mpr ⟨c1, c2, c3, c4⟩)]
  rfl

theorem reads_qpIter : Reads P doublesQPIter (qpIterJson num) getQPIter := by
  intro i
  have h1 := reads_kkt H i.kktInitial
  have h2 := reads_kkt H i.kktFinal
  have h3 := reads_ip H i.ip
  have hall : (∀ x ∈ doublesQPIter i, P x) ↔ ((∀ x ∈ doublesKKT i.kktInitial, P x) ∧
      (∀ x ∈ doublesKKT i.kktFinal, P x) ∧ (∀ x ∈ doublesIP i.ip, P x)) := by
    unfold doublesQPIter
    simp only [List.mem_append, or_imp, forall_and, and_assoc]
  have hget : getQPIter (qpIterJson num i) = (do
      let c ← getKKT (kktJson num i.kktInitial)
      let d ← getKKT (kktJson num i.kktFinal)
      let e ← getIP (ipJson num i.ip)
      pure ⟨c, d, e⟩) := by
    simp [getQPIter, qpIterJson, at', lookup, bind_ok]
  rw [hget, h1, h2, h3]
  by_cases c1 : ∀ x ∈ doublesKKT i.kktInitial, P x
  swap; · rw [if_neg c1, if_neg (fun h => c1 (hall.mp h).1)]; rfl
  by_cases c2 : ∀ x ∈ doublesKKT i.kktFinal, P x
  swap; · rw [if_pos c1, if_neg c2, if_neg (fun h => c2 (hall.mp h).2.1)]; rfl
  by_cases c3 : ∀ x ∈ doublesIP i.ip, P x
  swap; · rw [if_pos c1, if_pos c2, if_neg c3, if_neg (fun h => c3 (hall.mp h).2.2)]; rfl
  rw [if_pos c1, if_pos c2, if_pos c3, if_pos (hall.mpr ⟨c1, c2, c3⟩)]
  rfl

omit H in
theorem reads_list {β : Type} {dbl : β → List α} {enc : β → Json α} {dec : Json α → Except JErr β}
    (h : Reads P dbl enc dec) : Reads P (List.flatMap dbl) (fun l => .arr (l.map enc)) (getList dec) := by
  intro l
  show List.mapM dec (l.map enc) = _
  induction l with
  | nil => simp [pure_ok]
  | cons b l ih =>
    rw [List.map_cons, List.mapM_cons, ih, h b]
    by_cases h1 : ∀ x ∈ dbl b, P x <;> by_cases h2 : ∀ x ∈ List.flatMap dbl l, P x
    · rw [if_pos h1, if_pos h2, if_pos]
      · rfl
      · intro x hx
        rw [List.flatMap_cons, List.mem_append] at hx
        exact hx.elim (h1 x) (h2 x)
    · rw [if_pos h1, if_neg h2, if_neg]
      · rfl
      · exact fun h => h2 fun x hx => h x (by rw [List.flatMap_cons, List.mem_append]; exact Or.inr hx)
    · rw [if_neg h1]
      exact (if_neg (fun h => h1 fun x hx => h x (by rw [List.flatMap_cons, List.mem_append]; exact Or.inl hx))).symm
    · rw [if_neg h1]
      exact (if_neg (fun h => h1 fun x hx => h x (by rw [List.flatMap_cons, List.mem_append]; exact Or.inl hx))).symm

omit H in
theorem reads_opt {β : Type} {dbl : β → List α} {enc : β → Json α} {dec : Json α → Except JErr β}
    (h : Reads P dbl enc dec) (hn : ∀ b, enc b ≠ .null) :
    Reads P (fun o => (o.map dbl).getD []) (optJson enc) (getOpt dec) := by
  intro o
  cases o with
  | none => simp [optJson, getOpt]
  | some b =>
    have : getOpt dec (enc b) = match dec (enc b) with | .ok x => .ok (some x) | .error e => .error e := by
      unfold getOpt
      cases hb : enc b
      · exact absurd hb (hn b)
      all_goals rfl
    show getOpt dec (enc b) = _
    rw [this, h b]
    by_cases h1 : ∀ x ∈ dbl b, P x
    · rw [if_pos h1, if_pos (by simpa using h1)]
    · rw [if_neg h1, if_neg (by simpa using h1)]

end Read

/-! ### Enums -/

theorem enum_qpTermination (e : QPTermination) :
    getEnum qpTerminationTable.1 qpTerminationTable.2
      (enumJson qpTerminationTable.1 qpTerminationTable.2 e : Json α) = e := by
  cases e <;> simp [getEnum, enumJson, qpTerminationTable]

theorem enum_nullSpace (e : NullSpaceTermination) :
    getEnum nullSpaceTable.1 nullSpaceTable.2 (enumJson nullSpaceTable.1 nullSpaceTable.2 e : Json α) = e := by
  cases e <;> simp [getEnum, enumJson, nullSpaceTable]

theorem enum_nls (e : NLSTermination) :
    getEnum nlsTerminationTable.1 nlsTerminationTable.2
      (enumJson nlsTerminationTable.1 nlsTerminationTable.2 e : Json α) = e := by
  cases e <;> simp [getEnum, enumJson, nlsTerminationTable]

theorem enum_step (e : StepResult) :
    getEnum stepResultTable.1 stepResultTable.2 (enumJson stepResultTable.1 stepResultTable.2 e : Json α) = e := by
  cases e <;> simp [getEnum, enumJson, stepResultTable]

theorem enum_state (e : OptimizerState) :
    getEnum optimizerStateTable.1 optimizerStateTable.2
      (enumJson optimizerStateTable.1 optimizerStateTable.2 e : Json α) = e := by
  cases e <;> simp [getEnum, enumJson, optimizerStateTable]

section Read
variable {num : α → Json α} {P : α → Prop} (H : Reads P (fun x => [x]) num getDouble)
include H

theorem reads_qpOuts : Reads P doublesQPOuts (qpOutsJson num) getQPOuts := by
  rintro ⟨a, b, c⟩
  have hb := reads_list (reads_qpIter H) b
  have hc := reads_opt (reads_lagrange H) (by simp [lagrangeJson]) c
  dsimp only at hb hc
  by_cases h1 : ∀ x ∈ List.flatMap doublesQPIter b, P x <;>
    by_cases h2 : ∀ x ∈ (c.map doublesLagrange).getD [], P x
  · rw [if_pos h1] at hb; rw [if_pos h2] at hc
    rw [if_pos (by intro x hx; exact (List.mem_append.mp hx).elim (h1 x) (h2 x))]
    simp [getQPOuts, qpOutsJson, at', lookup, bind_ok, pure_ok, hb, hc, enum_qpTermination]
  · rw [if_pos h1] at hb; rw [if_neg h2] at hc
    rw [if_neg (fun h => h2 fun x hx => h x (List.mem_append.mpr (Or.inr hx)))]
    simp [getQPOuts, qpOutsJson, at', lookup, bind_ok, bind_err, hb, hc]
  · rw [if_neg h1] at hb
    rw [if_neg (fun h => h1 fun x hx => h x (List.mem_append.mpr (Or.inl hx)))]
    simp [getQPOuts, qpOutsJson, at', lookup, bind_ok, bind_err, hb]
  · rw [if_neg h1] at hb
    rw [if_neg (fun h => h1 fun x hx => h x (List.mem_append.mpr (Or.inl hx)))]
    simp [getQPOuts, qpOutsJson, at', lookup, bind_ok, bind_err, hb]

theorem reads_qpRes : Reads P doublesQPRes (qpResJson num) getQPRes := by
  rintro (t | o)
  · have : getQPRes (enumJson nullSpaceTable.1 nullSpaceTable.2 t : Json α) = .ok (.nullSpace t) := by
      have hn : contains (enumJson nullSpaceTable.1 nullSpaceTable.2 t : Json α) "termination_state" = false := by
        cases t <;> simp [enumJson, nullSpaceTable, contains]
      unfold getQPRes
      rw [hn, enum_nullSpace]; rfl
    simpa [qpResJson, doublesQPRes] using this
  · have ho := reads_qpOuts H o
    have hc : (contains (qpOutsJson num o) "termination_state" && contains (qpOutsJson num o) "iterations") = true := by
      simp [qpOutsJson, contains, lookup]
    show getQPRes (qpOutsJson num o) = _
    unfold getQPRes
    rw [if_pos hc, ho]
    by_cases h : ∀ x ∈ doublesQPOuts o, P x
    · rw [if_pos h]; exact (if_pos h).symm
    · rw [if_neg h]; exact (if_neg h).symm

theorem reads_iter : Reads P doublesIter (iterJson num) getIter := by
  intro i
  have h1 := H i.lambda
  have h2 := reads_errors H i.errorsInitial
  have h3 := reads_qpRes H i.qpOutputs
  have h4 := reads_opt (reads_eigen H) (by simp [eigenJson]) i.qpEigenvalues
  have h5 := reads_deriv H i.directionalDerivatives
  have h6 := H i.penalty
  have h7 := reads_list (reads_step H) i.lineSearchSteps
  have hall : (∀ x ∈ doublesIter i, P x) ↔ ((∀ x ∈ [i.lambda], P x) ∧ (∀ x ∈ doublesErrors i.errorsInitial, P x) ∧
      (∀ x ∈ doublesQPRes i.qpOutputs, P x) ∧ (∀ x ∈ (i.qpEigenvalues.map doublesEigen).getD [], P x) ∧
      (∀ x ∈ doublesDeriv i.directionalDerivatives, P x) ∧ (∀ x ∈ [i.penalty], P x) ∧
      ∀ x ∈ i.lineSearchSteps.flatMap doublesStep, P x) := by
    unfold doublesIter
    generalize doublesErrors i.errorsInitial = l2
    generalize doublesQPRes i.qpOutputs = l3
    generalize (i.qpEigenvalues.map doublesEigen).getD [] = l4
    generalize doublesDeriv i.directionalDerivatives = l5
    generalize i.lineSearchSteps.flatMap doublesStep = l7
    simp only [List.mem_append, List.mem_cons, or_imp, forall_and, forall_eq, List.cons_append]
    simp only [List.not_mem_nil, false_imp_iff, implies_true, and_true]
    tauto
  have hget : getIter (iterJson num i) = (do
      let c ← getDouble (num i.lambda)
      let d ← getErrors (errorsJson num i.errorsInitial)
      let e ← getQPRes (qpResJson num i.qpOutputs)
      let f ← getOpt getEigen (optJson (eigenJson num) i.qpEigenvalues)
      let g ← getDeriv (derivJson num i.directionalDerivatives)
      let h ← getDouble (num i.penalty)
      let k ← getList getStep (.arr (i.lineSearchSteps.map (stepJson num)))
      pure ⟨i.iteration, i.optimizerState, c, d, e, f, g, h, i.stepResult, k⟩) := by
    simp [getIter, iterJson, index, lookup, bind_ok, getInt, enum_state, enum_step]
  dsimp only at h1 h2 h3 h4 h5 h6 h7
  rw [hget, h1, h2, h3, h4, h5, h6, h7]
  clear hget h1 h2 h3 h4 h5 h6 h7
  by_cases c1 : ∀ x ∈ [i.lambda], P x
  swap; · rw [if_neg c1, if_neg (fun h => c1 (hall.mp h).1)]; rfl
  by_cases c2 : ∀ x ∈ doublesErrors i.errorsInitial, P x
  swap; · rw [if_pos c1, if_neg c2, if_neg (fun h => c2 (hall.mp h).2.1)]; rfl
  by_cases c3 : ∀ x ∈ doublesQPRes i.qpOutputs, P x
  swap; · rw [if_pos c1, if_pos c2, if_neg c3, if_neg (fun h => c3 (hall.mp h).2.2.1)]; rfl
  by_cases c4 : ∀ x ∈ (i.qpEigenvalues.map doublesEigen).getD [], P x
  swap; · rw [if_pos c1, if_pos c2, if_pos c3, if_neg c4, if_neg (fun h => c4 (hall.mp h).2.2.2.1)]; rfl
  by_cases c5 : ∀ x ∈ doublesDeriv i.directionalDerivatives, P x
  swap; · rw [if_pos c1, if_pos c2, if_pos c3, if_pos c4, if_neg c5, if_neg (fun h => c5 (hall.mp h).2.2.2.2.1)]; rfl
  by_cases c6 : ∀ x ∈ [i.penalty], P x
  swap
  · rw [if_pos c1, if_pos c2, if_pos c3, if_pos c4, if_pos c5, if_neg c6, if_neg (fun h => c6 (hall.mp h).2.2.2.2.2.1)]
    rfl
  by_cases c7 : ∀ x ∈ i.lineSearchSteps.flatMap doublesStep, P x
  swap
  · rw [if_pos c1, if_pos c2, if_pos c3, if_pos c4, if_pos c5, if_pos c6, if_neg c7,
      if_neg (fun h => c7 (hall.mp h).2.2.2.2.2.2)]
    rfl
  rw [if_pos c1, if_pos c2, if_pos c3, if_pos c4, if_pos c5, if_pos c6, if_pos c7,
    if_pos (hall.mpr ⟨c1, c2, c3, c4, c5, c6, c7⟩)]
  rfl

theorem reads_outputs : Reads P doubles (outputsJsonWith num) fromJson := by
  intro o
  have h1 := reads_list (reads_iter H) o.iterations
  have hget : fromJson (outputsJsonWith num o) = (do
      let k ← getList getIter (.arr (o.iterations.map (iterJson num)))
      pure ⟨o.termination, k⟩) := by
    simp [fromJson, outputsJsonWith, index, lookup, bind_ok, enum_nls]
  dsimp only at h1
  rw [hget, h1]
  by_cases c : ∀ x ∈ List.flatMap doublesIter o.iterations, P x
  · rw [if_pos c, if_pos (show ∀ x ∈ doubles o, P x from c)]; rfl
  · rw [if_neg c, if_neg (show ¬ ∀ x ∈ doubles o, P x from c)]; rfl

end Read

/-- **C57**. Writing the outputs of a nonlinear solve to a JSON value and reading it back gives the same outputs, for
every log whatsoever (any lengths, any doubles including NaN). -/
theorem C57_value_round_trip (o : Outputs α) : fromJson (toJson o) = .ok o := by
  have H : Reads (fun _ : α => True) (fun x => [x]) Json.num getDouble := by intro x; simp [getDouble]
  have := reads_outputs H o
  simpa [toJson] using this

/-! ### Text -/

/-- How a double appears after a trip through JSON text. -/
def numText (x : α) : Json α := if Scalar.isFinite x then .num x else .null

theorem throughText_list {β : Type} {f g : β → Json α} (h : ∀ b, throughText (f b) = g b) (l : List β) :
    throughTextList (l.map f) = l.map g := by
  induction l with
  | nil => simp [throughTextList]
  | cons b l ih => simp [throughTextList, h, ih]

theorem throughText_enum {ε : Type} [DecidableEq ε] (f : ε × String) (r : List (ε × String)) (e : ε) :
    throughText (enumJson f r e : Json α) = enumJson f r e := by
  unfold enumJson
  cases (f :: r).find? (fun q => q.1 = e) <;> simp [throughText]

theorem throughText_opt {β : Type} {f g : β → Json α} (h : ∀ b, throughText (f b) = g b) (o : Option β) :
    throughText (optJson f o) = optJson g o := by
  cases o <;> simp [optJson, throughText, h]

theorem throughText_toJson (o : Outputs α) : throughText (toJson o) = outputsJsonWith numText o := by
  have hn : ∀ x : α, throughText (Json.num x) = numText x := fun x => by simp [throughText, numText]
  have h1 : ∀ x, throughText (errorsJson Json.num x : Json α) = errorsJson numText x := fun x => by
    simp [errorsJson, throughText, throughTextFields, hn, ← numText.eq_1]
  have h2 : ∀ x, throughText (eigenJson Json.num x : Json α) = eigenJson numText x := fun x => by
    simp [eigenJson, throughText, throughTextFields, ← numText.eq_1]
  have h3 : ∀ x, throughText (derivJson Json.num x : Json α) = derivJson numText x := fun x => by
    simp [derivJson, throughText, throughTextFields, ← numText.eq_1]
  have h4 : ∀ x, throughText (stepJson Json.num x : Json α) = stepJson numText x := fun x => by
    simp [stepJson, throughText, throughTextFields, h1, ← numText.eq_1]
  have h5 : ∀ x, throughText (alphaJson Json.num x : Json α) = alphaJson numText x := fun x => by
    simp [alphaJson, throughText, throughTextFields, ← numText.eq_1]
  have h6 : ∀ x, throughText (ipJson Json.num x : Json α) = ipJson numText x := fun x => by
    simp [ipJson, throughText, throughTextFields, h5, ← numText.eq_1]
  have h7 : ∀ x, throughText (kktJson Json.num x : Json α) = kktJson numText x := fun x => by
    simp [kktJson, throughText, throughTextFields, ← numText.eq_1]
  have h8 : ∀ x, throughText (qpIterJson Json.num x : Json α) = qpIterJson numText x := fun x => by
    simp [qpIterJson, throughText, throughTextFields, h6, h7]
  have h9 : ∀ x, throughText (lagrangeJson Json.num x : Json α) = lagrangeJson numText x := fun x => by
    simp [lagrangeJson, throughText, throughTextFields, ← numText.eq_1]
  have h10 : ∀ x, throughText (qpOutsJson Json.num x : Json α) = qpOutsJson numText x := fun x => by
    simp [qpOutsJson, throughText, throughTextFields, throughText_enum, throughText_list h8, throughText_opt h9]
  have h11 : ∀ x, throughText (qpResJson Json.num x : Json α) = qpResJson numText x := fun x => by
    cases x
    · simp [qpResJson, throughText_enum]
    · exact h10 _
  have h12 : ∀ x, throughText (iterJson Json.num x : Json α) = iterJson numText x := fun x => by
    simp [iterJson, throughText, throughTextFields, throughText_enum, throughText_list h4, throughText_opt h2, h1, h3,
      h11, ← numText.eq_1]
  simp [toJson, outputsJsonWith, throughText, throughTextFields, throughText_enum, throughText_list h12]

/-- **C58**. Writing the outputs to JSON *text* and reading them back succeeds, with the same outputs, exactly when
every double in the log is finite; otherwise reading throws the library's `type_error`. -/
theorem C58_text_round_trip (o : Outputs α) :
    ((∀ x ∈ doubles o, Scalar.isFinite x) → fromJson (throughText (toJson o)) = .ok o) ∧
    (¬ (∀ x ∈ doubles o, Scalar.isFinite x) → fromJson (throughText (toJson o)) = .error .typeError) := by
  have H : Reads (fun x : α => Scalar.isFinite x) (fun x => [x]) numText getDouble := by
    intro x
    by_cases h : Scalar.isFinite x <;> simp [numText, getDouble, h]
  have := reads_outputs H o
  rw [throughText_toJson, this]
  exact ⟨fun h => if_pos h, fun h => if_neg h⟩

/-- What it means to decode an enum with printed names `name`, falling back to `dflt`. -/
def EnumDecodes {ε : Type} (j : Json α) (get : Json α → ε) (name : ε → String) (dflt : ε) : Prop :=
  (∀ e, j = .str (name e) → get j = e) ∧ ((∀ e, j ≠ .str (name e)) → get j = dflt)

theorem getEnum_unknown {ε : Type} (j : Json α) (f : ε × String) (r : List (ε × String)) (name : ε → String)
    (hn : ∀ q ∈ f :: r, q.2 = name q.1) (h : ∀ e, j ≠ .str (name e)) : getEnum f r j = f.1 := by
  unfold getEnum
  cases j with
  | str s =>
    have : (f :: r).find? (fun q => q.2 = s) = none := by
      rw [List.find?_eq_none]
      intro q hq
      have h1 := h q.1
      rw [← hn q hq] at h1
      simpa using fun hs => h1 (by rw [hs])
    dsimp only
    rw [this]
  | _ => rfl

/-- **C59**. Reading an enum from JSON never fails. A JSON string equal to the printed name of a value
(`operator<<`) gives that value, and everything else - an unknown string, a number, an object, null - silently gives
one fixed value: `ATTEMPTING_RESTORE_LM`, `SUCCESS`, `MAX_ITERATIONS`, `MAX_ITERATIONS`, `SUCCESS` respectively. -/
theorem C59_enum_decoding (j : Json α) :
    EnumDecodes j (getEnum optimizerStateTable.1 optimizerStateTable.2) Fmt.nameState .attemptingRestoreLM ∧
    EnumDecodes j (getEnum stepResultTable.1 stepResultTable.2) Fmt.nameStep .success ∧
    EnumDecodes j (getEnum nlsTerminationTable.1 nlsTerminationTable.2) Fmt.nameNLS .maxIterations ∧
    EnumDecodes j (getEnum qpTerminationTable.1 qpTerminationTable.2) Fmt.nameQP .maxIterations ∧
    EnumDecodes j (getEnum nullSpaceTable.1 nullSpaceTable.2) Fmt.nameNullSpace .success := by
  refine ⟨⟨?_, ?_⟩, ⟨?_, ?_⟩, ⟨?_, ?_⟩, ⟨?_, ?_⟩, ⟨?_, ?_⟩⟩
  · rintro e rfl; cases e <;> simp [getEnum, optimizerStateTable, Fmt.nameState]
  · exact getEnum_unknown _ _ _ _ (by decide)
  · rintro e rfl; cases e <;> simp [getEnum, stepResultTable, Fmt.nameStep]
  · exact getEnum_unknown _ _ _ _ (by decide)
  · rintro e rfl; cases e <;> simp [getEnum, nlsTerminationTable, Fmt.nameNLS]
  · exact getEnum_unknown _ _ _ _ (by decide)
  · rintro e rfl; cases e <;> simp [getEnum, qpTerminationTable, Fmt.nameQP]
  · exact getEnum_unknown _ _ _ _ (by decide)
  · rintro e rfl; cases e <;> simp [getEnum, nullSpaceTable, Fmt.nameNullSpace]
  · exact getEnum_unknown _ _ _ _ (by decide)

end MiniOpt.Props
