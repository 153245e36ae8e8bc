import Verif.Spec.MissingSpec
import Verif.Props.Serialization

/-!
# C66: reading a log with a missing member
-/

set_option autoImplicit false

namespace MiniOpt.Props

open MiniOpt MiniOpt.Cpp MiniOpt.Ser MiniOpt.Spec

variable {α : Type} [Scalar α]

theorem getDouble_num : Reads (fun _ : α => True) (fun x => [x]) Json.num getDouble := by intro x; simp [getDouble]

omit [Scalar α] in
theorem Reads.ok {β : Type} {dbl : β → List α} {enc : β → Json α} {dec : Json α → Except JErr β}
    (h : Reads (fun _ => True) dbl enc dec) (b : β) : dec (enc b) = .ok b := by
  rw [h b]; exact if_pos fun _ _ => trivial


/-! ## Intact parts read back -/

theorem r_double (x : α) : getDouble (Json.num x) = .ok x := rfl
omit [Scalar α] in
theorem r_int (z : Int) : getInt (Json.int z : Json α) = .ok z := rfl
theorem r_errors (e : Errors α) : getErrors (errorsJson Json.num e) = .ok e := (reads_errors getDouble_num).ok e
theorem r_eigen (e : Option (QPEigenvalues α)) : getOpt getEigen (optJson (eigenJson Json.num) e) = .ok e :=
  (reads_opt (reads_eigen getDouble_num) (by simp [eigenJson])).ok e
theorem r_deriv (e : DirectionalDerivatives α) : getDeriv (derivJson Json.num e) = .ok e :=
  (reads_deriv getDouble_num).ok e
theorem r_step (e : LineSearchStep α) : getStep (stepJson Json.num e) = .ok e := (reads_step getDouble_num).ok e
theorem r_steps (l : List (LineSearchStep α)) : getList getStep (.arr (l.map (stepJson Json.num))) = .ok l :=
  (reads_list (reads_step getDouble_num)).ok l
theorem r_alpha (e : AlphaValues α) : getAlpha (alphaJson Json.num e) = .ok e := (reads_alpha getDouble_num).ok e
theorem r_kkt (e : KKTError α) : getKKT (kktJson Json.num e) = .ok e := (reads_kkt getDouble_num).ok e
theorem r_ip (e : IPOutputs α) : getIP (ipJson Json.num e) = .ok e := (reads_ip getDouble_num).ok e
theorem r_qpIter (e : QPIter α) : getQPIter (qpIterJson Json.num e) = .ok e := (reads_qpIter getDouble_num).ok e
theorem r_qpIters (l : List (QPIter α)) : getList getQPIter (.arr (l.map (qpIterJson Json.num))) = .ok l :=
  (reads_list (reads_qpIter getDouble_num)).ok l
theorem r_lagrange (e : Option (QPLagrangeMultipliers α)) :
    getOpt getLagrange (optJson (lagrangeJson Json.num) e) = .ok e :=
  (reads_opt (reads_lagrange getDouble_num) (by simp [lagrangeJson])).ok e
theorem r_qpRes (e : QPRes α) : getQPRes (qpResJson Json.num e) = .ok e := (reads_qpRes getDouble_num).ok e
theorem r_iter (e : Iter α) : getIter (iterJson Json.num e) = .ok e := (reads_iter getDouble_num).ok e

/-! ## A changed part -/

omit [Scalar α] in
/-- A list with one changed entry. -/
theorem list_changed {β : Type} {enc : β → Json α} {dec : Json α → Except JErr β} (hr : ∀ b, dec (enc b) = .ok b)
    (f : Json α → Json α) : ∀ (l : List β) (n : Nat) (b : β), l[n]? = some b →
    getList dec (changeEntry n f (.arr (l.map enc))) = (dec (f (enc b))).map fun b' => l.set n b' := by
  intro l
  induction l with
  | nil => intro n b h; simp at h
  | cons a l ih =>
    intro n b h
    have hok : List.mapM dec (l.map enc) = .ok l := by
      clear ih h
      induction l with
      | nil => rfl
      | cons c l ih => rw [List.map_cons, List.mapM_cons, hr, ih]; rfl
    cases n with
    | zero =>
      simp only [List.getElem?_cons_zero, Option.some.injEq] at h
      subst h
      simp only [changeEntry, getList, List.map_cons, List.modify_zero_cons, List.mapM_cons, hok]
      cases dec (f (enc a)) <;> rfl
    | succ n =>
      simp only [List.getElem?_cons_succ] at h
      have h2 := ih n b h
      simp only [changeEntry, getList] at h2
      simp only [changeEntry, getList, List.map_cons, List.modify_succ_cons, List.mapM_cons, hr, h2]
      cases dec (f (enc b)) <;> rfl

macro "read_changed" "[" ts:Lean.Parser.Tactic.simpLemma,* "]" : tactic =>
  `(tactic| simp [changeMember, at', index, lookup, bind_ok, bind_err, $ts,*])


theorem iter_errors {it : Iter α} {f : Json α → Json α} {e : JErr}
    (h : getErrors (f (errorsJson Json.num it.errorsInitial)) = .error e) :
    getIter (changeMember "errors_initial" f (iterJson Json.num it)) = .error e := by
  read_changed [iterJson, getIter, r_double, r_int, h]

theorem iter_eigen {it : Iter α} {f : Json α → Json α} {e : JErr}
    (h : getOpt getEigen (f (optJson (eigenJson Json.num) it.qpEigenvalues)) = .error e) :
    getIter (changeMember "qp_eigenvalues" f (iterJson Json.num it)) = .error e := by
  read_changed [iterJson, getIter, r_double, r_int, r_errors, r_qpRes, h]

theorem iter_deriv {it : Iter α} {f : Json α → Json α} {e : JErr}
    (h : getDeriv (f (derivJson Json.num it.directionalDerivatives)) = .error e) :
    getIter (changeMember "directional_derivatives" f (iterJson Json.num it)) = .error e := by
  read_changed [iterJson, getIter, r_double, r_int, r_errors, r_qpRes, r_eigen, h]

theorem iter_steps {it : Iter α} {f : Json α → Json α} {e : JErr}
    (h : getList getStep (f (.arr (it.lineSearchSteps.map (stepJson Json.num)))) = .error e) :
    getIter (changeMember "line_search_steps" f (iterJson Json.num it)) = .error e := by
  read_changed [iterJson, getIter, r_double, r_int, r_errors, r_qpRes, r_eigen, r_deriv, h]

theorem iter_qp {it : Iter α} {f : Json α → Json α} {e : JErr}
    (h : getQPRes (f (qpResJson Json.num it.qpOutputs)) = .error e) :
    getIter (changeMember "qp_outputs" f (iterJson Json.num it)) = .error e := by
  read_changed [iterJson, getIter, r_double, r_int, r_errors, h]

theorem iter_qp_ok {it : Iter α} {f : Json α → Json α} {q : QPRes α}
    (h : getQPRes (f (qpResJson Json.num it.qpOutputs)) = .ok q) :
    getIter (changeMember "qp_outputs" f (iterJson Json.num it)) = .ok { it with qpOutputs := q } := by
  have h2 : getIter (changeMember "qp_outputs" f (iterJson Json.num it)) =
      getIter (iterJson Json.num { it with qpOutputs := q }) := by
    read_changed [iterJson, getIter, r_double, r_int, r_errors, r_qpRes, h]
  rw [h2, r_iter]

theorem jsonStep_errors {s : LineSearchStep α} {f : Json α → Json α} {e : JErr}
    (h : getErrors (f (errorsJson Json.num s.errors)) = .error e) :
    getStep (changeMember "errors" f (stepJson Json.num s)) = .error e := by
  read_changed [stepJson, getStep, r_double, h]

theorem ip_alpha {s : IPOutputs α} {f : Json α → Json α} {e : JErr}
    (h : getAlpha (f (alphaJson Json.num s.alpha)) = .error e) :
    getIP (changeMember "alpha" f (ipJson Json.num s)) = .error e := by
  read_changed [ipJson, getIP, r_double, h]

theorem ip_alphaProbe {s : IPOutputs α} {f : Json α → Json α} {e : JErr}
    (h : getAlpha (f (alphaJson Json.num s.alphaProbe)) = .error e) :
    getIP (changeMember "alpha_probe" f (ipJson Json.num s)) = .error e := by
  read_changed [ipJson, getIP, r_double, r_alpha, h]

theorem qpIter_initial {s : QPIter α} {f : Json α → Json α} {e : JErr}
    (h : getKKT (f (kktJson Json.num s.kktInitial)) = .error e) :
    getQPIter (changeMember "kkt_initial" f (qpIterJson Json.num s)) = .error e := by
  read_changed [qpIterJson, getQPIter, h]

theorem qpIter_final {s : QPIter α} {f : Json α → Json α} {e : JErr}
    (h : getKKT (f (kktJson Json.num s.kktFinal)) = .error e) :
    getQPIter (changeMember "kkt_final" f (qpIterJson Json.num s)) = .error e := by
  read_changed [qpIterJson, getQPIter, r_kkt, h]

theorem qpIter_ip {s : QPIter α} {f : Json α → Json α} {e : JErr}
    (h : getIP (f (ipJson Json.num s.ip)) = .error e) :
    getQPIter (changeMember "ip_outputs" f (qpIterJson Json.num s)) = .error e := by
  read_changed [qpIterJson, getQPIter, r_kkt, h]

theorem qpRes_iterations {q : QPOuts α} {f : Json α → Json α} {e : JErr}
    (h : getList getQPIter (f (.arr (q.iterations.map (qpIterJson Json.num)))) = .error e) :
    getQPRes (changeMember "iterations" f (qpResJson Json.num (.interiorPoint q))) = .error e := by
  read_changed [qpResJson, qpOutsJson, getQPRes, getQPOuts, contains, h]

theorem qpRes_multipliers {q : QPOuts α} {f : Json α → Json α} {e : JErr}
    (h : getOpt getLagrange (f (optJson (lagrangeJson Json.num) q.lagrange)) = .error e) :
    getQPRes (changeMember "lagrange_multipliers" f (qpResJson Json.num (.interiorPoint q))) = .error e := by
  read_changed [qpResJson, qpOutsJson, getQPRes, getQPOuts, contains, r_qpIters, h]

/-- A log with one changed iteration. -/
theorem log_iteration {o : Outputs α} {i : Nat} {it : Iter α} (hi : o.iterations[i]? = some it) (f : Json α → Json α) :
    fromJson (changeMember "iterations" (changeEntry i f) (toJson o)) =
      (getIter (f (iterJson Json.num it))).map fun it' => { o with iterations := o.iterations.set i it' } := by
  have h := list_changed r_iter f o.iterations i it hi
  have h2 : getEnum nlsTerminationTable.1 nlsTerminationTable.2
      (enumJson nlsTerminationTable.1 nlsTerminationTable.2 o.termination : Json α) = o.termination := by
    cases o.termination <;> rfl
  cases hg : getIter (f (iterJson Json.num it)) with
  | error e =>
    rw [hg] at h
    simp only [Except.map] at h
    read_changed [toJson, outputsJsonWith, fromJson, h, Except.map]
  | ok it' =>
    rw [hg] at h
    simp only [Except.map] at h
    read_changed [toJson, outputsJsonWith, fromJson, h, h2, Except.map, pure_ok]

omit [Scalar α] in
theorem list_error {β : Type} {enc : β → Json α} {dec : Json α → Except JErr β} (hr : ∀ b, dec (enc b) = .ok b)
    {f : Json α → Json α} {l : List β} {n : Nat} (hn : n < l.length) {e : JErr} (h : ∀ b, dec (f (enc b)) = .error e) :
    getList dec (changeEntry n f (.arr (l.map enc))) = .error e := by
  rw [list_changed hr f l n l[n] (List.getElem?_eq_getElem hn), h]; rfl

/-! ## Removed members -/

theorem no_errors (e : Errors α) {k : String} (hk : k ∈ ["f", "equality"]) :
    getErrors (without k (errorsJson Json.num e)) = .error .outOfRange := by
  simp only [List.mem_cons, List.not_mem_nil, or_false] at hk
  rcases hk with rfl | rfl <;> read_changed [without, errorsJson, getErrors, r_double]

theorem no_eigen (e : QPEigenvalues α) {k : String} (hk : k ∈ ["min", "max", "abs_min"]) :
    getEigen (without k (eigenJson Json.num e)) = .error .outOfRange := by
  simp only [List.mem_cons, List.not_mem_nil, or_false] at hk
  rcases hk with rfl | rfl | rfl <;> read_changed [without, eigenJson, getEigen, r_double]

theorem no_deriv (e : DirectionalDerivatives α) {k : String} (hk : k ∈ ["d_f", "d_equality"]) :
    getDeriv (without k (derivJson Json.num e)) = .error .outOfRange := by
  simp only [List.mem_cons, List.not_mem_nil, or_false] at hk
  rcases hk with rfl | rfl <;> read_changed [without, derivJson, getDeriv, r_double]

theorem no_step (e : LineSearchStep α) {k : String} (hk : k ∈ ["alpha", "errors"]) :
    getStep (without k (stepJson Json.num e)) = .error .outOfRange := by
  simp only [List.mem_cons, List.not_mem_nil, or_false] at hk
  rcases hk with rfl | rfl <;> read_changed [without, stepJson, getStep, r_double]

theorem no_alpha (e : AlphaValues α) {k : String} (hk : k ∈ ["primal", "dual"]) :
    getAlpha (without k (alphaJson Json.num e)) = .error .outOfRange := by
  simp only [List.mem_cons, List.not_mem_nil, or_false] at hk
  rcases hk with rfl | rfl <;> read_changed [without, alphaJson, getAlpha, r_double]

theorem no_lagrange (e : QPLagrangeMultipliers α) {k : String} (hk : k ∈ ["min", "l_infinity"]) :
    getLagrange (without k (lagrangeJson Json.num e)) = .error .outOfRange := by
  simp only [List.mem_cons, List.not_mem_nil, or_false] at hk
  rcases hk with rfl | rfl <;> read_changed [without, lagrangeJson, getLagrange, r_double]

theorem no_kkt (e : KKTError α) {k : String} (hk : k ∈ ["r_dual", "r_comp", "r_primal_eq", "r_primal_ineq"]) :
    getKKT (without k (kktJson Json.num e)) = .error .outOfRange := by
  simp only [List.mem_cons, List.not_mem_nil, or_false] at hk
  rcases hk with rfl | rfl | rfl | rfl <;> read_changed [without, kktJson, getKKT, r_double]

theorem no_ip (e : IPOutputs α) {k : String} (hk : k ∈ ["mu", "alpha", "alpha_probe", "mu_affine"]) :
    getIP (without k (ipJson Json.num e)) = .error .outOfRange := by
  simp only [List.mem_cons, List.not_mem_nil, or_false] at hk
  rcases hk with rfl | rfl | rfl | rfl <;> read_changed [without, ipJson, getIP, r_double, r_alpha]

theorem no_qpIter (e : QPIter α) {k : String} (hk : k ∈ ["kkt_initial", "kkt_final", "ip_outputs"]) :
    getQPIter (without k (qpIterJson Json.num e)) = .error .outOfRange := by
  simp only [List.mem_cons, List.not_mem_nil, or_false] at hk
  rcases hk with rfl | rfl | rfl <;> read_changed [without, qpIterJson, getQPIter, r_kkt]

theorem no_multipliers (q : QPOuts α) :
    getQPRes (without "lagrange_multipliers" (qpResJson Json.num (.interiorPoint q))) = .error .outOfRange := by
  read_changed [without, qpResJson, qpOutsJson, getQPRes, getQPOuts, contains, r_qpIters]

theorem no_qpRes (q : QPOuts α) {k : String} (hk : k = "termination_state" ∨ k = "iterations") :
    getQPRes (without k (qpResJson Json.num (.interiorPoint q))) = .ok (.nullSpace .success) := by
  rcases hk with rfl | rfl <;>
    read_changed [without, qpResJson, qpOutsJson, getQPRes, contains, getEnum, nullSpaceTable]

theorem no_iter (i : Iter α) {k : String} (hk : k ∈ ["iteration", "optimizer_state", "lambda", "errors_initial",
    "qp_outputs", "qp_eigenvalues", "directional_derivatives", "penalty", "step_result", "line_search_steps"]) :
    getIter (without k (iterJson Json.num i)) = .error .ub := by
  simp only [List.mem_cons, List.not_mem_nil, or_false] at hk
  rcases hk with rfl | rfl | rfl | rfl | rfl | rfl | rfl | rfl | rfl | rfl <;>
    read_changed [without, iterJson, getIter, r_double, r_int, r_errors, r_qpRes, r_eigen, r_deriv]

theorem no_log (o : Outputs α) {k : String} (hk : k ∈ ["termination_state", "iterations"]) :
    fromJson (without k (toJson o)) = .error .ub := by
  simp only [List.mem_cons, List.not_mem_nil, or_false] at hk
  rcases hk with rfl | rfl <;> read_changed [without, toJson, outputsJsonWith, fromJson]

/-- **C66** (missing members). Remove any one member, anywhere, from the JSON of any log: reading the rest is undefined
behaviour if it was a member of the log itself or of one of its iterations, and throws `out_of_range` if it was a member
of any other object; but if it was the state or the iterations of the interior point outputs, reading silently succeeds
and reports that iteration's subproblem as solved by the null-space method. -/
theorem C66_missing_member (o : Outputs α) (s : Site) (hs : s.In o) (k : String) (hk : k ∈ s.members) :
    fromJson (changeAt s.path (without k) (toJson o)) = missingOutcome o s k := by
  have get : ∀ i : Nat, i < o.iterations.length → ∃ it, o.iterations[i]? = some it := fun i h =>
    ⟨_, List.getElem?_eq_getElem h⟩
  cases s with
  | log => exact no_log o hk
  | iteration i =>
    obtain ⟨it, hi⟩ := get i hs
    simp only [Site.path, changeAt, missingOutcome]
    rw [log_iteration hi, no_iter it hk]; rfl
  | errors i =>
    obtain ⟨it, hi⟩ := get i hs
    simp only [Site.path, changeAt, missingOutcome]
    rw [log_iteration hi, iter_errors (no_errors _ hk)]; rfl
  | derivatives i =>
    obtain ⟨it, hi⟩ := get i hs
    simp only [Site.path, changeAt, missingOutcome]
    rw [log_iteration hi, iter_deriv (no_deriv _ hk)]; rfl
  | eigenvalues i =>
    obtain ⟨it, e, hi, he⟩ := hs
    simp only [Site.path, changeAt, missingOutcome]
    have hn := no_eigen e hk
    rw [log_iteration hi, iter_eigen (e := .outOfRange)]
    · rfl
    · rw [he]
      simp only [optJson, getOpt, without, eigenJson] at hn ⊢
      rw [hn]
  | step i j =>
    obtain ⟨it, hi, hj⟩ := hs
    simp only [Site.path, changeAt, missingOutcome]
    rw [log_iteration hi, iter_steps (list_error r_step hj fun b => no_step b hk)]; rfl
  | stepErrors i j =>
    obtain ⟨it, hi, hj⟩ := hs
    simp only [Site.path, changeAt, missingOutcome]
    rw [log_iteration hi, iter_steps (list_error r_step hj fun b => jsonStep_errors (no_errors _ hk))]; rfl
  | qp i =>
    obtain ⟨it, q, hi, hq⟩ := hs
    simp only [Site.path, changeAt, missingOutcome]
    rw [log_iteration hi]
    by_cases hl : k = "lagrange_multipliers"
    · subst hl
      rw [if_pos rfl, iter_qp (by rw [hq]; exact no_multipliers q)]; rfl
    · have hk' : k = "termination_state" ∨ k = "iterations" := by
        simp only [Site.members, List.mem_cons, List.not_mem_nil, or_false] at hk
        rcases hk with h | h | h
        · exact Or.inl h
        · exact Or.inr h
        · exact absurd h hl
      rw [if_neg hl, iter_qp_ok (by rw [hq]; exact no_qpRes q hk')]
      simp only [Except.map]
      haveI : Inhabited (Iter α) := ⟨it⟩
      rw [List.modify_eq_set, hi]
      rfl
  | multipliers i =>
    obtain ⟨it, q, l, hi, hq, hl⟩ := hs
    simp only [Site.path, changeAt, missingOutcome]
    have hn := no_lagrange l hk
    rw [log_iteration hi, iter_qp (e := .outOfRange)]
    · rfl
    · rw [hq]
      refine qpRes_multipliers ?_
      rw [hl]
      simp only [optJson, getOpt, without, lagrangeJson] at hn ⊢
      rw [hn]
  | qpIteration i j =>
    obtain ⟨it, q, hi, hq, hj⟩ := hs
    simp only [Site.path, changeAt, missingOutcome]
    rw [log_iteration hi, iter_qp (e := .outOfRange)]
    · rfl
    · rw [hq]
      exact qpRes_iterations (list_error r_qpIter hj fun b => no_qpIter b hk)
  | kktInitial i j =>
    obtain ⟨it, q, hi, hq, hj⟩ := hs
    simp only [Site.path, changeAt, missingOutcome]
    rw [log_iteration hi, iter_qp (e := .outOfRange)]
    · rfl
    · rw [hq]
      exact qpRes_iterations (list_error r_qpIter hj fun b => qpIter_initial (no_kkt _ hk))
  | kktFinal i j =>
    obtain ⟨it, q, hi, hq, hj⟩ := hs
    simp only [Site.path, changeAt, missingOutcome]
    rw [log_iteration hi, iter_qp (e := .outOfRange)]
    · rfl
    · rw [hq]
      exact qpRes_iterations (list_error r_qpIter hj fun b => qpIter_final (no_kkt _ hk))
  | ip i j =>
    obtain ⟨it, q, hi, hq, hj⟩ := hs
    simp only [Site.path, changeAt, missingOutcome]
    rw [log_iteration hi, iter_qp (e := .outOfRange)]
    · rfl
    · rw [hq]
      exact qpRes_iterations (list_error r_qpIter hj fun b => qpIter_ip (no_ip _ hk))
  | alpha i j =>
    obtain ⟨it, q, hi, hq, hj⟩ := hs
    simp only [Site.path, changeAt, missingOutcome]
    rw [log_iteration hi, iter_qp (e := .outOfRange)]
    · rfl
    · rw [hq]
      exact qpRes_iterations (list_error r_qpIter hj fun b => qpIter_ip (ip_alpha (no_alpha _ hk)))
  | alphaProbe i j =>
    obtain ⟨it, q, hi, hq, hj⟩ := hs
    simp only [Site.path, changeAt, missingOutcome]
    rw [log_iteration hi, iter_qp (e := .outOfRange)]
    · rfl
    · rw [hq]
      exact qpRes_iterations (list_error r_qpIter hj fun b => qpIter_ip (ip_alphaProbe (no_alpha _ hk)))

/-- A log with an interior point iteration, and the deepest kind of object in it. -/
example : (Site.alphaProbe 0 0).In (⟨.maxIterations, [⟨0, .nominal, 1, ⟨1, 1⟩,
    .interiorPoint ⟨.maxIterations, [⟨⟨1, 1, 1, 1⟩, ⟨1, 1, 1, 1⟩, ⟨1, ⟨1, 1⟩, ⟨1, 1⟩, 1⟩⟩], none⟩,
    none, ⟨1, 1⟩, 1, .success, []⟩]⟩ : Outputs α) ∧ "dual" ∈ (Site.alphaProbe 0 0).members :=
  ⟨⟨_, _, rfl, rfl, by simp⟩, by decide⟩

end MiniOpt.Props
