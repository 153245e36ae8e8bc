import Verif.Spec.ReportSpec
import Verif.Props.Format

/-!
# C79: the printed reports
-/

set_option autoImplicit false

namespace MiniOpt.Props

open MiniOpt MiniOpt.Cpp MiniOpt.Fmt MiniOpt.Spec

variable {α : Type}

/-- No braces. -/
def clean (s : List Char) : Bool := s.all fun c => c != '{' && c != '}'

theorem substFrom_lit (fd : FmtDouble α) (rest : List Char) (args : List (Arg α)) :
    ∀ (lit : List Char), clean lit = true → substFrom fd none (lit ++ rest) args = lit ++ substFrom fd none rest args
  | [], _ => rfl
  | c :: cs, h => by
    simp only [clean, List.all_cons, Bool.and_eq_true, bne_iff_ne, ne_eq] at h
    rw [List.cons_append, substFrom, if_neg h.1.1, substFrom_lit fd rest args cs h.2]
    rfl

theorem substFrom_spec (fd : FmtDouble α) (rest : List Char) (a : Arg α) (args : List (Arg α)) :
    ∀ (sp acc : List Char), clean sp = true →
      substFrom fd (some acc) (sp ++ '}' :: rest) (a :: args) = render fd (acc ++ sp) a ++ substFrom fd none rest args
  | [], acc, _ => by simp [substFrom]
  | c :: cs, acc, h => by
    simp only [clean, List.all_cons, Bool.and_eq_true, bne_iff_ne, ne_eq] at h
    rw [List.cons_append, substFrom, if_neg h.1.2, substFrom_spec fd rest a args cs (acc ++ [c]) h.2]
    simp

/-- The text of a format specification. -/
def kindText : Fmt.Spec → List Char
  | .plain => []
  | .e16 => ":.16e".toList
  | .f16 => ":.16f".toList
  | .f10 => ":.10f".toList

theorem specOf_kind (k : Fmt.Spec) : specOf (kindText k) = k := by
  unfold specOf
  cases k
  · rw [if_neg (by decide +kernel), if_neg (by decide +kernel), if_neg (by decide +kernel)]
  · rw [if_pos (by decide +kernel)]
  · rw [if_neg (by decide +kernel), if_pos (by decide +kernel)]
  · rw [if_neg (by decide +kernel), if_neg (by decide +kernel), if_pos (by decide +kernel)]

theorem clean_kind (k : Fmt.Spec) : clean (kindText k) = true := by cases k <;> decide +kernel

/-- One argument, given the kind of field. -/
def renderAs (fd : FmtDouble α) (k : Fmt.Spec) : Arg α → List Char
  | .num x => fd k x
  | .text t => t

theorem render_kind (fd : FmtDouble α) (k : Fmt.Spec) (a : Arg α) : render fd (kindText k) a = renderAs fd k a := by
  cases a
  · simp only [render, renderAs, specOf_kind]
  · rfl

/-- A pattern, from its pieces: literal text and a replacement field. -/
def assemble (tail : List Char) : List (List Char × Fmt.Spec) → List Char
  | [] => tail
  | (l, k) :: r => l ++ '{' :: (kindText k ++ '}' :: assemble tail r)

/-- The text of a pattern, from its pieces. -/
def weave (fd : FmtDouble α) (tail : List Char) : List (List Char × Fmt.Spec) → List (Arg α) → List Char
  | (l, k) :: r, a :: as => l ++ (renderAs fd k a ++ weave fd tail r as)
  | [], _ => tail
  | _ :: _, [] => tail

theorem weave_nil (fd : FmtDouble α) (tail : List Char) (as : List (Arg α)) : weave fd tail [] as = tail := rfl

theorem weave_cons (fd : FmtDouble α) (tail : List Char) (l : List Char) (k : Fmt.Spec)
    (r : List (List Char × Fmt.Spec)) (a : Arg α) (as : List (Arg α)) :
    weave fd tail ((l, k) :: r) (a :: as) = l ++ (renderAs fd k a ++ weave fd tail r as) := rfl

theorem substFrom_assemble (fd : FmtDouble α) (tail : List Char) (ht : clean tail = true) :
    ∀ (p : List (List Char × Fmt.Spec)) (args : List (Arg α)),
      (p.all fun q => clean q.1) = true → p.length = args.length →
      substFrom fd none (assemble tail p) args = weave fd tail p args
  | [], [], _, _ => by
    have := substFrom_lit fd [] ([] : List (Arg α)) tail ht
    simpa [substFrom, assemble, weave] using this
  | (l, s) :: r, a :: as, h, hl => by
    simp only [List.all_cons, Bool.and_eq_true] at h
    rw [assemble, substFrom_lit fd _ _ l h.1]
    simp only [substFrom, if_true]
    rw [substFrom_spec fd _ a as (kindText s) [] (clean_kind s), List.nil_append, render_kind,
      substFrom_assemble fd tail ht r as h.2 (by simpa using hl), weave]
  | [], _ :: _, _, hl => by simp at hl
  | _ :: _, [], _, hl => by simp at hl

theorem subst_eq (fd : FmtDouble α) (pattern : String) (p : List (List Char × Fmt.Spec)) (args : List (Arg α))
    (h : pattern.toList = assemble "\n".toList p) (hc : (p.all fun q => clean q.1) = true)
    (hl : p.length = args.length) :
    subst fd pattern args = weave fd "\n".toList p args := by
  rw [subst, h, substFrom_assemble fd _ (by decide +kernel) p args hc hl]

theorem colorOff_eq (b : Bool) : color .none b = colorOff b := by cases b <;> rfl

theorem green_eq (b : Bool) : color .green b = colorOn b "112" := by
  cases b
  · rfl
  · show esc :: "[38;5;".toList ++ Trace.fmtInt 112 ++ "m".toList = Char.ofNat 27 :: ("[38;5;" ++ "112" ++ "m").toList
    decide +kernel

theorem red_eq (b : Bool) : color .red b = colorOn b "160" := by
  cases b
  · rfl
  · show esc :: "[38;5;".toList ++ Trace.fmtInt 160 ++ "m".toList = Char.ofNat 27 :: ("[38;5;" ++ "160" ++ "m").toList
    decide +kernel

theorem orange_eq (b : Bool) : color .orange b = colorOn b "202" := by
  cases b
  · rfl
  · show esc :: "[38;5;".toList ++ Trace.fmtInt 202 ++ "m".toList = Char.ofNat 27 :: ("[38;5;" ++ "202" ++ "m").toList
    decide +kernel

variable [Scalar α]

/-- C79: the report of an interior point iteration is the library's three format strings, filled in with the recorded
numbers; the middle one appears exactly if the recorded `mu_affine` is not a NaN. -/
theorem C79_qp_iteration_text (fd : FmtDouble α) (i : QPIter α) : qpIterString fd i = qpIterReport fd i := by
  unfold qpIterReport qpIterString
  rw [subst_eq fd _ [("Iteration summary: ||kkt|| max: ".toList, .plain), (" --> ".toList, .plain), (", mu = ".toList, .plain), (", a_p = ".toList, .plain),
      (", a_d = ".toList, .plain)] _ (by decide +kernel) (by decide +kernel) rfl,
    subst_eq fd _ [(" Probe alphas: a_p = ".toList, .plain), (", a_d = ".toList, .plain), (", mu_affine = ".toList, .plain)] _
      (by decide +kernel) (by decide +kernel) rfl,
    subst_eq fd _ [(" KKT errors, L2:\n r_dual = ".toList, .plain), (" --> ".toList, .plain), ("\n r_comp = ".toList, .plain), (" --> ".toList, .plain),
      ("\n r_p_eq = ".toList, .plain), (" --> ".toList, .plain), ("\n r_p_ineq = ".toList, .plain), (" --> ".toList, .plain)] _
      (by decide +kernel) (by decide +kernel) rfl]
  generalize String.toList = T
  simp only [weave_nil, weave_cons, renderAs, List.append_assoc]

theorem stepReport_eq (fd : FmtDouble α) (penalty : α) (n : Nat) (s : LineSearchStep α) :
    stepReport fd penalty n s
      = "  f(".toList ++ (Trace.digits n ++ ("): ".toList ++ (fd .e16 s.errors.f ++ (", c(".toList ++ (Trace.digits n
        ++ ("): ".toList ++ (fd .e16 s.errors.equality ++ (", total: ".toList ++ (fd .e16 (s.errors.total penalty)
        ++ (", alpha = ".toList ++ (fd .f10 s.alpha ++ "\n".toList))))))))))) := by
  unfold stepReport
  rw [subst_eq fd _ [("  f(".toList, .plain), ("): ".toList, .e16), (", c(".toList, .plain), ("): ".toList, .e16),
    (", total: ".toList, .e16), (", alpha = ".toList, .f10)] _ (by decide +kernel) (by decide +kernel) rfl]
  simp only [weave_nil, weave_cons, renderAs, Errors.total]

theorem stepsString_eq (fd : FmtDouble α) (penalty : α) (ss : List (LineSearchStep α)) : ∀ n : Nat,
    stepsString fd penalty n ss = (ss.zipIdx n).flatMap fun s => stepReport fd penalty s.2 s.1 := by
  induction ss with
  | nil => exact fun _ => rfl
  | cons s ss ih =>
    intro n
    rw [List.zipIdx_cons, List.flatMap_cons, ← ih (n + 1), stepReport_eq]
    generalize hX : stepsString fd penalty (n + 1) ss = X
    unfold stepsString
    rw [hX]
    generalize String.toList = T
    simp only [List.append_assoc]

omit [Scalar α] in
theorem qpResString_eq (fd : FmtDouble α) (q : QPRes α) : qpResString q = qpReport fd q := by
  cases q with
  | interiorPoint ip =>
    unfold qpReport qpResString
    simp only
    rw [subst_eq fd _ [("  QP-IP: ".toList, .plain), (", ".toList, .plain)] _ (by decide +kernel) (by decide +kernel) rfl]
    simp only [weave_nil, weave_cons, renderAs, List.append_assoc]
  | nullSpace t =>
    unfold qpReport qpResString
    simp only
    rw [subst_eq fd _ [("  QP: ".toList, .plain)] _ (by decide +kernel) (by decide +kernel) rfl]
    simp only [weave_nil, weave_cons, renderAs, List.append_assoc]

/-- C79: the report of a nonlinear iteration is the library's format strings, filled in with the record. -/
theorem C79_iteration_text (fd : FmtDouble α) (useColor includeQP : Bool) (i : Iter α) :
    iterString fd useColor includeQP i = iterReport fd useColor includeQP i := by
  have hq : qpIterString fd = qpIterReport fd := funext (C79_qp_iteration_text fd)
  have hc : color (if i.stepResult = .success then .green else .red) useColor
      = colorOn useColor (if i.stepResult = .success then "112" else "160") := by
    split
    · exact green_eq _
    · exact red_eq _
  unfold iterReport iterString
  rw [hq, hc, colorOff_eq, qpResString_eq fd, stepsString_eq,
    subst_eq fd _ [("Iteration # ".toList, .plain), (", state = ".toList, .plain), (", lambda = ".toList, .plain)] _
      (by decide +kernel) (by decide +kernel) rfl,
    subst_eq fd _ [("  f(0): ".toList, .e16), (", c(0): ".toList, .e16), (", total: ".toList, .e16)] _
      (by decide +kernel) (by decide +kernel) rfl,
    subst_eq fd _ [("  penalty = ".toList, .f16)] _ (by decide +kernel) (by decide +kernel) rfl,
    subst_eq fd _ [("  df/dalpha = ".toList, .plain), (", dc/dalpha = ".toList, .plain)] _ (by decide +kernel) (by decide +kernel) rfl,
    subst_eq fd _ [("  Search result: ".toList, .plain), ([], .plain), ([], .plain)] _ (by decide +kernel) (by decide +kernel) rfl]
  cases i.qpEigenvalues with
  | none =>
    generalize String.toList = T
    simp only [weave_nil, weave_cons, renderAs, Errors.total, List.append_assoc, List.nil_append]
    cases i.qpOutputs <;> cases includeQP <;> simp only [if_true, Bool.false_eq_true, if_false, List.append_nil]
  | some q =>
    simp only
    rw [subst_eq fd _ [("  min, max, |min| eig = ".toList, .e16), (", ".toList, .e16), (", ".toList, .e16)] _
      (by decide +kernel) (by decide +kernel) rfl]
    generalize String.toList = T
    simp only [weave_nil, weave_cons, renderAs, Errors.total, List.append_assoc, List.nil_append]
    cases i.qpOutputs <;> cases includeQP <;> simp only [if_true, Bool.false_eq_true, if_false, List.append_nil]

/-- C79: the report of a solve is the reports of its iterations, in order, and a last line naming the exit. -/
theorem C79_report_text (fd : FmtDouble α) (useColor includeQP : Bool) (o : Outputs α) :
    outputsString fd useColor includeQP o = outputsReport fd useColor includeQP o := by
  have hi : iterString fd useColor includeQP = iterReport fd useColor includeQP :=
    funext (C79_iteration_text fd useColor includeQP)
  have hc : color (terminationColor o.termination) useColor = colorOn useColor (exitColor o.termination) := by
    cases o.termination <;> simp only [terminationColor, exitColor, green_eq, orange_eq, red_eq]
  unfold outputsReport outputsString
  rw [hi, hc, colorOff_eq, subst_eq fd _ [("  termination = ".toList, .plain), ([], .plain), ([], .plain)] _
    (by decide +kernel) (by decide +kernel) rfl]
  simp only [weave_nil, weave_cons, renderAs, List.append_assoc, List.nil_append]

/-! ### The number of lines -/

omit [Scalar α] in
theorem count_weave (fd : FmtDouble α) (hfd : ∀ k x, '\n' ∉ fd k x) (tail : List Char) :
    ∀ (p : List (List Char × Fmt.Spec)) (args : List (Arg α)), p.length = args.length →
      (∀ t, Arg.text t ∈ args → '\n' ∉ t) →
      (weave fd tail p args).count '\n' = (p.map fun q => q.1.count '\n').sum + tail.count '\n'
  | [], [], _, _ => by simp [weave_nil]
  | (l, k) :: r, a :: as, hl, ha => by
    have h0 : (renderAs fd k a).count '\n' = 0 := by
      rw [List.count_eq_zero]
      cases a with
      | num x => exact hfd k x
      | text t => exact ha t (List.mem_cons_self ..)
    rw [weave_cons, List.count_append, List.count_append, h0,
      count_weave fd hfd tail r as (by simpa using hl) fun t ht => ha t (List.mem_cons_of_mem _ ht)]
    simp only [List.map_cons, List.sum_cons]
    omega
  | [], _ :: _, hl, _ => by simp at hl
  | _ :: _, [], hl, _ => by simp at hl

omit [Scalar α] in
theorem subst_lines (fd : FmtDouble α) (hfd : ∀ k x, '\n' ∉ fd k x) (pattern : String)
    (p : List (List Char × Fmt.Spec)) (args : List (Arg α)) (n : Nat)
    (h : pattern.toList = assemble "\n".toList p) (hc : (p.all fun q => clean q.1) = true)
    (hl : p.length = args.length) (ha : ∀ t, Arg.text t ∈ args → '\n' ∉ t)
    (hn : (p.map fun q => q.1.count '\n').sum + "\n".toList.count '\n' = n) :
    (subst fd pattern args).count '\n' = n := by
  rw [subst_eq fd pattern p args h hc hl, count_weave fd hfd _ p args hl ha, hn]

theorem digits_noNewline (n : Nat) : '\n' ∉ Trace.digits n := by
  have hd : ∀ k, k < 10 → Char.ofNat (48 + k) ≠ '\n' := by decide +kernel
  induction n using Nat.strong_induction_on with
  | _ n ih =>
    rw [Trace.digits]
    split_ifs with h
    · intro hm; exact hd n h (List.mem_singleton.mp hm).symm
    · intro hm
      rcases List.mem_append.mp hm with hm | hm
      · exact ih _ (by omega) hm
      · exact hd (n % 10) (by omega) (List.mem_singleton.mp hm).symm

theorem fmtInt_noNewline (z : Int) : '\n' ∉ Trace.fmtInt z := by
  cases z with
  | ofNat n => exact digits_noNewline n
  | negSucc n =>
    intro hm
    rcases List.mem_cons.mp hm with hm | hm
    · exact absurd hm (by decide +kernel)
    · exact digits_noNewline _ hm

theorem colorOff_noNewline (b : Bool) : '\n' ∉ colorOff b := by cases b <;> decide +kernel

theorem name_noNewline :
    (∀ e, '\n' ∉ (nameState e).toList) ∧ (∀ e, '\n' ∉ (nameStep e).toList) ∧
    (∀ e, '\n' ∉ (nameNLS e).toList) ∧ (∀ e, '\n' ∉ (nameQP e).toList) ∧
    (∀ e, '\n' ∉ (nameNullSpace e).toList) := by
  refine ⟨?_, ?_, ?_, ?_, ?_⟩ <;> intro e <;> cases e <;> decide +kernel

theorem colors_noNewline (b : Bool) :
    '\n' ∉ colorOn b "112" ∧ '\n' ∉ colorOn b "160" ∧ '\n' ∉ colorOn b "202" := by
  cases b <;> decide +kernel

theorem exitColor_noNewline (b : Bool) (t : NLSTermination) : '\n' ∉ colorOn b (exitColor t) := by
  cases b <;> cases t <;> decide +kernel

section
variable {fd : FmtDouble α} (hfd : ∀ k x, '\n' ∉ fd k x)
include hfd

theorem qpIter_lines (i : QPIter α) :
    (qpIterReport fd i).count '\n' = 6 + if Scalar.feq i.ip.muAffine i.ip.muAffine then 1 else 0 := by
  unfold qpIterReport
  rw [List.count_append, List.count_append,
    subst_lines fd hfd _ [("Iteration summary: ||kkt|| max: ".toList, .plain), (" --> ".toList, .plain),
      (", mu = ".toList, .plain), (", a_p = ".toList, .plain), (", a_d = ".toList, .plain)] _ 1
      (by decide +kernel) (by decide +kernel) rfl (by simp) (by decide +kernel),
    subst_lines fd hfd _ [(" KKT errors, L2:\n r_dual = ".toList, .plain), (" --> ".toList, .plain),
      ("\n r_comp = ".toList, .plain), (" --> ".toList, .plain), ("\n r_p_eq = ".toList, .plain),
      (" --> ".toList, .plain), ("\n r_p_ineq = ".toList, .plain), (" --> ".toList, .plain)] _ 5
      (by decide +kernel) (by decide +kernel) rfl (by simp) (by decide +kernel)]
  split_ifs
  · rw [subst_lines fd hfd _ [(" Probe alphas: a_p = ".toList, .plain), (", a_d = ".toList, .plain),
      (", mu_affine = ".toList, .plain)] _ 1 (by decide +kernel) (by decide +kernel) rfl (by simp) (by decide +kernel)]
  · rfl

theorem step_lines (penalty : α) (n : Nat) (s : LineSearchStep α) : (stepReport fd penalty n s).count '\n' = 1 := by
  unfold stepReport
  refine subst_lines fd hfd _ [("  f(".toList, .plain), ("): ".toList, .e16), (", c(".toList, .plain),
    ("): ".toList, .e16), (", total: ".toList, .e16), (", alpha = ".toList, .f10)] _ 1
    (by decide +kernel) (by decide +kernel) rfl ?_ (by decide +kernel)
  intro t ht
  simp at ht
  rw [ht]
  exact digits_noNewline n

omit [Scalar α] in
theorem qp_lines (q : QPRes α) : (qpReport fd q).count '\n' = 1 := by
  cases q with
  | interiorPoint ip =>
    refine subst_lines fd hfd _ [("  QP-IP: ".toList, .plain), (", ".toList, .plain)] _ 1
      (by decide +kernel) (by decide +kernel) rfl ?_ (by decide +kernel)
    intro t ht
    simp at ht
    rcases ht with rfl | rfl
    · exact name_noNewline.2.2.2.1 _
    · exact digits_noNewline _
  | nullSpace t =>
    refine subst_lines fd hfd _ [("  QP: ".toList, .plain)] _ 1
      (by decide +kernel) (by decide +kernel) rfl ?_ (by decide +kernel)
    intro t ht
    simp at ht
    rw [ht]
    exact name_noNewline.2.2.2.2 _

/-- C79: the report of a nonlinear iteration has six lines, one more if the eigenvalues were recorded, one for every
line search step and, if asked for, six or seven for every interior point iteration. -/
theorem C79_iteration_lines (useColor includeQP : Bool) (i : Iter α) :
    (iterString fd useColor includeQP i).count '\n' = iterLines includeQP i := by
  rw [C79_iteration_text]
  unfold iterReport iterLines
  simp only [List.count_append]
  rw [subst_lines fd hfd _ [("Iteration # ".toList, .plain), (", state = ".toList, .plain),
      (", lambda = ".toList, .plain)] _ 1 (by decide +kernel) (by decide +kernel) rfl
      (by
        intro t ht
        simp at ht
        rcases ht with rfl | rfl
        · exact fmtInt_noNewline _
        · exact name_noNewline.1 _) (by decide +kernel),
    subst_lines fd hfd _ [("  f(0): ".toList, .e16), (", c(0): ".toList, .e16), (", total: ".toList, .e16)] _ 1
      (by decide +kernel) (by decide +kernel) rfl (by simp) (by decide +kernel),
    subst_lines fd hfd _ [("  penalty = ".toList, .f16)] _ 1 (by decide +kernel) (by decide +kernel) rfl (by simp)
      (by decide +kernel),
    subst_lines fd hfd _ [("  df/dalpha = ".toList, .plain), (", dc/dalpha = ".toList, .plain)] _ 1
      (by decide +kernel) (by decide +kernel) rfl (by simp) (by decide +kernel),
    subst_lines fd hfd _ [("  Search result: ".toList, .plain), ([], .plain), ([], .plain)] _ 1
      (by decide +kernel) (by decide +kernel) rfl
      (by
        intro t ht
        simp only [List.mem_cons, Arg.text.injEq, List.not_mem_nil, or_false] at ht
        rcases ht with rfl | rfl | rfl
        · split_ifs
          · exact (colors_noNewline _).1
          · exact (colors_noNewline _).2.1
        · exact name_noNewline.2.1 _
        · exact colorOff_noNewline _) (by decide +kernel),
    qp_lines hfd]
  have hs : ∀ (ss : List (LineSearchStep α)) (n : Nat),
      ((ss.zipIdx n).flatMap fun s => stepReport fd i.penalty s.2 s.1).count '\n' = ss.length := by
    intro ss
    induction ss with
    | nil => intro n; rfl
    | cons s ss ih =>
      intro n
      rw [List.zipIdx_cons, List.flatMap_cons, List.count_append, ih (n + 1), step_lines hfd, List.length_cons]
      omega
  have hq : ∀ l : List (QPIter α), (l.flatMap (qpIterReport fd)).count '\n'
      = (l.map fun q => 6 + if Scalar.feq q.ip.muAffine q.ip.muAffine then 1 else 0).sum := by
    intro l
    induction l with
    | nil => rfl
    | cons q l ih => rw [List.flatMap_cons, List.count_append, ih, qpIter_lines hfd, List.map_cons, List.sum_cons]
  rw [hs]
  cases i.qpEigenvalues with
  | none =>
    cases i.qpOutputs <;> cases includeQP <;> simp [hq] <;> omega
  | some e =>
    simp only
    rw [subst_lines fd hfd _ [("  min, max, |min| eig = ".toList, .e16), (", ".toList, .e16), (", ".toList, .e16)] _ 1
      (by decide +kernel) (by decide +kernel) rfl (by simp) (by decide +kernel)]
    cases i.qpOutputs <;> cases includeQP <;> simp [hq] <;> omega

/-- C79: the report of a solve has the lines of its iterations and one more. -/
theorem C79_report_lines (useColor includeQP : Bool) (o : Outputs α) :
    (outputsString fd useColor includeQP o).count '\n' = (o.iterations.map (iterLines includeQP)).sum + 1 := by
  rw [C79_report_text]
  unfold outputsReport
  rw [List.count_append, subst_lines fd hfd _ [("  termination = ".toList, .plain), ([], .plain), ([], .plain)] _ 1
    (by decide +kernel) (by decide +kernel) rfl
    (by
      intro t ht
      simp only [List.mem_cons, Arg.text.injEq, List.not_mem_nil, or_false] at ht
      rcases ht with rfl | rfl | rfl
      · exact exitColor_noNewline _ _
      · exact name_noNewline.2.2.1 _
      · exact colorOff_noNewline _) (by decide +kernel)]
  congr 1
  induction o.iterations with
  | nil => rfl
  | cons i l ih =>
    rw [List.flatMap_cons, List.count_append, ih, List.map_cons, List.sum_cons, ← C79_iteration_text,
      C79_iteration_lines hfd]

end

/-- Not vacuous: a renderer without line breaks, and the text of a pattern. -/
theorem C79_example :
    (∀ (k : Fmt.Spec) (x : Int), '\n' ∉ (fun _ z => Trace.fmtInt z : FmtDouble Int) k x) ∧
    subst (fun _ z => Trace.fmtInt z : FmtDouble Int) "  QP-IP: {}, {:.16e}!\n" [.text "MAX".toList, .num (-12)]
      = "  QP-IP: MAX, -12!\n".toList :=
  ⟨fun _ x => fmtInt_noNewline x, by decide +kernel⟩

end MiniOpt.Props
