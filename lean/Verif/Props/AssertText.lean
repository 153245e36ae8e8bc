import Verif.Spec.AssertText
import Verif.Props.Report
import Verif.Props.TraceJson
import Verif.Model.F64

/-!
# C99: assertions

What the assertion macros do, and what their messages say.
-/

set_option autoImplicit false

namespace MiniOpt.Props

open MiniOpt MiniOpt.Spec MiniOpt.Assert

/-! ## `fmt` -/

theorem format_plain_append (t : List Char) (ht : Plain t) (cs : List Char) (args : List (List Char)) :
    format (t ++ cs) args = (format cs args).map (t ++ ·) := by
  induction t with
  | nil => simp
  | cons c t ih =>
    have h1 : c ≠ '{' := fun e => ht.1 (e ▸ List.mem_cons_self)
    have h2 : c ≠ '}' := fun e => ht.2 (e ▸ List.mem_cons_self)
    have ih' := ih ⟨fun h => ht.1 (List.mem_cons_of_mem _ h), fun h => ht.2 (List.mem_cons_of_mem _ h)⟩
    rw [List.cons_append, format.eq_def]
    split <;> simp_all [Option.map_map, Function.comp_def]

theorem format_plain (t : List Char) (ht : Plain t) (args : List (List Char)) : format t args = some t := by
  have h := format_plain_append t ht [] args
  simpa [format] using h

theorem format_field (cs a : List Char) (args : List (List Char)) :
    format ('{' :: '}' :: cs) (a :: args) = (format cs args).map (a ++ ·) := by
  rw [format]

instance (t : List Char) : Decidable (Plain t) := by unfold Plain; infer_instance

theorem head_format (c f : List Char) (line : Int) :
    format messagePrefix [c, f, Trace.fmtInt line] = some (headText c f line) := by
  have e : messagePrefix = "Assertion failed: ".toList ++ '{' :: '}' :: ("\nFile: ".toList ++ '{' :: '}' ::
    ("\nLine: ".toList ++ '{' :: '}' :: [])) := by decide +kernel
  rw [e, format_plain_append _ (by decide +kernel), format_field, format_plain_append _ (by decide +kernel), format_field,
    format_plain_append _ (by decide +kernel), format_field]
  unfold headText
  generalize String.toList = T
  simp [format, List.append_assoc]

theorem operand_format (aStr a bStr b : List Char) :
    format "\nOperands are: `{}` = {}, `{}` = {}".toList [aStr, a, bStr, b] = some (operandText aStr a bStr b) := by
  have e : "\nOperands are: `{}` = {}, `{}` = {}".toList = "\nOperands are: `".toList ++ '{' :: '}' :: ("` = ".toList ++
    '{' :: '}' :: (", `".toList ++ '{' :: '}' :: ("` = ".toList ++ '{' :: '}' :: []))) := by decide +kernel
  rw [e, format_plain_append _ (by decide +kernel), format_field, format_plain_append _ (by decide +kernel), format_field,
    format_plain_append _ (by decide +kernel), format_field, format_plain_append _ (by decide +kernel), format_field]
  unfold operandText
  generalize String.toList = T
  simp [format, List.append_assoc]

/-- **C99** (messages). The message of an assertion has the condition, the file and the line; that of a comparison also has
both operands, in text and in value; and a reason that was given follows. If the reason cannot be formatted (too few
arguments, a single brace) the exception is `fmt`'s and the message is lost. -/
theorem C99_message (c f : List Char) (line : Int) (aStr a bStr b reason : List Char) (args : List (List Char)) :
    formatAssert c f line [] args = some (headText c f line) ∧
    formatAssertBinary c f line aStr a bStr b [] args = some (headText c f line ++ operandText aStr a bStr b) ∧
    (∀ r, reason ≠ [] → format reason args = some r →
      formatAssert c f line reason args = some (headText c f line ++ reasonText (some r)) ∧
      formatAssertBinary c f line aStr a bStr b reason args
        = some (headText c f line ++ operandText aStr a bStr b ++ reasonText (some r))) ∧
    (reason ≠ [] → format reason args = none →
      formatAssert c f line reason args = none ∧ formatAssertBinary c f line aStr a bStr b reason args = none) := by
  have h : ∀ x : List Char → Option (List Char), (format messagePrefix [c, f, Trace.fmtInt line]).bind x = x (headText c f line) := fun x => by
    rw [head_format]; rfl
  have h2 : ∀ x : List Char → Option (List Char), (format "\nOperands are: `{}` = {}, `{}` = {}".toList [aStr, a, bStr, b]).bind x
      = x (operandText aStr a bStr b) := fun x => by rw [operand_format]; rfl
  unfold formatAssert formatAssertBinary
  refine ⟨?_, ?_, ?_, ?_⟩
  · rw [h]; rfl
  · rw [h, h2]; rfl
  · intro r hr hf
    rw [h, h, h2]
    unfold appendReason reasonText
    rw [if_neg hr, if_neg hr, hf]
    simp only [Option.map_some]
    generalize String.toList = T
    simp
  · intro hr hf
    rw [h, h, h2]
    unfold appendReason
    rw [if_neg hr, if_neg hr, hf]
    exact ⟨rfl, rfl⟩

/-- **C99** (reasons). A reason without braces is appended as it is, and the library's reasons are of this kind, except three
that print values and have as many fields as arguments. -/
theorem C99_reasons :
    (∀ (t : List Char) (args : List (List Char)), Plain t → format t args = some t) ∧
    (∀ s ∈ libraryReasons, Plain s.toList ∧ s.toList ≠ []) ∧
    (∀ x : List Char, format "Some slack variables s <= 0: [{}]".toList [x]
      = some ("Some slack variables s <= 0: [".toList ++ x ++ "]".toList)) ∧
    (∀ x y : List Char, format "P = [{}, {}]".toList [x, y]
      = some ("P = [".toList ++ x ++ ", ".toList ++ y ++ "]".toList)) ∧
    (∀ x y : List Char, format "{}, {}".toList [x, y] = some (x ++ ", ".toList ++ y)) := by
  refine ⟨fun t args h => format_plain t h args, by decide +kernel, fun x => ?_, fun x y => ?_, fun x y => ?_⟩
  · have e : "Some slack variables s <= 0: [{}]".toList = "Some slack variables s <= 0: [".toList ++ '{' :: '}' ::
      "]".toList := by decide +kernel
    rw [e, format_plain_append _ (by decide +kernel), format_field, format_plain _ (by decide +kernel)]
    generalize String.toList = T
    simp
  · have e : "P = [{}, {}]".toList = "P = [".toList ++ '{' :: '}' :: (", ".toList ++ '{' :: '}' :: "]".toList) := by
      decide +kernel
    rw [e, format_plain_append _ (by decide +kernel), format_field, format_plain_append _ (by decide +kernel), format_field,
      format_plain _ (by decide +kernel)]
    generalize String.toList = T
    simp
  · have e : "{}, {}".toList = '{' :: '}' :: (", ".toList ++ '{' :: '}' :: []) := by decide +kernel
    rw [e, format_field, format_plain_append _ (by decide +kernel), format_field]
    generalize String.toList = T
    simp [format]

/-- **C99** (braces). A reason with its braces doubled is appended with single ones, whatever arguments are there. -/
theorem C99_braces (t : List Char) (args : List (List Char)) : format (bracesDoubled t) args = some t := by
  induction t with
  | nil => rfl
  | cons c t ih =>
    unfold bracesDoubled at ih ⊢
    rw [List.flatMap_cons]
    by_cases h1 : c = '{'
    · subst h1
      rw [if_pos (Or.inl rfl)]
      show format ('{' :: '{' :: (t.flatMap fun c => if c = '{' ∨ c = '}' then [c, c] else [c])) args = _
      rw [format, ih]; rfl
    · by_cases h2 : c = '}'
      · subst h2
        rw [if_pos (Or.inr rfl)]
        show format ('}' :: '}' :: (t.flatMap fun c => if c = '{' ∨ c = '}' then [c, c] else [c])) args = _
        rw [format, ih]; rfl
      · rw [if_neg (by simp [h1, h2])]
        have := format_plain_append [c] ⟨by simpa using Ne.symm h1, by simpa using Ne.symm h2⟩
          (t.flatMap fun c => if c = '{' ∨ c = '}' then [c, c] else [c]) args
        rw [this, ih]; rfl

example : format "{{x}} = {{}}".toList [] = some "{x} = {}".toList := by decide +kernel

/-! ## Reading a message back -/

theorem split_at_newline {a a' r r' : List Char} (ha : '\n' ∉ a) (ha' : '\n' ∉ a')
    (h : a ++ '\n' :: r = a' ++ '\n' :: r') : a = a' ∧ r = r' := by
  induction a generalizing a' with
  | nil =>
    cases a' with
    | nil => exact ⟨rfl, by simpa using h⟩
    | cons c a' =>
      rw [List.nil_append, List.cons_append, List.cons.injEq] at h
      exact absurd (h.1 ▸ List.mem_cons_self) ha'
  | cons c a ih =>
    cases a' with
    | nil =>
      rw [List.nil_append, List.cons_append, List.cons.injEq] at h
      exact absurd (h.1 ▸ List.mem_cons_self) ha
    | cons c' a' =>
      rw [List.cons_append, List.cons_append, List.cons.injEq] at h
      have := ih (fun m => ha (List.mem_cons_of_mem _ m)) (fun m => ha' (List.mem_cons_of_mem _ m)) h.2
      exact ⟨by rw [h.1, this.1], this.2⟩

theorem isDigit_unique {d d' : Nat} {c : Char} (h : IsDigit d c) (h' : IsDigit d' c) : d = d' := by
  have h1 := h.2
  have h2 := h'.2
  omega

theorem isNat_unique {n : Nat} {t : List Char} (h : IsNat n t) : ∀ {n' : Nat}, IsNat n' t → n = n' := by
  induction h with
  | one hd =>
    rename_i d c
    intro n' h'
    generalize ht : [c] = t at h'
    cases h' with
    | one hd' => cases ht; exact isDigit_unique hd hd'
    | more hp hn _ =>
      exfalso
      have e := congrArg List.length ht
      cases hn <;> simp at e
  | more hp hn hd ih =>
    rename_i n d t c
    intro n' h'
    generalize ht : t ++ [c] = u at h'
    cases h' with
    | one hd' =>
      exfalso
      have e := congrArg List.length ht
      cases hn <;> simp at e
    | more hp' hn' hd' =>
      obtain ⟨e1, e2⟩ := List.append_inj' ht rfl
      subst e1
      cases e2
      rw [ih hn', isDigit_unique hd hd']

theorem isNat_head {n : Nat} {t : List Char} (h : IsNat n t) : ∃ c r d, t = c :: r ∧ IsDigit d c := by
  induction h with
  | one hd => exact ⟨_, [], _, rfl, hd⟩
  | more hp hn hd ih =>
    obtain ⟨c, r, d, e, hc⟩ := ih
    exact ⟨c, r ++ _, d, by rw [e]; rfl, hc⟩

theorem isInt_unique {i i' : Int} {t : List Char} (h : IsInt i t) (h' : IsInt i' t) : i = i' := by
  cases h with
  | pos hn =>
    cases h' with
    | pos hn' => rw [isNat_unique hn hn']
    | neg hn' =>
      obtain ⟨c, r, d, e, hd⟩ := isNat_head hn
      cases e
      have := hd.2
      have h1 : ('-' : Char).toNat = 45 := by decide
      omega
  | neg hn =>
    generalize hu : '-' :: _ = u at h'
    cases h' with
    | pos hn' =>
      obtain ⟨c, r, d, e, hd⟩ := isNat_head hn'
      rw [e] at hu
      cases hu
      have := hd.2
      have h1 : ('-' : Char).toNat = 45 := by decide
      omega
    | neg hn' => cases hu; rw [isNat_unique hn hn']

theorem fmtInt_inj {i i' : Int} (h : Trace.fmtInt i = Trace.fmtInt i') : i = i' :=
  isInt_unique (fmtInt_isInt i) (h ▸ fmtInt_isInt i')

/-- The end of a line, or of the message. -/
def LineEnd (r : List Char) : Prop := r = [] ∨ ∃ q, r = '\n' :: q

theorem split_at_lineEnd {a a' r r' : List Char} (ha : '\n' ∉ a) (ha' : '\n' ∉ a') (hr : LineEnd r) (hr' : LineEnd r')
    (h : a ++ r = a' ++ r') : a = a' ∧ r = r' := by
  have close : ∀ {x q : List Char}, LineEnd q → ∃ s, x ++ q ++ ['\n'] = x ++ '\n' :: s := fun {x q} hq => by
    rcases hq with rfl | ⟨q', rfl⟩
    · exact ⟨[], by simp⟩
    · exact ⟨q' ++ ['\n'], by simp⟩
  obtain ⟨s, es⟩ := close (x := a) hr
  obtain ⟨s', es'⟩ := close (x := a') hr'
  have e := congrArg (· ++ ['\n']) h
  have e1 := (split_at_newline ha ha' (es.symm.trans (e.trans es'))).1
  subst e1
  exact ⟨rfl, List.append_cancel_left h⟩

/-- **C99** (a message identifies the assertion). If two messages agree, whatever follows their first three lines, and
neither the conditions nor the file names contain a line break, then the conditions, the files, the lines and what follows
agree. -/
theorem C99_identifies (c c' f f' : List Char) (line line' : Int) (r r' : List Char) (hc : '\n' ∉ c) (hc' : '\n' ∉ c')
    (hf : '\n' ∉ f) (hf' : '\n' ∉ f') (hr : LineEnd r) (hr' : LineEnd r')
    (h : headText c f line ++ r = headText c' f' line' ++ r') : c = c' ∧ f = f' ∧ line = line' ∧ r = r' := by
  unfold headText at h
  have e1 : "\nFile: ".toList = '\n' :: "File: ".toList := by decide +kernel
  have e2 : "\nLine: ".toList = '\n' :: "Line: ".toList := by decide +kernel
  rw [e1, e2] at h
  generalize String.toList = T at h
  simp only [List.append_assoc, List.cons_append] at h
  obtain ⟨h1, h2⟩ := split_at_newline hc hc' (List.append_cancel_left h)
  obtain ⟨h3, h4⟩ := split_at_newline hf hf' (List.append_cancel_left h2)
  obtain ⟨h5, h6⟩ := split_at_lineEnd (fmtInt_noNewline _) (fmtInt_noNewline _) hr hr' (List.append_cancel_left h4)
  exact ⟨h1, h3, fmtInt_inj h5, h6⟩

/-- What follows the first three lines begins with a line break or is empty, so `C99_identifies` applies to every message. -/
theorem C99_follow (aStr a bStr b : List Char) (r : Option (List Char)) :
    LineEnd (reasonText r) ∧ LineEnd (operandText aStr a bStr b ++ reasonText r) := by
  have e1 : "\nReason: ".toList = '\n' :: "Reason: ".toList := by decide +kernel
  have e2 : "\nOperands are: `".toList = '\n' :: "Operands are: `".toList := by decide +kernel
  refine ⟨?_, .inr ⟨_, by unfold operandText; rw [e2]; simp only [List.cons_append]; rfl⟩⟩
  cases r with
  | none => exact .inl rfl
  | some r => exact .inr ⟨_, by unfold reasonText; rw [e1]; rfl⟩

/-! ## The macros -/

/-- An expression without side effects. -/
def pureExpr {W A : Type} (a : A) : Expr W A := fun w => (w, a)

/-- **C99** (`F_ASSERT`). Nothing happens exactly if the condition holds; it is evaluated once. Otherwise the exception
carries its text, the file and the line. -/
theorem C99_assert {W : Type} (s : Site) (text : List Char) (cond : Expr W Bool) (w : W) :
    (fAssert s text cond w).1 = (cond w).1 ∧
    ((fAssert s text cond w).2 = .ok () ↔ (cond w).2 = true) ∧
    ((cond w).2 = false → s.reasonFmt = [] →
      (fAssert s text cond w).2 = .error (.defaultError (headText text s.file s.line))) ∧
    ((cond w).2 = false → ∀ r, s.reasonFmt ≠ [] → format s.reasonFmt s.args = some r →
      (fAssert s text cond w).2 = .error (.defaultError (headText text s.file s.line ++ reasonText (some r)))) ∧
    ((cond w).2 = false → s.reasonFmt ≠ [] → format s.reasonFmt s.args = none →
      (fAssert s text cond w).2 = .error .formatError) := by
  have m := C99_message text s.file s.line [] [] [] [] s.reasonFmt s.args
  unfold fAssert
  refine ⟨?_, ?_, ?_, ?_, ?_⟩
  · dsimp only; split_ifs <;> rfl
  · dsimp only
    split_ifs with h
    · simp [h]
    · simp only [h]
      unfold raise
      cases formatAssert text s.file s.line s.reasonFmt s.args <;> simp
  · intro h hr
    have m0 := (C99_message text s.file s.line [] [] [] [] s.reasonFmt s.args).1
    dsimp only
    rw [if_neg (by simp [h]), hr, m0]
    rfl
  · intro h r hr hf
    dsimp only
    rw [if_neg (by simp [h]), (m.2.2.1 r hr hf).1]
    rfl
  · intro h hr hf
    dsimp only
    rw [if_neg (by simp [h]), (m.2.2.2 hr hf).1]
    rfl

/-- **C99** (comparisons). `F_ASSERT_EQ` and its siblings decide on one evaluation of both operands. If the comparison holds,
nothing else is evaluated. If not, *both operands are evaluated a second time*, and the message shows the values of the
second evaluation. -/
theorem C99_comparison {W A B : Type} (s : Site) (hs : s.reasonFmt = []) (op : Cmp) (rel : A → B → Bool)
    (aStr bStr : List Char) (a : Expr W A) (b : Expr W B) (showA : A → List Char) (showB : B → List Char)
    (first : Bool × Bool) (w : W) :
    let once := both first.1 a b w
    let twice := both first.2 a b once.1
    fAssertBinary s op rel aStr bStr a b showA showB first w =
      if rel once.2.1 once.2.2 then (once.1, .ok ())
      else (twice.1, .error (.defaultError
        (headText ("(".toList ++ aStr ++ ") ".toList ++ op.symbol ++ " (".toList ++ bStr ++ ")".toList) s.file s.line
          ++ operandText aStr (showA twice.2.1) bStr (showB twice.2.2)))) := by
  intro once twice
  unfold fAssertBinary
  dsimp only
  split_ifs with h
  · rfl
  · rw [hs, (C99_message _ s.file s.line aStr _ bStr _ [] s.args).2.1]
    rfl

/-- **C99** (comparisons without side effects). If evaluating the operands changes nothing, the state is left alone, the
assertion throws exactly if the comparison is false, and then the operands in the message are values for which it is
false. -/
theorem C99_pure {W A B : Type} (s : Site) (hs : s.reasonFmt = []) (op : Cmp) (rel : A → B → Bool) (aStr bStr : List Char)
    (a : A) (b : B) (showA : A → List Char) (showB : B → List Char) (first : Bool × Bool) (w : W) :
    fAssertBinary s op rel aStr bStr (pureExpr a) (pureExpr b) showA showB first w =
      (w, if rel a b then .ok () else .error (.defaultError
        (headText ("(".toList ++ aStr ++ ") ".toList ++ op.symbol ++ " (".toList ++ bStr ++ ")".toList) s.file s.line
          ++ operandText aStr (showA a) bStr (showB b)))) := by
  have hb : ∀ f : Bool, both f (pureExpr a) (pureExpr b) w = (w, a, b) := fun f => by cases f <;> rfl
  have h := C99_comparison s hs op rel aStr bStr (pureExpr a) (pureExpr b) showA showB first w
  dsimp only at h
  rw [h, hb]
  dsimp only
  rw [hb]
  split_ifs <;> rfl

/-- **C99** (side effects show). `F_ASSERT_LT(n++, 2)` with `n = 2` throws, leaves `n = 4`, and says that the operand was `3`;
`F_ASSERT_EQ(n++ % 2, 0)` with `n = 1` throws with a message whose operands are equal. -/
theorem C99_evaluated_twice (f : List Char) (line : Int) :
    fAssertBinary ⟨f, line, [], []⟩ .lt (fun a b : Int => decide (a < b)) "n++".toList "2".toList
        (fun n : Int => (n + 1, n)) (pureExpr (2 : Int)) Trace.fmtInt Trace.fmtInt (true, true) 2
      = (4, .error (.defaultError (headText "(n++) < (2)".toList f line
          ++ operandText "n++".toList "3".toList "2".toList "2".toList))) ∧
    fAssertBinary ⟨f, line, [], []⟩ .eq (fun a b : Int => decide (a = b)) "n++ % 2".toList "0".toList
        (fun n : Int => (n + 1, n % 2)) (pureExpr (0 : Int)) Trace.fmtInt Trace.fmtInt (true, true) 1
      = (3, .error (.defaultError (headText "(n++ % 2) == (0)".toList f line
          ++ operandText "n++ % 2".toList "0".toList "0".toList "0".toList))) := by
  constructor
  · have h := C99_comparison ⟨f, line, [], []⟩ rfl .lt (fun a b : Int => decide (a < b)) "n++".toList "2".toList
      (fun n : Int => (n + 1, n)) (pureExpr (2 : Int)) Trace.fmtInt Trace.fmtInt (true, true) 2
    dsimp only at h
    rw [h]
    have e : "(".toList ++ "n++".toList ++ ") ".toList ++ Cmp.lt.symbol ++ " (".toList ++ "2".toList ++ ")".toList
      = "(n++) < (2)".toList := by decide +kernel
    rw [e]
    have e3 : Trace.fmtInt 3 = "3".toList := by decide +kernel
    have e2 : Trace.fmtInt 2 = "2".toList := by decide +kernel
    simp [both, pureExpr, e3, e2]
  · have h := C99_comparison ⟨f, line, [], []⟩ rfl .eq (fun a b : Int => decide (a = b)) "n++ % 2".toList "0".toList
      (fun n : Int => (n + 1, n % 2)) (pureExpr (0 : Int)) Trace.fmtInt Trace.fmtInt (true, true) 1
    dsimp only at h
    rw [h]
    have e : "(".toList ++ "n++ % 2".toList ++ ") ".toList ++ Cmp.eq.symbol ++ " (".toList ++ "0".toList ++ ")".toList
      = "(n++ % 2) == (0)".toList := by decide +kernel
    rw [e]
    have e0 : Trace.fmtInt 0 = "0".toList := by decide +kernel
    simp [both, pureExpr, e0]

/-- **C99** (the model of assertions used elsewhere). An assertion on scalars throws exactly if `fassert` of the comparison
fails, which is how assertions appear in the model of the solvers. -/
theorem C99_fassert {α W : Type} [Scalar α] (s : Site) (hs : s.reasonFmt = []) (op : Cmp) [∀ x y : α, Decidable (op.holds x y)]
    (aStr bStr : List Char) (a b : α) (showA : α → List Char) (first : Bool × Bool) (w : W) (tag : String) :
    (∃ e, (fAssertBinary s op (fun x y => decide (op.holds x y)) aStr bStr (pureExpr a) (pureExpr b) showA showA first w).2
      = .error e) ↔ fassert (op.holds a b) tag = .error (.assertion tag) := by
  rw [C99_pure s hs]
  unfold fassert
  by_cases h : op.holds a b
  · simp [h]
  · simp [h]

/-- **C99** (NaN). With a NaN among the operands the comparison of `F_ASSERT_NE` holds and all the others do not: they
throw, and `F_ASSERT_NE` does not (so a NaN coefficient passes `F_ASSERT_NE(a, 0)` of `ClampX`). -/
theorem C99_nan (L : Libm) (op : Cmp) (a b : Dbl L) (h : a = (F64.nan : F64) ∨ b = (F64.nan : F64)) :
    op.holds a b ↔ op = .ne := by
  have hlt : ∀ x y : F64, x = .nan ∨ y = .nan → ¬ F64.lt x y = true := by
    rintro x y (rfl | rfl)
    · cases y <;> simp [F64.lt]
    · cases x <;> simp [F64.lt]
  have hle : ∀ x y : F64, x = .nan ∨ y = .nan → ¬ F64.le x y = true := by
    rintro x y (rfl | rfl)
    · cases y <;> simp [F64.le]
    · cases x <;> simp [F64.le]
  have heq : ¬ F64.eq a b = true := by
    rcases h with h | h
    · rw [h]; simp [F64.eq]
    · rw [h]
      generalize (a : F64) = x
      cases x <;> simp [F64.eq]
  cases op with
  | eq => exact ⟨fun k => absurd k heq, fun k => by cases k⟩
  | ne => exact ⟨fun _ => rfl, fun _ => heq⟩
  | lt => exact ⟨fun k => absurd k (hlt a b h), fun k => by cases k⟩
  | gt => exact ⟨fun k => absurd k (hlt b a h.symm), fun k => by cases k⟩
  | le => exact ⟨fun k => absurd k (hle a b h), fun k => by cases k⟩
  | ge => exact ⟨fun k => absurd k (hle b a h.symm), fun k => by cases k⟩

/-- **C99** (`what`). `what()` is the message up to the first NUL: the whole message if it has none. -/
theorem C99_what (m : List Char) : (Char.ofNat 0 ∉ m → what m = m) ∧ ∀ u v, Char.ofNat 0 ∉ u →
    what (u ++ Char.ofNat 0 :: v) = u := by
  have h : ∀ u v, Char.ofNat 0 ∉ u → what (u ++ v) = u ++ what v := by
    intro u v hu
    unfold what
    exact List.takeWhile_append_of_pos fun c hc => decide_eq_true fun e : c = Char.ofNat 0 => hu (e ▸ hc)
  refine ⟨fun hm => ?_, fun u v hu => ?_⟩
  · have := h m [] hm
    simpa [what] using this
  · rw [h u _ hu]
    simp [what]

/-- **C99** (`F_ASSERT_ALWAYS`). It throws, whatever the site. -/
theorem C99_always (s : Site) : ∃ e, fAssertAlways s = .error e ∧
    (s.reasonFmt = [] → e = .defaultError (headText "Assert always".toList s.file s.line)) := by
  unfold fAssertAlways raise
  cases h : formatAssert "Assert always".toList s.file s.line s.reasonFmt s.args with
  | none =>
    refine ⟨_, rfl, fun hr => ?_⟩
    rw [hr, (C99_message _ _ _ [] [] [] [] [] s.args).1] at h
    cases h
  | some m =>
    refine ⟨_, rfl, fun hr => ?_⟩
    rw [hr, (C99_message _ _ _ [] [] [] [] [] s.args).1] at h
    cases h
    rfl

/-- Not vacuous: the message of a rejected `initial_mu` of `-1`. -/
theorem C99_example :
    (fAssertBinary ⟨"source/qp.cc".toList, 77, [], []⟩ .gt (fun a b : Int => decide (b < a)) "params.initial_mu".toList
      "0".toList (pureExpr (-1)) (pureExpr 0) Trace.fmtInt Trace.fmtInt (true, false) ()).2
      = .error (.defaultError ("Assertion failed: (params.initial_mu) > (0)\nFile: source/qp.cc\nLine: 77\n" ++
          "Operands are: `params.initial_mu` = -1, `0` = 0").toList) := by
  rw [C99_pure _ rfl]
  decide +kernel

end MiniOpt.Props
