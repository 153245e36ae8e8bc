import Verif.Model.Format
import Verif.Spec.FormatSpec
import Mathlib.Tactic.Common

/-!
# C55, C56: names and colours
-/

set_option autoImplicit false

namespace MiniOpt.Props

open MiniOpt.Cpp MiniOpt.Fmt MiniOpt.Spec

variable {α : Type} [Scalar α]

/-- **C55** (names). Within each enum, the printed name determines the value. -/
theorem C55_names_injective :
    Function.Injective nameGuess ∧ Function.Injective nameQP ∧ Function.Injective nameNullSpace ∧
    Function.Injective nameStrategy ∧ Function.Injective nameState ∧ Function.Injective nameStep ∧
    Function.Injective nameNLS := by
  refine ⟨?_, ?_, ?_, ?_, ?_, ?_, ?_⟩ <;> intro a b <;> cases a <;> cases b <;>
    simp [nameGuess, nameQP, nameNullSpace, nameStrategy, nameState, nameStep, nameNLS]

/-- **C55** (satisfied states). `TerminationStateIndicatesSatisfiedTol` is true exactly for the states whose printed
name starts with `SATISFIED_`, and these are the ones printed in green. -/
theorem C55_satisfied (t : NLSTermination) :
    (t.indicatesSatisfiedTol = true ↔ "SATISFIED_".toList <+: (nameNLS t).toList) ∧
    (t.indicatesSatisfiedTol = true ↔ terminationColor t = .green) := by
  constructor
  · cases t <;> decide +kernel
  · cases t <;> simp [NLSTermination.indicatesSatisfiedTol, terminationColor]

/-! ### Colour -/

/-- `a`, met outside an escape sequence, is displayed as `b`. -/
def Strips (a b : List Char) : Prop := ∀ t, stripFrom false (a ++ t) = b ++ stripFrom false t

theorem Strips.append {a b c d : List Char} (h : Strips a b) (h' : Strips c d) : Strips (a ++ c) (b ++ d) := by
  intro t
  rw [List.append_assoc, h, h', List.append_assoc]

theorem Strips.nil : Strips [] [] := fun _ => rfl

/-- Text without escape characters is displayed as it is. -/
theorem Strips.plain {a : List Char} (h : escapeChar ∉ a) : Strips a a := by
  intro t
  induction a with
  | nil => rfl
  | cons c cs ih =>
    have h1 : c ≠ escapeChar := fun hc => h (hc ▸ List.mem_cons_self)
    rw [List.cons_append, stripFrom, if_neg h1, ih fun hm => h (List.mem_cons_of_mem _ hm)]
    rfl

theorem Strips.strip {a b : List Char} (h : Strips a b) : Spec.strip a = b := by
  have := h []
  rw [List.append_nil] at this
  exact this.trans (by simp [stripFrom])

theorem Strips.flatMap {β : Type} {f g : β → List Char} (h : ∀ x, Strips (f x) (g x)) (l : List β) :
    Strips (l.flatMap f) (l.flatMap g) := by
  induction l with
  | nil => exact Strips.nil
  | cons x l ih => rw [List.flatMap_cons, List.flatMap_cons]; exact (h x).append ih

theorem strips_color (c : Color) : Strips (color c true) (color c false) := by
  intro t
  have h1 : color .green true = esc :: "[38;5;112m".toList := by decide +kernel
  have h2 : color .red true = esc :: "[38;5;160m".toList := by decide +kernel
  have h3 : color .orange true = esc :: "[38;5;202m".toList := by decide +kernel
  cases c
  · rw [h1]; rfl
  · rw [h2]; rfl
  · rw [h3]; rfl
  · rfl

theorem digits_noEsc (n : Nat) : escapeChar ∉ Trace.digits n := by
  have hd : ∀ k, k < 10 → Char.ofNat (48 + k) ≠ escapeChar := by decide +kernel
  induction n using Nat.strong_induction_on with
  | _ n ih =>
    rw [Trace.digits]
    split_ifs with h
    · intro hm; exact hd n h (List.mem_singleton.mp hm).symm
    · intro hm
      rcases List.mem_append.mp hm with hm | hm
      · exact ih _ (by omega) hm
      · exact hd (n % 10) (by omega) (List.mem_singleton.mp hm).symm

theorem fmtInt_noEsc (z : Int) : escapeChar ∉ Trace.fmtInt z := by
  cases z with
  | ofNat n => exact digits_noEsc n
  | negSucc n =>
    intro hm
    rcases List.mem_cons.mp hm with hm | hm
    · exact absurd hm (by decide +kernel)
    · exact digits_noEsc _ hm

theorem name_noEsc :
    (∀ e, escapeChar ∉ (nameState e).toList) ∧ (∀ e, escapeChar ∉ (nameStep e).toList) ∧
    (∀ e, escapeChar ∉ (nameNLS e).toList) ∧ (∀ e, escapeChar ∉ (nameQP e).toList) ∧
    (∀ e, escapeChar ∉ (nameNullSpace e).toList) := by
  refine ⟨?_, ?_, ?_, ?_, ?_⟩ <;> intro e <;> cases e <;> decide +kernel

section
variable {fd : FmtDouble α} (hfd : ∀ s x, escapeChar ∉ fd s x)
include hfd

theorem strips_steps (p : α) : ∀ (l : List (LineSearchStep α)) (i : Nat),
    Strips (stepsString fd p i l) (stepsString fd p i l) := by
  intro l
  induction l with
  | nil => intro i; exact Strips.nil
  | cons s l ih =>
    intro i
    unfold stepsString
    repeat' apply Strips.append
    all_goals first
      | with_reducible exact ih _
      | with_reducible exact Strips.plain (hfd _ _)
      | with_reducible exact Strips.plain (digits_noEsc _)
      | exact Strips.plain (by decide +kernel)

theorem strips_qpIter (i : QPIter α) : Strips (qpIterString fd i) (qpIterString fd i) := by
  unfold qpIterString
  split_ifs
  all_goals
    repeat' apply Strips.append
    all_goals first
      | with_reducible exact Strips.plain (hfd _ _)
      | with_reducible exact Strips.nil
      | exact Strips.plain (by decide +kernel)

theorem strips_iter (q : Bool) (i : Iter α) : Strips (iterString fd true q i) (iterString fd false q i) := by
  obtain ⟨n1, n2, n3, n4, n5⟩ := name_noEsc
  have hres : Strips (qpResString i.qpOutputs) (qpResString i.qpOutputs) := by
    cases i.qpOutputs <;> unfold qpResString
    all_goals
      repeat' apply Strips.append
      all_goals first
        | with_reducible exact Strips.plain (n4 _)
        | with_reducible exact Strips.plain (n5 _)
        | with_reducible exact Strips.plain (digits_noEsc _)
        | exact Strips.plain (by decide +kernel)
  unfold iterString
  refine Strips.append (Strips.append ?_ (strips_steps hfd _ _ _)) ?_
  · refine Strips.append (Strips.append (Strips.append (Strips.append ?_ (strips_color _)) (Strips.plain (n2 _)))
      (strips_color _)) (Strips.plain (by decide +kernel))
    cases i.qpEigenvalues
    all_goals
      repeat' apply Strips.append
      all_goals first
        | with_reducible exact hres
        | with_reducible exact Strips.plain (hfd _ _)
        | with_reducible exact Strips.plain (fmtInt_noEsc _)
        | with_reducible exact Strips.plain (n1 _)
        | with_reducible exact Strips.nil
        | exact Strips.plain (by decide +kernel)
  · cases i.qpOutputs with
    | nullSpace t => exact Strips.nil
    | interiorPoint o =>
      cases q
      · exact Strips.nil
      · exact Strips.flatMap (strips_qpIter hfd) _

/-- **C56** (iteration). Removing the escape sequences from the coloured text of an iteration gives exactly the plain
text (provided the formatted numbers contain no escape character). -/
theorem C56_iteration (q : Bool) (i : Iter α) : strip (iterString fd true q i) = iterString fd false q i :=
  (strips_iter hfd q i).strip

/-- **C56** (outputs). -/
theorem C56_outputs (q : Bool) (o : Outputs α) : strip (outputsString fd true q o) = outputsString fd false q o := by
  apply Strips.strip
  unfold outputsString
  exact Strips.append (Strips.append (Strips.append (Strips.append (Strips.append
    (Strips.flatMap (strips_iter hfd q) _) (Strips.plain (by decide +kernel))) (strips_color _))
    (Strips.plain (name_noEsc.2.2.1 _))) (strips_color _)) (Strips.plain (by decide +kernel))

end

/-- A concrete case: the coloured text of an empty log really differs from the plain one, and stripping it works. -/
example : outputsString (fun _ (_ : ℝ) => ['0']) true false ⟨.maxLambda, []⟩ ≠
      outputsString (fun _ (_ : ℝ) => ['0']) false false ⟨.maxLambda, []⟩ ∧
    strip (outputsString (fun _ (_ : ℝ) => ['0']) true false ⟨.maxLambda, []⟩) =
      "  termination = MAX_LAMBDA\n".toList := by
  constructor
  · decide +kernel
  · decide +kernel

end MiniOpt.Props
