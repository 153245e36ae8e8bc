import Verif.Model.Tracing
import Verif.Spec.JsonText
import Mathlib.Tactic.Linarith
import Mathlib.Tactic.IntervalCases

/-!
# C62: the text returned by `get_trace_json`
-/

set_option autoImplicit false

namespace MiniOpt.Props

open MiniOpt.Trace MiniOpt.Spec

/-- A name that may appear between JSON quotes as it is. -/
def SafeName (n : List Char) : Prop := ∀ c ∈ n, c ≠ '"' ∧ c ≠ '\\' ∧ 32 ≤ c.toNat

instance (n : List Char) : Decidable (SafeName n) :=
  inferInstanceAs (Decidable (∀ c ∈ n, c ≠ '"' ∧ c ≠ '\\' ∧ 32 ≤ c.toNat))

instance (t : List Char) : Decidable (IsWs t) :=
  inferInstanceAs (Decidable (∀ c ∈ t, c = ' ' ∨ c = '\t' ∨ c = '\n' ∨ c = '\r'))

/-- The JSON object a trace event stands for: Chrome's "complete event", times in microseconds. -/
def eventObject (e : Event) : JText := .obj [
  ("name".toList, .str e.name), ("cat".toList, .str []), ("ph".toList, .str "X".toList), ("ts".toList, .int e.ts),
  ("pid".toList, .int e.pid), ("tid".toList, .int e.tid), ("dur".toList, .int (e.durNs.tdiv 1000))]

/-- The JSON object a list of trace events stands for. -/
def traceObject (events : List Event) : JText := .obj [
  ("traceEvents".toList, .arr (events.map eventObject)), ("displayTimeUnit".toList, .str "ns".toList)]

theorem isStr_safe {s : List Char} (h : SafeName s) : IsStr s s := by
  induction s with
  | nil => exact .nil
  | cons c s ih =>
    have hc := h c List.mem_cons_self
    exact .plain hc.1 hc.2.1 hc.2.2 (ih fun x hx => h x (List.mem_cons_of_mem _ hx))

theorem isDigit_ofNat {d : Nat} (h : d < 10) : IsDigit d (Char.ofNat (48 + d)) := by
  refine ⟨h, ?_⟩
  interval_cases d <;> decide

theorem digits_isNat (n : Nat) : IsNat n (digits n) := by
  induction n using Nat.strongRecOn with
  | ind n ih =>
    rw [digits]
    split_ifs with h
    · exact .one (isDigit_ofNat h)
    · have h1 := IsNat.more (d := n % 10) (by omega : 0 < n / 10) (ih (n / 10) (by omega))
        (isDigit_ofNat (Nat.mod_lt n (by omega)))
      have h2 : 10 * (n / 10) + n % 10 = n := Nat.div_add_mod n 10
      rwa [h2] at h1

theorem fmtInt_isInt (i : Int) : IsInt i (fmtInt i) := by
  cases i with
  | ofNat n => exact .pos (digits_isNat n)
  | negSucc n => exact .neg (digits_isNat (n + 1))

theorem isWs_nil : IsWs [] := by simp [IsWs]
theorem isWs_space : IsWs [' '] := by simp [IsWs]

theorem isValue_of_eq {v v' : JText} {t t' : List Char} (h : IsValue v t) (hv : v = v') (ht : t' = t) :
    IsValue v' t' := by subst hv; subst ht; exact h

theorem isElems_of_eq {v v' : List JText} {t t' : List Char} (h : IsElems v t) (hv : v = v') (ht : t' = t) :
    IsElems v' t' := by subst hv; subst ht; exact h

theorem formatEvent_isValue {e : Event} (h : SafeName e.name) : IsValue (eventObject e) (formatEvent e) := by
  have h7 := IsMembers.one (k := "dur".toList) (a := [' ']) (b := []) (c := [' ']) (d := [' ']) isWs_space
    (isStr_safe (by decide +kernel)) isWs_nil isWs_space (.int (fmtInt_isInt (e.durNs.tdiv 1000))) isWs_space
  have h6 := IsMembers.cons (k := "tid".toList) (a := [' ']) (b := []) (c := [' ']) (d := []) isWs_space
    (isStr_safe (by decide +kernel)) isWs_nil isWs_space (.int (.pos (digits_isNat e.tid))) isWs_nil h7
  have h5 := IsMembers.cons (k := "pid".toList) (a := [' ']) (b := []) (c := [' ']) (d := []) isWs_space
    (isStr_safe (by decide +kernel)) isWs_nil isWs_space (.int (.pos (digits_isNat e.pid))) isWs_nil h6
  have h4 := IsMembers.cons (k := "ts".toList) (a := [' ']) (b := []) (c := [' ']) (d := []) isWs_space
    (isStr_safe (by decide +kernel)) isWs_nil isWs_space (.int (fmtInt_isInt e.ts)) isWs_nil h5
  have h3 := IsMembers.cons (k := "ph".toList) (a := [' ']) (b := []) (c := [' ']) (d := []) isWs_space
    (isStr_safe (by decide +kernel)) isWs_nil isWs_space (.str (isStr_safe (s := "X".toList) (by decide +kernel))) isWs_nil h4
  have h2 := IsMembers.cons (k := "cat".toList) (a := [' ']) (b := []) (c := [' ']) (d := []) isWs_space
    (isStr_safe (by decide +kernel)) isWs_nil isWs_space (.str .nil) isWs_nil h3
  have h1 := IsMembers.cons (k := "name".toList) (a := [' ']) (b := []) (c := [' ']) (d := []) isWs_space
    (isStr_safe (by decide +kernel)) isWs_nil isWs_space (.str (isStr_safe h)) isWs_nil h2
  refine isValue_of_eq (.obj h1) ?_ ?_
  · unfold eventObject; rfl
  · have l1 : "{ \"name\": \"".toList = '{' :: ' ' :: '"' :: ("name".toList ++ '"' :: ':' :: ' ' :: '"' :: []) := by
      decide +kernel
    have l2 : "\", \"cat\": \"\", \"ph\": \"X\", \"ts\": ".toList =
        '"' :: ',' :: ' ' :: '"' :: ("cat".toList ++ '"' :: ':' :: ' ' :: '"' :: '"' :: ',' :: ' ' :: '"' ::
          ("ph".toList ++ '"' :: ':' :: ' ' :: '"' :: ("X".toList ++ '"' :: ',' :: ' ' :: '"' ::
            ("ts".toList ++ '"' :: ':' :: ' ' :: [])))) := by decide +kernel
    have l3 : ", \"pid\": ".toList = ',' :: ' ' :: '"' :: ("pid".toList ++ '"' :: ':' :: ' ' :: []) := by decide +kernel
    have l4 : ", \"tid\": ".toList = ',' :: ' ' :: '"' :: ("tid".toList ++ '"' :: ':' :: ' ' :: []) := by decide +kernel
    have l5 : ", \"dur\": ".toList = ',' :: ' ' :: '"' :: ("dur".toList ++ '"' :: ':' :: ' ' :: []) := by decide +kernel
    have l6 : " }".toList = ' ' :: '}' :: [] := by decide +kernel
    unfold formatEvent
    rw [l1, l2, l3, l4, l5, l6]
    clear l1 l2 l3 l4 l5 l6 h1 h2 h3 h4 h5 h6 h7
    generalize "name".toList = k1
    generalize "cat".toList = k2
    generalize "ph".toList = k3
    generalize "X".toList = k4
    generalize "ts".toList = k5
    generalize "pid".toList = k6
    generalize "tid".toList = k7
    generalize "dur".toList = k8
    simp only [List.append_assoc, List.cons_append, List.nil_append]

theorem joinEvents_isElems : ∀ {es : List Event} {a b : List Char}, IsWs a → IsWs b → es ≠ [] →
    (∀ e ∈ es, SafeName e.name) → IsElems (es.map eventObject) (a ++ joinEvents es ++ b)
  | [], _, _, _, _, h, _ => absurd rfl h
  | [e], a, b, ha, hb, _, h => by
    have := IsElems.one ha (formatEvent_isValue (h e List.mem_cons_self)) hb
    simpa [joinEvents] using this
  | e :: e' :: es, a, b, ha, hb, _, h => by
    have hr := joinEvents_isElems (es := e' :: es) (a := "\n    ".toList) (b := b) (by decide +kernel) hb (by simp)
      (fun x hx => h x (List.mem_cons_of_mem _ hx))
    have := IsElems.cons ha (formatEvent_isValue (h e List.mem_cons_self)) isWs_nil hr
    exact isElems_of_eq this rfl (by simp [joinEvents.eq_3 e (e' :: es) (by simp)])

/-- **C62**. If no event name contains a quote, a backslash or a control character, `get_trace_json` returns a valid
JSON document (RFC 8259) denoting the expected object: the buffered events, in order, with all their fields. -/
theorem C62_valid_json (events : List Event) (h : ∀ e ∈ events, SafeName e.name) :
    IsDocument (traceObject events) (traceJson events) := by
  have harr : IsValue (.arr (events.map eventObject)) ("[\n    ".toList ++ joinEvents events ++ "\n  ]".toList) := by
    by_cases hn : events = []
    · subst hn
      have := IsValue.arrNil (w := "\n    \n  ".toList) (by decide +kernel)
      exact isValue_of_eq this rfl (by simp [joinEvents])
    · have := IsValue.arr (joinEvents_isElems (a := "\n    ".toList) (b := "\n  ".toList) (by decide +kernel) (by decide +kernel) hn h)
      exact isValue_of_eq this rfl (by simp)
  have h2 := IsMembers.one (k := "displayTimeUnit".toList) (a := "\n  ".toList) (b := []) (c := [' '])
    (d := "\n".toList) (by decide +kernel) (isStr_safe (by decide +kernel)) isWs_nil isWs_space
    (.str (isStr_safe (s := "ns".toList) (by decide +kernel))) (by decide +kernel)
  have h1 := IsMembers.cons (k := "traceEvents".toList) (a := "\n  ".toList) (b := []) (c := [' ']) (d := [])
    (by decide +kernel) (isStr_safe (by decide +kernel)) isWs_nil isWs_space harr isWs_nil h2
  refine ⟨"\n".toList, _, "\n".toList, by decide +kernel, .obj h1, by decide +kernel, ?_⟩
  have l1 : "\n{\n  \"traceEvents\": [\n    ".toList =
      "\n".toList ++ '{' :: ("\n  ".toList ++ '"' :: ("traceEvents".toList ++ '"' :: ':' :: ' ' :: "[\n    ".toList)) := by
    decide +kernel
  have l2 : "\n  ],\n  \"displayTimeUnit\": \"ns\"\n}\n".toList =
      "\n  ]".toList ++ ',' :: ("\n  ".toList ++ '"' :: ("displayTimeUnit".toList ++ '"' :: ':' :: ' ' :: '"' ::
        ("ns".toList ++ '"' :: ("\n".toList ++ '}' :: "\n".toList)))) := by decide +kernel
  unfold traceJson
  rw [l1, l2]
  clear l1 l2 h1 h2 harr
  generalize "\n".toList = k1
  generalize "\n  ".toList = k2
  generalize "traceEvents".toList = k3
  generalize "[\n    ".toList = k4
  generalize "\n  ]".toList = k5
  generalize "displayTimeUnit".toList = k6
  generalize "ns".toList = k7
  simp only [List.append_assoc, List.cons_append, List.nil_append]

/-! ## What goes wrong with other names -/

/-- Inside or outside a string, or after a backslash in a string. -/
inductive Scan where
  | out | inside | escaped
  deriving DecidableEq

/-- One character of the scan. -/
def scanStep : Scan → Char → Scan
  | .out, c => if c = '"' then .inside else .out
  | .inside, c => if c = '"' then .out else if c = '\\' then .escaped else .inside
  | .escaped, _ => .inside

/-- Where in a string we are after reading a text. -/
def scan (s : Scan) (t : List Char) : Scan := t.foldl scanStep s

theorem scan_append (s : Scan) (a b : List Char) : scan s (a ++ b) = scan (scan s a) b := List.foldl_append

theorem scan_out {t : List Char} (h : ∀ c ∈ t, c ≠ '"') : scan .out t = .out := by
  induction t with
  | nil => rfl
  | cons c t ih =>
    have hc := h c List.mem_cons_self
    show scan (scanStep .out c) t = .out
    rw [show scanStep .out c = .out from if_neg hc]
    exact ih fun x hx => h x (List.mem_cons_of_mem _ hx)

theorem scan_cons {c : Char} {t : List Char} (h : c ≠ '"') : scan .out (c :: t) = scan .out t := by
  show scan (scanStep .out c) t = _
  rw [show scanStep .out c = .out from if_neg h]

theorem isDigit_ne {d : Nat} {c : Char} (h : IsDigit d c) : c ≠ '"' := by
  rintro rfl
  have := h.2
  simp at this
  omega

theorem isHex_ne {d : Nat} {c : Char} (h : IsHex d c) : c ≠ '"' ∧ c ≠ '\\' := by
  constructor <;> rintro rfl <;> (unfold IsHex at h; simp at h; omega)

theorem scan_ws {t : List Char} (h : IsWs t) : scan .out t = .out :=
  scan_out fun c hc => by rcases h c hc with rfl | rfl | rfl | rfl <;> decide

theorem isNat_chars {n : Nat} {t : List Char} (h : IsNat n t) : ∀ c ∈ t, c ≠ '"' := by
  induction h with
  | one hd => intro c hc; rw [List.mem_singleton.mp hc]; exact isDigit_ne hd
  | more _ _ hd ih =>
    intro c hc
    rcases List.mem_append.mp hc with hc | hc
    · exact ih c hc
    · rw [List.mem_singleton.mp hc]; exact isDigit_ne hd

theorem isInt_chars {n : Int} {t : List Char} (h : IsInt n t) : ∀ c ∈ t, c ≠ '"' := by
  cases h with
  | pos h => exact isNat_chars h
  | neg h =>
    intro c hc
    rcases List.mem_cons.mp hc with rfl | hc
    · decide
    · exact isNat_chars h c hc

theorem isFrac_chars {t : List Char} (h : IsFrac t) : ∀ c ∈ t, c ≠ '"' := by
  cases h with
  | mk hi hf he _ =>
    intro c hc
    rcases List.mem_append.mp hc with hc | hc
    · rcases List.mem_append.mp hc with hc | hc
      · exact isInt_chars hi c hc
      · rcases hf with rfl | ⟨x, ds, rfl, hd⟩
        · exact absurd hc (by simp)
        · rcases List.mem_cons.mp hc with rfl | hc
          · decide
          · exact isDigit_ne (hd c hc).choose_spec
    · rcases he with rfl | ⟨m, sgn, x, ds, hm, hs, rfl, hd⟩
      · exact absurd hc (by simp)
      · rcases List.mem_append.mp hc with hc | hc
        · rcases List.mem_cons.mp hc with rfl | hc
          · rcases hm with rfl | rfl <;> decide
          · rcases hs with rfl | rfl | rfl
            · exact absurd hc (by simp)
            · rw [List.mem_singleton.mp hc]; decide
            · rw [List.mem_singleton.mp hc]; decide
        · exact isDigit_ne (hd c hc).choose_spec

theorem scan_str {s t : List Char} (h : IsStr s t) : scan .inside t = .inside := by
  induction h with
  | nil => rfl
  | plain h1 h2 _ _ ih =>
    rename_i c _ t _ _
    show scan (scanStep .inside c) t = .inside
    rw [show scanStep .inside c = .inside by simp [scanStep, h1, h2]]
    exact ih
  | esc _ _ ih => exact ih
  | unicode hx hy hz hw _ ih =>
    rename_i a b c d x y z w s t _
    have e : ∀ q : Char, q ≠ '"' ∧ q ≠ '\\' → scanStep .inside q = .inside := by
      intro q hq; simp [scanStep, hq.1, hq.2]
    show scan (scanStep (scanStep (scanStep (scanStep .inside x) y) z) w) t = .inside
    rw [e x (isHex_ne hx), e y (isHex_ne hy), e z (isHex_ne hz), e w (isHex_ne hw)]
    exact ih

theorem scan_quoted {s t : List Char} (h : IsStr s t) : scan .out ('"' :: t ++ ['"']) = .out := by
  rw [scan_append]
  show scan (scan .inside t) ['"'] = .out
  rw [scan_str h]; rfl

mutual
theorem scan_value {v : JText} {t : List Char} : IsValue v t → scan .out t = .out
  | .null => rfl
  | .true => rfl
  | .false => rfl
  | .int h => scan_out (isInt_chars h)
  | .num h => scan_out (isFrac_chars h)
  | .str h => scan_quoted h
  | .arrNil h => by
    rw [scan_append, scan_cons (by decide +kernel), scan_ws h]; rfl
  | .arr h => by
    rw [scan_append, scan_cons (by decide +kernel), scan_elems h]; rfl
  | .objNil h => by
    rw [scan_append, scan_cons (by decide +kernel), scan_ws h]; rfl
  | .obj h => by
    rw [scan_append, scan_cons (by decide +kernel), scan_members h]; rfl
theorem scan_elems {l : List JText} {t : List Char} : IsElems l t → scan .out t = .out
  | .one ha h hb => by rw [scan_append, scan_append, scan_ws ha, scan_value h, scan_ws hb]
  | .cons ha h hb hr => by
    rw [scan_append, scan_append, scan_append, scan_ws ha, scan_value h, scan_ws hb]
    rw [scan_cons (by decide +kernel)]
    exact scan_elems hr
theorem scan_members {l : List (List Char × JText)} {t : List Char} : IsMembers l t → scan .out t = .out
  | .one ha hk hb hc h hd => by
    rw [scan_append, scan_append, scan_append, scan_append, scan_append, scan_ws ha, scan_quoted hk, scan_ws hb]
    rw [scan_cons (by decide +kernel), scan_ws hc, scan_value h, scan_ws hd]
  | .cons ha hk hb hc h hd hr => by
    rw [scan_append, scan_append, scan_append, scan_append, scan_append, scan_append, scan_ws ha, scan_quoted hk,
      scan_ws hb]
    rw [scan_cons (by decide +kernel), scan_ws hc, scan_value h, scan_ws hd, scan_cons (by decide +kernel)]
    exact scan_members hr
end

/-- An event whose name is one double quote. -/
def quoteEvent : Event := ⟨['"'], 1, 2, 3, 4⟩

/-- **C62 is false without the restriction on names**: names are not escaped, and an event called `"` makes the
output something that is not JSON at all. -/
theorem C62_quote_breaks (v : JText) : ¬ IsDocument v (traceJson [quoteEvent]) := by
  rintro ⟨a, u, b, ha, hu, hb, h⟩
  have h1 : scan .out (traceJson [quoteEvent]) = .out := by
    rw [h, scan_append, scan_append, scan_ws ha, scan_value hu, scan_ws hb]
  have h2 : scan .out (traceJson [quoteEvent]) = .inside := by decide +kernel
  rw [h1] at h2
  cases h2

/-- Non-vacuity of C62: the events of a real solve have safe names. -/
example : ∀ e ∈ [(⟨"LinearizeAndFillQP".toList, 5, 1, 2, 12345⟩ : Event), ⟨"Solve".toList, -3, 1, 2, 0⟩],
    SafeName e.name := by decide

/-- The shape of the output on one event. -/
example : traceJson [⟨"Solve".toList, 12, 7, 8, 34567⟩] =
    "\n{\n  \"traceEvents\": [\n    { \"name\": \"Solve\", \"cat\": \"\", \"ph\": \"X\", \"ts\": 12, \"pid\": 7, \"tid\": 8, \"dur\": 34 }\n  ],\n  \"displayTimeUnit\": \"ns\"\n}\n".toList := by
  decide +kernel

end MiniOpt.Props
