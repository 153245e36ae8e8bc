import Verif.Props.AssertText
import Verif.Props.TraceJson

/-!
# C100: a text denotes at most one JSON value

So whatever reads the files the library writes, and follows the standard, reads what was written.
-/

set_option autoImplicit false

namespace MiniOpt.Props

open MiniOpt MiniOpt.Spec

/-- White space characters. -/
def wsChar (c : Char) : Bool := c == ' ' || c == '\t' || c == '\n' || c == '\r'

/-- Characters that can occur in a number. -/
def numChar (c : Char) : Bool := (48 ≤ c.toNat && c.toNat ≤ 57) || c == '-' || c == '+' || c == '.' || c == 'e' || c == 'E'

theorem ws_chars {t : List Char} (h : IsWs t) : ∀ c ∈ t, wsChar c = true := by
  intro c hc
  rcases h c hc with rfl | rfl | rfl | rfl <;> decide

/-- A block of characters of one kind, followed by something that does not begin with such a character, is determined. -/
theorem block_split (p : Char → Bool) {a a' r r' : List Char} (ha : ∀ c ∈ a, p c = true) (ha' : ∀ c ∈ a', p c = true)
    (hr : ∀ c q, r = c :: q → p c = false) (hr' : ∀ c q, r' = c :: q → p c = false) (h : a ++ r = a' ++ r') :
    a = a' ∧ r = r' := by
  induction a generalizing a' with
  | nil =>
    cases a' with
    | nil => exact ⟨rfl, h⟩
    | cons c a' =>
      have := hr c (a' ++ r') h
      rw [ha' c List.mem_cons_self] at this
      cases this
  | cons c a ih =>
    cases a' with
    | nil =>
      have := hr' c (a ++ r) h.symm
      rw [ha c List.mem_cons_self] at this
      cases this
    | cons c' a' =>
      rw [List.cons_append, List.cons_append, List.cons.injEq] at h
      have := ih (fun x m => ha x (List.mem_cons_of_mem _ m)) (fun x m => ha' x (List.mem_cons_of_mem _ m)) h.2
      exact ⟨by rw [h.1, this.1], this.2⟩

/-- The same with a definite next character. -/
theorem ws_split {a a' q q' : List Char} {c c' : Char} (ha : IsWs a) (ha' : IsWs a') (hc : wsChar c = false)
    (hc' : wsChar c' = false) (h : a ++ c :: q = a' ++ c' :: q') : a = a' ∧ c = c' ∧ q = q' := by
  have := block_split wsChar (ws_chars ha) (ws_chars ha') (fun x y e => by cases e; exact hc)
    (fun x y e => by cases e; exact hc') h
  rw [List.cons.injEq] at this
  exact this

/-! ## Strings -/

theorem isHex_unique {d d' : Nat} {c : Char} (h : IsHex d c) (h' : IsHex d' c) : d = d' := by
  unfold IsHex at h h'
  omega

theorem escapes_unique : ∀ c v v', (c, v) ∈ escapes → (c, v') ∈ escapes → v = v' := by
  intro c v v' h h'
  simp only [escapes, List.mem_cons, Prod.mk.injEq, List.not_mem_nil, or_false] at h h'
  rcases h with ⟨rfl, rfl⟩ | ⟨rfl, rfl⟩ | ⟨rfl, rfl⟩ | ⟨rfl, rfl⟩ | ⟨rfl, rfl⟩ | ⟨rfl, rfl⟩ | ⟨rfl, rfl⟩ | ⟨rfl, rfl⟩ <;>
    simpa [eq_comm] using h'

theorem escapes_no_u (v : Char) : ('u', v) ∉ escapes := by
  simp [escapes]

/-- The contents of a string up to the closing quote are determined, and so is their meaning. -/
theorem str_split {s t : List Char} (h : IsStr s t) : ∀ {s' t' r r' : List Char}, IsStr s' t' →
    t ++ '"' :: r = t' ++ '"' :: r' → s = s' ∧ t = t' ∧ r = r' := by
  induction h with
  | nil =>
    intro s' t' r r' h' e
    cases h' with
    | nil => exact ⟨rfl, rfl, by simpa using e⟩
    | plain h1 _ _ _ => exact absurd (List.cons.inj e).1.symm h1
    | esc _ _ => exact absurd (List.cons.inj e).1 (by decide)
    | unicode _ _ _ _ _ => exact absurd (List.cons.inj e).1 (by decide)
  | plain h1 h2 h3 _ ih =>
    intro s' t' r r' h' e
    cases h' with
    | nil => exact absurd (List.cons.inj e).1 h1
    | plain h1' _ _ hs' =>
      obtain ⟨e1, e2⟩ := List.cons.inj e
      obtain ⟨i1, i2, i3⟩ := ih hs' e2
      exact ⟨by rw [e1, i1], by rw [e1, i2], i3⟩
    | esc _ _ => exact absurd (List.cons.inj e).1 h2
    | unicode _ _ _ _ _ => exact absurd (List.cons.inj e).1 h2
  | esc hm _ ih =>
    intro s' t' r r' h' e
    cases h' with
    | nil => exact absurd (List.cons.inj e).1 (by decide)
    | plain h1' h2' _ hs' => exact absurd (List.cons.inj e).1.symm h2'
    | esc hm' hs' =>
      obtain ⟨e1, e2⟩ := List.cons.inj (List.cons.inj e).2
      obtain ⟨i1, i2, i3⟩ := ih hs' e2
      subst e1
      rw [escapes_unique _ _ _ hm hm', i1, i2]
      exact ⟨rfl, rfl, i3⟩
    | unicode _ _ _ _ _ =>
      have e1 := (List.cons.inj (List.cons.inj e).2).1
      subst e1
      exact absurd hm (escapes_no_u _)
  | unicode ha hb hc hd _ ih =>
    intro s' t' r r' h' e
    cases h' with
    | nil => exact absurd (List.cons.inj e).1 (by decide)
    | plain h1' h2' _ hs' => exact absurd (List.cons.inj e).1.symm h2'
    | esc hm' hs' =>
      have e1 := (List.cons.inj (List.cons.inj e).2).1
      subst e1
      exact absurd hm' (escapes_no_u _)
    | unicode ha' hb' hc' hd' hs' =>
      simp only [List.cons_append, List.cons.injEq, true_and] at e
      obtain ⟨rfl, rfl, rfl, rfl, e2⟩ := e
      obtain ⟨i1, i2, i3⟩ := ih hs' e2
      rw [isHex_unique ha ha', isHex_unique hb hb', isHex_unique hc hc', isHex_unique hd hd', i1, i2]
      exact ⟨rfl, rfl, i3⟩

/-! ## Numbers -/

theorem digit_num {d : Nat} {c : Char} (h : IsDigit d c) : numChar c = true := by
  have h1 := h.1
  have h2 := h.2
  have : (decide (48 ≤ c.toNat) && decide (c.toNat ≤ 57)) = true := by
    simp only [Bool.and_eq_true, decide_eq_true_eq]; omega
  unfold numChar
  rw [this]
  rfl

theorem digit_not {d : Nat} {c : Char} (h : IsDigit d c) : c ≠ '.' ∧ c ≠ 'e' ∧ c ≠ 'E' ∧ c ≠ '-' := by
  have h1 := h.1
  have h2 := h.2
  have hne : ∀ x : Char, (x.toNat < 48 ∨ 57 < x.toNat) → c ≠ x := by
    rintro x hx rfl; omega
  exact ⟨hne _ (by decide), hne _ (by decide), hne _ (by decide), hne _ (by decide)⟩

theorem isNat_digits {n : Nat} {t : List Char} (h : IsNat n t) : ∀ c ∈ t, ∃ d, IsDigit d c := by
  induction h with
  | one hd => intro c hc; rw [List.mem_singleton] at hc; subst hc; exact ⟨_, hd⟩
  | more _ _ hd ih =>
    intro c hc
    rcases List.mem_append.mp hc with hc | hc
    · exact ih c hc
    · rw [List.mem_singleton] at hc; subst hc; exact ⟨_, hd⟩

theorem isInt_num {i : Int} {t : List Char} (h : IsInt i t) : ∀ c ∈ t, numChar c = true ∧ c ≠ '.' ∧ c ≠ 'e' ∧ c ≠ 'E' := by
  have hd : ∀ (n : Nat) (t : List Char), IsNat n t → ∀ c ∈ t, numChar c = true ∧ c ≠ '.' ∧ c ≠ 'e' ∧ c ≠ 'E' :=
    fun n t hn c hc => by
      obtain ⟨d, hd⟩ := isNat_digits hn c hc
      have := digit_not hd
      exact ⟨digit_num hd, this.1, this.2.1, this.2.2.1⟩
  cases h with
  | pos hn => exact hd _ _ hn
  | neg hn =>
    intro c hc
    rcases List.mem_cons.mp hc with rfl | hc
    · exact ⟨by decide, by decide, by decide, by decide⟩
    · exact hd _ _ hn c hc

theorem isFrac_num {t : List Char} (h : IsFrac t) : (∀ c ∈ t, numChar c = true) ∧ ('.' ∈ t ∨ 'e' ∈ t ∨ 'E' ∈ t) := by
  cases h with
  | mk hi hf he hne =>
    rename_i i t f e
    constructor
    · intro c hc
      rcases List.mem_append.mp hc with hc | hc
      · rcases List.mem_append.mp hc with hc | hc
        · exact (isInt_num hi c hc).1
        · rcases hf with rfl | ⟨x, ds, rfl, hd⟩
          · simp at hc
          · rcases List.mem_cons.mp hc with rfl | hc
            · decide
            · obtain ⟨d, hd'⟩ := hd c hc
              exact digit_num hd'
      · rcases he with rfl | ⟨m, sgn, x, ds, hm, hs, rfl, hd⟩
        · simp at hc
        · rcases List.mem_append.mp hc with hc | hc
          · rcases List.mem_cons.mp hc with rfl | hc
            · rcases hm with rfl | rfl <;> decide
            · rcases hs with rfl | rfl | rfl
              · simp at hc
              · rw [List.mem_singleton] at hc; subst hc; decide
              · rw [List.mem_singleton] at hc; subst hc; decide
          · obtain ⟨d, hd'⟩ := hd c hc
            exact digit_num hd'
    · rcases hne with hne | hne
      · rcases hf with rfl | ⟨x, ds, rfl, hd⟩
        · exact absurd rfl hne
        · left; simp
      · rcases he with rfl | ⟨m, sgn, x, ds, hm, hs, rfl, hd⟩
        · exact absurd rfl hne
        · rcases hm with rfl | rfl
          · right; left; simp
          · right; right; simp

/-! ## Values -/

/-- What may follow a value: nothing, or a character that ends it. -/
def Follow (r : List Char) : Prop := ∀ c q, r = c :: q → c = ',' ∨ c = ']' ∨ c = '}' ∨ wsChar c = true

theorem follow_num {r : List Char} (h : Follow r) : ∀ c q, r = c :: q → numChar c = false := by
  intro c q e
  rcases h c q e with rfl | rfl | rfl | hw
  · decide
  · decide
  · decide
  · simp only [wsChar, Bool.or_eq_true, beq_iff_eq] at hw
    rcases hw with ((rfl | rfl) | rfl) | rfl <;> decide

theorem follow_ws {b : List Char} {c : Char} {q : List Char} (hb : IsWs b) (hc : c = ',' ∨ c = ']' ∨ c = '}') :
    Follow (b ++ c :: q) := by
  intro x y e
  cases b with
  | nil =>
    cases e
    rcases hc with rfl | rfl | rfl <;> simp
  | cons z b =>
    cases e
    exact .inr (.inr (.inr (ws_chars hb x List.mem_cons_self)))

/-- The kind of a value. -/
def kindOf : JText → Nat
  | .null => 0
  | .bool true => 1
  | .bool false => 2
  | .int _ => 3
  | .num _ => 3
  | .str _ => 4
  | .arr _ => 5
  | .obj _ => 6

/-- The kind of the values that begin with a character. -/
def kindChar (c : Char) : Nat :=
  if c = 'n' then 0 else if c = 't' then 1 else if c = 'f' then 2 else if c = '"' then 4 else if c = '[' then 5
  else if c = '{' then 6 else if c = ']' ∨ c = '}' ∨ c = ',' ∨ wsChar c = true then 7 else 3

theorem digit_kind {d : Nat} {c : Char} (h : IsDigit d c) : kindChar c = 3 := by
  have h1 := h.1
  have h2 := h.2
  have hne : ∀ x : Char, (x.toNat < 48 ∨ 57 < x.toNat) → c ≠ x := by
    rintro x hx rfl; omega
  unfold kindChar wsChar
  have e : ∀ x : Char, (x.toNat < 48 ∨ 57 < x.toNat) → (c == x) = false := fun x hx => by
    simpa using hne x hx
  rw [if_neg (hne _ (by decide)), if_neg (hne _ (by decide)), if_neg (hne _ (by decide)), if_neg (hne _ (by decide)),
    if_neg (hne _ (by decide)), if_neg (hne _ (by decide)), if_neg]
  rw [e _ (by decide), e _ (by decide), e _ (by decide), e _ (by decide)]
  rintro (k | k | k | k)
  · exact hne _ (by decide) k
  · exact hne _ (by decide) k
  · exact hne _ (by decide) k
  · cases k

theorem int_head {i : Int} {t : List Char} (h : IsInt i t) : ∃ c q, t = c :: q ∧ kindChar c = 3 := by
  cases h with
  | pos hn => obtain ⟨c, q, d, e, hd⟩ := isNat_head hn; exact ⟨c, q, e, digit_kind hd⟩
  | neg hn => exact ⟨_, _, rfl, by decide⟩

theorem value_head {v : JText} {t : List Char} (h : IsValue v t) : ∃ c q, t = c :: q ∧ kindChar c = kindOf v := by
  cases h with
  | null => exact ⟨_, _, rfl, by decide⟩
  | true => exact ⟨_, _, rfl, by decide⟩
  | false => exact ⟨_, _, rfl, by decide⟩
  | int h => exact int_head h
  | num h =>
    cases h with
    | mk hi _ _ _ =>
      obtain ⟨c, q, e, hk⟩ := int_head hi
      exact ⟨c, _, by rw [e]; rfl, hk⟩
  | str _ => exact ⟨_, _, rfl, (by decide : kindChar '"' = 4)⟩
  | arrNil _ => exact ⟨_, _, rfl, (by decide : kindChar '[' = 5)⟩
  | arr _ => exact ⟨_, _, rfl, (by decide : kindChar '[' = 5)⟩
  | objNil _ => exact ⟨_, _, rfl, (by decide : kindChar '{' = 6)⟩
  | obj _ => exact ⟨_, _, rfl, (by decide : kindChar '{' = 6)⟩

theorem kindOf_le (v : JText) : kindOf v ≤ 6 := by
  cases v with
  | bool b => cases b <;> decide
  | _ => simp [kindOf]

theorem head_not_ws {c : Char} {v : JText} (h : kindChar c = kindOf v) : wsChar c = false := by
  by_contra hw
  have hw : wsChar c = true := by simpa using hw
  have := kindOf_le v
  simp only [wsChar, Bool.or_eq_true, beq_iff_eq] at hw
  have : kindChar c = 7 := by rcases hw with ((rfl | rfl) | rfl) | rfl <;> decide
  omega

theorem head_not_close {c : Char} {v : JText} (h : kindChar c = kindOf v) : c ≠ ']' ∧ c ≠ '}' := by
  have := kindOf_le v
  constructor
  · rintro rfl
    have : kindChar ']' = 7 := by decide
    omega
  · rintro rfl
    have : kindChar '}' = 7 := by decide
    omega

/-- What the value at the beginning of a text determines. -/
def Splits (v : JText) (t : List Char) : Prop :=
  ∀ v' t' r r', IsValue v' t' → Follow r → Follow r' → t ++ r = t' ++ r' → v = v' ∧ t = t' ∧ r = r'

/-- One element with its white space, and the character after it. -/
theorem element_split {v v' : JText} {a u b a' u' b' q q' : List Char} {d d' : Char} (hv : Splits v u) (h : IsValue v u)
    (h' : IsValue v' u') (ha : IsWs a) (ha' : IsWs a') (hb : IsWs b) (hb' : IsWs b')
    (hd : d = ',' ∨ d = ']' ∨ d = '}') (hd' : d' = ',' ∨ d' = ']' ∨ d' = '}')
    (e : a ++ u ++ b ++ d :: q = a' ++ u' ++ b' ++ d' :: q') :
    v = v' ∧ a = a' ∧ u = u' ∧ b = b' ∧ d = d' ∧ q = q' := by
  obtain ⟨c, w, eu, hk⟩ := value_head h
  obtain ⟨c', w', eu', hk'⟩ := value_head h'
  have hdw : ∀ x : Char, (x = ',' ∨ x = ']' ∨ x = '}') → wsChar x = false := by
    rintro x (rfl | rfl | rfl) <;> decide
  have e1 := e
  rw [eu, eu'] at e1
  simp only [List.append_assoc, List.cons_append] at e1
  obtain ⟨ea, ec, _⟩ := ws_split ha ha' (head_not_ws hk) (head_not_ws hk') e1
  subst ea
  simp only [List.append_assoc] at e
  have e2 := List.append_cancel_left e
  obtain ⟨i1, i2, i3⟩ := hv v' u' _ _ h' (follow_ws hb hd) (follow_ws hb' hd') e2
  obtain ⟨j1, j2, j3⟩ := ws_split hb hb' (hdw d hd) (hdw d' hd') i3
  exact ⟨i1, rfl, i2, j1, j2, j3⟩

/-- One member with its white space, and the character after it. -/
theorem member_split {k k' : List Char} {v v' : JText} {a kt b c u d a' kt' b' c' u' d' q q' : List Char} {x x' : Char}
    (hv : Splits v u) (h : IsValue v u) (h' : IsValue v' u') (hk : IsStr k kt) (hk' : IsStr k' kt')
    (ha : IsWs a) (ha' : IsWs a') (hb : IsWs b) (hb' : IsWs b') (hc : IsWs c) (hc' : IsWs c') (hd : IsWs d) (hd' : IsWs d')
    (hx : x = ',' ∨ x = ']' ∨ x = '}') (hx' : x' = ',' ∨ x' = ']' ∨ x' = '}')
    (e : a ++ ('"' :: kt ++ ['"']) ++ b ++ ':' :: c ++ u ++ d ++ x :: q
      = a' ++ ('"' :: kt' ++ ['"']) ++ b' ++ ':' :: c' ++ u' ++ d' ++ x' :: q') :
    k = k' ∧ v = v' ∧ (a ++ ('"' :: kt ++ ['"']) ++ b ++ ':' :: c ++ u ++ d
      = a' ++ ('"' :: kt' ++ ['"']) ++ b' ++ ':' :: c' ++ u' ++ d') ∧ x = x' ∧ q = q' := by
  simp only [List.append_assoc, List.cons_append, List.nil_append] at e
  obtain ⟨ea, _, e1⟩ := ws_split ha ha' (by decide) (by decide) e
  obtain ⟨ek, ekt, e2⟩ := str_split hk hk' e1
  obtain ⟨eb, _, e3⟩ := ws_split hb hb' (by decide) (by decide) e2
  have e4 : c ++ u ++ d ++ x :: q = c' ++ u' ++ d' ++ x' :: q' := by simpa only [List.append_assoc] using e3
  obtain ⟨f1, f2, f3, f4, f5, f6⟩ := element_split hv h h' hc hc' hd hd' hx hx' e4
  subst ea ekt eb f2 f3 f4
  exact ⟨ek, f1, rfl, f5, f6⟩

theorem str_text {v : JText} {t : List Char} (h : IsValue v t) (s : List Char) (hv : v = .str s) :
    ∃ u, IsStr s u ∧ t = '"' :: u ++ ['"'] := by
  cases h <;> cases hv
  exact ⟨_, by assumption, rfl⟩

theorem arr_text {v : JText} {t : List Char} (h : IsValue v t) (l : List JText) (hv : v = .arr l) :
    (l = [] ∧ ∃ w, IsWs w ∧ t = '[' :: w ++ [']']) ∨ ∃ u, IsElems l u ∧ t = '[' :: u ++ [']'] := by
  cases h <;> cases hv
  · exact .inl ⟨rfl, _, by assumption, rfl⟩
  · exact .inr ⟨_, by assumption, rfl⟩

theorem obj_text {v : JText} {t : List Char} (h : IsValue v t) (l : List (List Char × JText)) (hv : v = .obj l) :
    (l = [] ∧ ∃ w, IsWs w ∧ t = '{' :: w ++ ['}']) ∨ ∃ u, IsMembers l u ∧ t = '{' :: u ++ ['}'] := by
  cases h <;> cases hv
  · exact .inl ⟨rfl, _, by assumption, rfl⟩
  · exact .inr ⟨_, by assumption, rfl⟩

theorem elems_head {l : List JText} {t : List Char} (h : IsElems l t) :
    ∃ a c q, IsWs a ∧ t = a ++ c :: q ∧ wsChar c = false ∧ c ≠ ']' := by
  cases h with
  | one ha hv hb =>
    obtain ⟨c, w, eu, hk⟩ := value_head hv
    exact ⟨_, c, _, ha, by rw [eu]; simp only [List.append_assoc, List.cons_append]; rfl, head_not_ws hk, (head_not_close hk).1⟩
  | cons ha hv hb hr =>
    obtain ⟨c, w, eu, hk⟩ := value_head hv
    exact ⟨_, c, _, ha, by rw [eu]; simp only [List.append_assoc, List.cons_append]; rfl, head_not_ws hk, (head_not_close hk).1⟩

theorem members_head {l : List (List Char × JText)} {t : List Char} (h : IsMembers l t) :
    ∃ a q, IsWs a ∧ t = a ++ '"' :: q := by
  cases h with
  | one ha hk hb hc hv hd => exact ⟨_, _, ha, by simp only [List.append_assoc, List.cons_append]; rfl⟩
  | cons ha hk hb hc hv hd hr => exact ⟨_, _, ha, by simp only [List.append_assoc, List.cons_append]; rfl⟩

theorem same_kind {v v' : JText} {t t' r r' : List Char} (h : IsValue v t) (h' : IsValue v' t') (e : t ++ r = t' ++ r') :
    kindOf v' = kindOf v := by
  obtain ⟨c, q, ec, hk⟩ := value_head h
  obtain ⟨c', q', ec', hk'⟩ := value_head h'
  subst ec ec'
  have := (List.cons.inj e).1
  subst this
  rw [← hk, ← hk']

/-- The text of a number. -/
theorem num_text {v : JText} {t : List Char} (h : IsValue v t) (hv : kindOf v = 3) : (∀ c ∈ t, numChar c = true) ∧
    ((∃ i, v = .int i ∧ IsInt i t) ∨ (v = .num t ∧ IsFrac t)) := by
  cases h with
  | int h => exact ⟨fun c hc => (isInt_num h c hc).1, .inl ⟨_, rfl, h⟩⟩
  | num h => exact ⟨(isFrac_num h).1, .inr ⟨rfl, h⟩⟩
  | _ => cases hv

theorem number_split {v : JText} {t : List Char} (h : IsValue v t) (hv : kindOf v = 3) : Splits v t := by
  intro v' t' r r' h' hr hr' e
  have hk := (same_kind h h' e).trans hv
  obtain ⟨hc, hn⟩ := num_text h hv
  obtain ⟨hc', hn'⟩ := num_text h' hk
  obtain ⟨rfl, er⟩ := block_split numChar hc hc' (follow_num hr) (follow_num hr') e
  refine ⟨?_, rfl, er⟩
  have mixed : ∀ i, IsInt i t → IsFrac t → False := fun i hi hf => by
    rcases (isFrac_num hf).2 with m | m | m
    · exact (isInt_num hi _ m).2.1 rfl
    · exact (isInt_num hi _ m).2.2.1 rfl
    · exact (isInt_num hi _ m).2.2.2 rfl
  rcases hn with ⟨i, rfl, hi⟩ | ⟨rfl, hf⟩
  · rcases hn' with ⟨i', rfl, hi'⟩ | ⟨rfl, hf'⟩
    · rw [isInt_unique hi hi']
    · exact (mixed i hi hf').elim
  · rcases hn' with ⟨i', rfl, hi'⟩ | ⟨rfl, hf'⟩
    · exact (mixed i' hi' hf).elim
    · rfl

theorem word_split {v : JText} {t : List Char} (h : IsValue v t) (hv : kindOf v ≤ 2) : Splits v t := by
  intro v' t' r r' h' _ _ e
  have hk := same_kind h h' e
  have key : v = v' ∧ t = t' := by
    cases h <;> first | (exfalso; revert hv; simp [kindOf]; done) | skip
    all_goals
      cases h' <;> first | (exact ⟨rfl, rfl⟩) | (exfalso; revert hk; simp [kindOf]; done)
  obtain ⟨rfl, rfl⟩ := key
  exact ⟨rfl, rfl, List.append_cancel_left e⟩

theorem kind_str {v : JText} (h : kindOf v = 4) : ∃ s, v = .str s := by
  cases v with
  | str s => exact ⟨s, rfl⟩
  | bool b => cases b <;> cases h
  | _ => cases h

theorem kind_arr {v : JText} (h : kindOf v = 5) : ∃ l, v = .arr l := by
  cases v with
  | arr l => exact ⟨l, rfl⟩
  | bool b => cases b <;> cases h
  | _ => cases h

theorem kind_obj {v : JText} (h : kindOf v = 6) : ∃ l, v = .obj l := by
  cases v with
  | obj l => exact ⟨l, rfl⟩
  | bool b => cases b <;> cases h
  | _ => cases h

mutual
theorem value_split {v : JText} {t : List Char} : IsValue v t → Splits v t
  | .null => word_split .null (by decide)
  | .true => word_split .true (by decide)
  | .false => word_split .false (by decide)
  | .int h => number_split (.int h) rfl
  | .num h => number_split (.num h) rfl
  | .str h => fun v' t' r r' h' _ _ e => by
    obtain ⟨s', rfl⟩ := kind_str (same_kind (.str h) h' e)
    obtain ⟨u', hu', rfl⟩ := str_text h' s' rfl
    simp only [List.cons_append, List.append_assoc, List.cons.injEq, true_and, List.nil_append] at e
    obtain ⟨rfl, rfl, er⟩ := str_split h hu' e
    exact ⟨rfl, rfl, er⟩
  | .arrNil h => fun v' t' r r' h' _ _ e => by
    obtain ⟨l', rfl⟩ := kind_arr (same_kind (.arrNil h) h' e)
    rcases arr_text h' l' rfl with ⟨rfl, w', hw', rfl⟩ | ⟨u', hu', rfl⟩
    · simp only [List.cons_append, List.append_assoc, List.cons.injEq, true_and, List.nil_append] at e
      obtain ⟨rfl, _, er⟩ := ws_split h hw' (by decide) (by decide) e
      exact ⟨rfl, rfl, er⟩
    · obtain ⟨a, c, q, ha, rfl, hc, hne⟩ := elems_head hu'
      simp only [List.cons_append, List.append_assoc, List.cons.injEq, true_and, List.nil_append] at e
      obtain ⟨_, ec, _⟩ := ws_split h ha (by decide) hc e
      exact absurd ec.symm hne
  | .arr h => fun v' t' r r' h' _ _ e => by
    obtain ⟨l', rfl⟩ := kind_arr (same_kind (.arr h) h' e)
    rcases arr_text h' l' rfl with ⟨rfl, w', hw', rfl⟩ | ⟨u', hu', rfl⟩
    · obtain ⟨a, c, q, ha, rfl, hc, hne⟩ := elems_head h
      simp only [List.cons_append, List.append_assoc, List.cons.injEq, true_and, List.nil_append] at e
      obtain ⟨_, ec, _⟩ := ws_split ha hw' hc (by decide) e
      exact absurd ec hne
    · simp only [List.cons_append, List.append_assoc, List.cons.injEq, true_and, List.nil_append] at e
      obtain ⟨rfl, rfl, er⟩ := elems_split h _ _ _ _ hu' e
      exact ⟨rfl, rfl, er⟩
  | .objNil h => fun v' t' r r' h' _ _ e => by
    obtain ⟨l', rfl⟩ := kind_obj (same_kind (.objNil h) h' e)
    rcases obj_text h' l' rfl with ⟨rfl, w', hw', rfl⟩ | ⟨u', hu', rfl⟩
    · simp only [List.cons_append, List.append_assoc, List.cons.injEq, true_and, List.nil_append] at e
      obtain ⟨rfl, _, er⟩ := ws_split h hw' (by decide) (by decide) e
      exact ⟨rfl, rfl, er⟩
    · obtain ⟨a, q, ha, rfl⟩ := members_head hu'
      simp only [List.cons_append, List.append_assoc, List.cons.injEq, true_and, List.nil_append] at e
      obtain ⟨_, ec, _⟩ := ws_split h ha (by decide) (by decide) e
      exact absurd ec (by decide)
  | .obj h => fun v' t' r r' h' _ _ e => by
    obtain ⟨l', rfl⟩ := kind_obj (same_kind (.obj h) h' e)
    rcases obj_text h' l' rfl with ⟨rfl, w', hw', rfl⟩ | ⟨u', hu', rfl⟩
    · obtain ⟨a, q, ha, rfl⟩ := members_head h
      simp only [List.cons_append, List.append_assoc, List.cons.injEq, true_and, List.nil_append] at e
      obtain ⟨_, ec, _⟩ := ws_split ha hw' (by decide) (by decide) e
      exact absurd ec (by decide)
    · simp only [List.cons_append, List.append_assoc, List.cons.injEq, true_and, List.nil_append] at e
      obtain ⟨rfl, rfl, er⟩ := members_split h _ _ _ _ hu' e
      exact ⟨rfl, rfl, er⟩
theorem elems_split {l : List JText} {t : List Char} : IsElems l t → ∀ l' t' r r', IsElems l' t' →
    t ++ ']' :: r = t' ++ ']' :: r' → l = l' ∧ t = t' ∧ r = r'
  | .one ha h hb => fun l' t' r r' h' e => by
    cases h' with
    | one ha' hv' hb' =>
      obtain ⟨i1, i2, i3, i4, _, i6⟩ := element_split (value_split h) h hv' ha ha' hb hb' (by simp) (by simp) e
      subst i1 i2 i3 i4
      exact ⟨rfl, rfl, i6⟩
    | cons ha' hv' hb' hr' =>
      simp only [List.append_assoc (_ ++ _ ++ _), List.cons_append] at e
      obtain ⟨_, _, _, _, i5, _⟩ := element_split (value_split h) h hv' ha ha' hb hb' (by simp) (by simp) e
      exact absurd i5 (by decide)
  | .cons ha h hb hl => fun l' t' r r' h' e => by
    cases h' with
    | one ha' hv' hb' =>
      simp only [List.append_assoc (_ ++ _ ++ _), List.cons_append] at e
      obtain ⟨_, _, _, _, i5, _⟩ := element_split (value_split h) h hv' ha ha' hb hb' (by simp) (by simp) e
      exact absurd i5 (by decide)
    | cons ha' hv' hb' hl' =>
      simp only [List.append_assoc (_ ++ _ ++ _), List.cons_append] at e
      obtain ⟨i1, i2, i3, i4, _, i6⟩ := element_split (value_split h) h hv' ha ha' hb hb' (by simp) (by simp) e
      obtain ⟨j1, j2, j3⟩ := elems_split hl _ _ _ _ hl' i6
      subst i1 i2 i3 i4 j1 j2
      exact ⟨rfl, rfl, j3⟩
theorem members_split {l : List (List Char × JText)} {t : List Char} : IsMembers l t → ∀ l' t' r r', IsMembers l' t' →
    t ++ '}' :: r = t' ++ '}' :: r' → l = l' ∧ t = t' ∧ r = r'
  | .one ha hk hb hc h hd => fun l' t' r r' h' e => by
    cases h' with
    | one ha' hk' hb' hc' hv' hd' =>
      obtain ⟨rfl, rfl, i3, _, i5⟩ := member_split (value_split h) h hv' hk hk' ha ha' hb hb' hc hc' hd hd' (by simp) (by simp) e
      exact ⟨rfl, i3, i5⟩
    | cons ha' hk' hb' hc' hv' hd' hl' =>
      rw [List.append_assoc _ (',' :: _), List.cons_append] at e
      obtain ⟨_, _, _, i4, _⟩ := member_split (value_split h) h hv' hk hk' ha ha' hb hb' hc hc' hd hd' (by simp) (by simp) e
      exact absurd i4 (by decide)
  | .cons ha hk hb hc h hd hl => fun l' t' r r' h' e => by
    cases h' with
    | one ha' hk' hb' hc' hv' hd' =>
      rw [List.append_assoc _ (',' :: _), List.cons_append] at e
      obtain ⟨_, _, _, i4, _⟩ := member_split (value_split h) h hv' hk hk' ha ha' hb hb' hc hc' hd hd' (by simp) (by simp) e
      exact absurd i4 (by decide)
    | cons ha' hk' hb' hc' hv' hd' hl' =>
      rw [List.append_assoc _ (',' :: _), List.cons_append, List.append_assoc _ (',' :: _), List.cons_append] at e
      obtain ⟨rfl, rfl, i3, _, i5⟩ := member_split (value_split h) h hv' hk hk' ha ha' hb hb' hc hc' hd hd' (by simp) (by simp) e
      obtain ⟨rfl, rfl, j3⟩ := members_split hl _ _ _ _ hl' i5
      exact ⟨rfl, by rw [i3], j3⟩
end

/-- **C100** (JSON is unambiguous). A text denotes at most one JSON value. -/
theorem C100_unique (v v' : JText) (t : List Char) (h : IsDocument v t) (h' : IsDocument v' t) : v = v' := by
  obtain ⟨a, u, b, ha, hu, hb, rfl⟩ := h
  obtain ⟨a', u', b', ha', hu', hb', e⟩ := h'
  obtain ⟨c, q, eu, hk⟩ := value_head hu
  obtain ⟨c', q', eu', hk'⟩ := value_head hu'
  have e1 := e
  rw [eu, eu'] at e1
  simp only [List.append_assoc, List.cons_append] at e1
  obtain ⟨rfl, _, _⟩ := ws_split ha ha' (head_not_ws hk) (head_not_ws hk') e1
  simp only [List.append_assoc] at e
  have fol : ∀ w : List Char, IsWs w → Follow w := fun w hw c q ec => by
    subst ec
    exact .inr (.inr (.inr (ws_chars hw c List.mem_cons_self)))
  exact (value_split hu v' u' b b' hu' (fol b hb) (fol b' hb') (List.append_cancel_left e)).1

/-- **C100** (traces). Whoever reads the text of `get_trace_json` by the rules of JSON reads exactly the recorded events. -/
theorem C100_trace (events : List Trace.Event) (h : ∀ e ∈ events, SafeName e.name) (v : JText) :
    IsDocument v (Trace.traceJson events) ↔ v = traceObject events :=
  ⟨fun hv => C100_unique _ _ _ hv (C62_valid_json events h), fun e => e ▸ C62_valid_json events h⟩

/-- **C100** (nothing is lost). Equal trace texts come from events that agree in number, order, name, start, process, thread
and duration in whole microseconds. -/
theorem C100_events (a b : List Trace.Event) (ha : ∀ e ∈ a, SafeName e.name) (hb : ∀ e ∈ b, SafeName e.name)
    (h : Trace.traceJson a = Trace.traceJson b) :
    a.map (fun e => (e.name, e.ts, e.pid, e.tid, e.durNs.tdiv 1000))
      = b.map (fun e => (e.name, e.ts, e.pid, e.tid, e.durNs.tdiv 1000)) := by
  have e := (C100_trace b hb (traceObject a)).mp (h ▸ C62_valid_json a ha)
  unfold traceObject at e
  simp only [JText.obj.injEq, List.cons.injEq, Prod.mk.injEq, JText.arr.injEq, true_and, and_true] at e
  clear h
  revert b
  induction a with
  | nil =>
    intro b hb e
    cases b with
    | nil => rfl
    | cons _ _ => cases e
  | cons x a ih =>
    intro b hb e
    cases b with
    | nil => cases e
    | cons y b =>
      simp only [List.map_cons, List.cons.injEq] at e
      have e1 := e.1
      unfold eventObject at e1
      simp only [JText.obj.injEq, List.cons.injEq, Prod.mk.injEq, JText.int.injEq, JText.str.injEq, true_and, and_true,
        Nat.cast_inj] at e1
      rw [List.map_cons, List.map_cons, e1.1, e1.2.1, e1.2.2.1, e1.2.2.2.1, e1.2.2.2.2]
      congr 1
      refine ih (fun e m => ha e (List.mem_cons_of_mem _ m)) b (fun e m => hb e (List.mem_cons_of_mem _ m)) e.2

end MiniOpt.Props
