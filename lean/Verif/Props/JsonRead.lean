import Verif.Spec.JsonMeaning
import Verif.Props.JsonUnique
import Verif.Props.Serialization

/-!
# C100: reading the outputs of a solve from text
-/

set_option autoImplicit false

namespace MiniOpt.Props

open MiniOpt MiniOpt.Spec MiniOpt.Ser MiniOpt.Cpp

variable {α : Type} [Scalar α]

/-- Two values that differ in the order of members only. -/
inductive Reordered : Json α → Json α → Prop where
  | null : Reordered .null .null
  | bool (b : Bool) : Reordered (.bool b) (.bool b)
  | int (i : Int) : Reordered (.int i) (.int i)
  | num (x : α) : Reordered (.num x) (.num x)
  | str (s : String) : Reordered (.str s) (.str s)
  | arr {l m : List (Json α)} : l.length = m.length →
      (∀ (i : Nat) a b, l[i]? = some a → m[i]? = some b → Reordered a b) → Reordered (.arr l) (.arr m)
  | obj {l m : List (String × Json α)} : (∀ k, (lookup k l).isSome = (lookup k m).isSome) →
      (∀ k a b, lookup k l = some a → lookup k m = some b → Reordered a b) → Reordered (.obj l) (.obj m)

/-- A way of reading that does not see the order of members. -/
def Blind {β : Type} (g : Json α → β) : Prop := ∀ i j, Reordered i j → g i = g j

/-- Two outcomes of looking up a member. -/
def SameOutcome (a b : Except JErr (Json α)) : Prop :=
  (∃ e, a = .error e ∧ b = .error e) ∨ ∃ i j, a = .ok i ∧ b = .ok j ∧ Reordered i j

theorem lookup_same {l m : List (String × Json α)} (h : ∀ k, (lookup k l).isSome = (lookup k m).isSome)
    (h2 : ∀ k a b, lookup k l = some a → lookup k m = some b → Reordered a b) (k : String) :
    (lookup k l = none ∧ lookup k m = none) ∨ ∃ a b, lookup k l = some a ∧ lookup k m = some b ∧ Reordered a b := by
  have hk := h k
  cases e : lookup k l with
  | none => rw [e] at hk; left; exact ⟨rfl, by cases e' : lookup k m with
      | none => rfl
      | some b => rw [e'] at hk; cases hk⟩
  | some a =>
    rw [e] at hk
    cases e' : lookup k m with
    | none => rw [e'] at hk; cases hk
    | some b => right; exact ⟨a, b, rfl, rfl, h2 k a b e e'⟩

theorem at_same {i j : Json α} (h : Reordered i j) (k : String) : SameOutcome (at' i k) (at' j k) := by
  cases h with
  | obj h1 h2 =>
    rename_i l m
    unfold at'
    dsimp only
    rcases lookup_same h1 h2 k with ⟨e1, e2⟩ | ⟨a, b, e1, e2, e3⟩
    · rw [e1, e2]; exact .inl ⟨_, rfl, rfl⟩
    · rw [e1, e2]; exact .inr ⟨a, b, rfl, rfl, e3⟩
  | _ => exact .inl ⟨_, rfl, rfl⟩

theorem index_same {i j : Json α} (h : Reordered i j) (k : String) : SameOutcome (index i k) (index j k) := by
  cases h with
  | obj h1 h2 =>
    rename_i l m
    unfold index
    dsimp only
    rcases lookup_same h1 h2 k with ⟨e1, e2⟩ | ⟨a, b, e1, e2, e3⟩
    · rw [e1, e2]; exact .inl ⟨_, rfl, rfl⟩
    · rw [e1, e2]; exact .inr ⟨a, b, rfl, rfl, e3⟩
  | _ => exact .inl ⟨_, rfl, rfl⟩

theorem contains_same {i j : Json α} (h : Reordered i j) (k : String) : contains i k = contains j k := by
  cases h with
  | obj h1 h2 => exact h1 k
  | _ => rfl

theorem bind_same {β : Type} {a b : Except JErr (Json α)} (h : SameOutcome a b) {g : Json α → Except JErr β}
    (hg : Blind g) : (a >>= g) = (b >>= g) := by
  rcases h with ⟨e, rfl, rfl⟩ | ⟨i, j, rfl, rfl, hr⟩
  · rfl
  · exact hg i j hr

theorem blind_double : Blind (getDouble : Json α → Except JErr α) := by
  intro i j h
  cases h <;> rfl

theorem blind_int : Blind (getInt : Json α → Except JErr Int) := by
  intro i j h
  cases h <;> rfl

theorem blind_enum {ε : Type} (first : ε × String) (rest : List (ε × String)) :
    Blind (getEnum first rest : Json α → ε) := by
  intro i j h
  cases h <;> rfl

theorem blind_list {β : Type} {g : Json α → Except JErr β} (hg : Blind g) : Blind (getList g) := by
  intro i j h
  cases h with
  | arr h1 h2 =>
    rename_i l m
    show l.mapM g = m.mapM g
    have key : ∀ (l m : List (Json α)), l.length = m.length →
        (∀ (i : Nat) a b, l[i]? = some a → m[i]? = some b → Reordered a b) → l.mapM g = m.mapM g := by
      intro l
      induction l with
      | nil => intro m h1 _; cases m with
        | nil => rfl
        | cons _ _ => cases h1
      | cons a l ih => intro m h1 h2; cases m with
        | nil => cases h1
        | cons b m =>
          rw [List.mapM_cons, List.mapM_cons, hg a b (h2 0 a b rfl rfl),
            ih m (by simpa using h1) fun i x y hx hy => h2 (i + 1) x y hx hy]
    exact key l m h1 h2
  | _ => rfl

theorem blind_opt {β : Type} {g : Json α → Except JErr β} (hg : Blind g) : Blind (getOpt g) := by
  intro i j h
  have e := hg i j h
  cases h with
  | null => rfl
  | _ => first | rfl | (simp only [getOpt]; rw [e])

theorem blind_errors : Blind (getErrors : Json α → _) := by
  intro i j h
  unfold getErrors
  rw [bind_same (at_same h _) blind_double, bind_same (at_same h _) blind_double]

theorem blind_eigen : Blind (getEigen : Json α → _) := by
  intro i j h
  unfold getEigen
  rw [bind_same (at_same h _) blind_double, bind_same (at_same h _) blind_double, bind_same (at_same h _) blind_double]

theorem blind_deriv : Blind (getDeriv : Json α → _) := by
  intro i j h
  unfold getDeriv
  rw [bind_same (at_same h _) blind_double, bind_same (at_same h _) blind_double]

theorem blind_step : Blind (getStep : Json α → _) := by
  intro i j h
  unfold getStep
  rw [bind_same (at_same h _) blind_double, bind_same (at_same h _) blind_errors]

theorem blind_alpha : Blind (getAlpha : Json α → _) := by
  intro i j h
  unfold getAlpha
  rw [bind_same (at_same h _) blind_double, bind_same (at_same h _) blind_double]

theorem blind_ip : Blind (getIP : Json α → _) := by
  intro i j h
  unfold getIP
  rw [bind_same (at_same h _) blind_double, bind_same (at_same h _) blind_alpha, bind_same (at_same h _) blind_alpha,
    bind_same (at_same h _) blind_double]

theorem blind_kkt : Blind (getKKT : Json α → _) := by
  intro i j h
  unfold getKKT
  rw [bind_same (at_same h _) blind_double, bind_same (at_same h _) blind_double, bind_same (at_same h _) blind_double,
    bind_same (at_same h _) blind_double]

theorem blind_qpIter : Blind (getQPIter : Json α → _) := by
  intro i j h
  unfold getQPIter
  rw [bind_same (at_same h _) blind_kkt, bind_same (at_same h _) blind_kkt, bind_same (at_same h _) blind_ip]

theorem blind_lagrange : Blind (getLagrange : Json α → _) := by
  intro i j h
  unfold getLagrange
  rw [bind_same (at_same h _) blind_double, bind_same (at_same h _) blind_double]

theorem blind_qpOuts : Blind (getQPOuts : Json α → _) := by
  intro i j h
  unfold getQPOuts
  rw [bind_same (at_same h _) (blind_list blind_qpIter), bind_same (at_same h _) (blind_opt blind_lagrange)]
  exact bind_same (at_same h _) fun a b hab => by rw [blind_enum _ _ a b hab]

theorem blind_qpRes : Blind (getQPRes : Json α → _) := by
  intro i j h
  unfold getQPRes
  rw [contains_same h, contains_same h, blind_qpOuts i j h, blind_enum _ _ i j h]

theorem blind_iter : Blind (getIter : Json α → _) := by
  intro i j h
  unfold getIter
  rw [bind_same (index_same h _) blind_int, bind_same (index_same h _) blind_double, bind_same (index_same h _) blind_errors,
    bind_same (index_same h _) blind_qpRes, bind_same (index_same h _) (blind_opt blind_eigen),
    bind_same (index_same h _) blind_deriv, bind_same (index_same h _) blind_double,
    bind_same (index_same h _) (blind_list blind_step)]
  rcases index_same h "optimizer_state" with ⟨e, h1, h2⟩ | ⟨x, y, h1, h2, hxy⟩
  · simp only [h1, h2]
    rfl
  · rcases index_same h "step_result" with ⟨e, h3, h4⟩ | ⟨x', y', h3, h4, hxy'⟩
    · simp only [h1, h2, h3, h4]
      rfl
    · simp only [h1, h2, h3, h4, bind, Except.bind, blind_enum _ _ x y hxy, blind_enum _ _ x' y' hxy']

theorem blind_outputs : Blind (fromJson : Json α → _) := by
  intro i j h
  unfold fromJson
  rw [bind_same (index_same h _) (blind_list blind_iter)]
  exact bind_same (index_same h _) fun a b hab => by rw [blind_enum _ _ a b hab]

/-! ## From text to value and back -/

theorem lookup_through (k : String) (l : List (String × Json α)) :
    lookup k (throughTextFields l) = (lookup k l).map throughText := by
  induction l with
  | nil => rfl
  | cons p l ih =>
    obtain ⟨k', v⟩ := p
    simp only [throughTextFields, lookup]
    split_ifs
    · rfl
    · exact ih

theorem throughTextList_map (l : List (Json α)) : throughTextList l = l.map throughText := by
  induction l with
  | nil => rfl
  | cons a l ih => simp only [throughTextList, List.map_cons, ih]

theorem lookup_isSome (k : String) (l : List (String × Json α)) : (lookup k l).isSome = true ↔ k ∈ l.map Prod.fst := by
  induction l with
  | nil => simp [lookup]
  | cons p l ih =>
    obtain ⟨k', v⟩ := p
    simp only [lookup, List.map_cons, List.mem_cons]
    split_ifs with h
    · simp [h]
    · rw [ih]
      constructor
      · exact .inr
      · rintro (e | e)
        · exact absurd e.symm h
        · exact e

theorem member_some {k : List Char} {m : List (List Char × JText)} (h : k ∈ m.map Prod.fst) : ∃ b, member k m = some b := by
  induction m with
  | nil => simp at h
  | cons p m ih =>
    obtain ⟨k', v⟩ := p
    simp only [member]
    split_ifs with e
    · exact ⟨v, rfl⟩
    · rw [List.map_cons, List.mem_cons] at h
      rcases h with h | h
      · exact absurd h.symm e
      · exact ih h

theorem parsed_element {l : List (Json α)} (h : throughTextList l = l) {i : Nat} {a : Json α} (ha : l[i]? = some a) :
    Parsed a := by
  rw [throughTextList_map] at h
  have := congrArg (fun l : List (Json α) => l[i]?) h
  simp only [List.getElem?_map, ha, Option.map_some] at this
  exact Option.some.inj this

theorem parsed_member {l : List (String × Json α)} (h : throughTextFields l = l) {k : String} {a : Json α}
    (ha : lookup k l = some a) : Parsed a := by
  have := lookup_through k l
  rw [h, ha] at this
  exact (Option.some.inj this).symm

/-- Two values held by the same JSON value differ in the order of members only, once what is not a number is lost. -/
theorem means_reordered {fmt : α → List Char} (hf : Lossless fmt) {i : Json α} {v : JText} (h : Means fmt i v) :
    ∀ {j : Json α}, Means fmt j v → Parsed j → Reordered (throughText i) j := by
  induction h with
  | null =>
    intro j hj hp
    cases hj with
    | null => exact .null
    | nonFinite hx =>
      exfalso
      unfold Parsed throughText at hp
      rw [if_neg hx] at hp
      cases hp
  | bool b => intro j hj hp; cases hj; exact .bool b
  | int i => intro j hj hp; cases hj; exact .int i
  | num hx =>
    rename_i x
    intro j hj hp
    unfold throughText
    rw [if_pos hx]
    generalize hv : JText.num (fmt x) = v at hj
    cases hj with
    | num hy =>
      injection hv with hv
      rw [hf.2 _ _ hx hy hv]
      exact .num _
    | _ => cases hv
  | nonFinite hx =>
    intro j hj hp
    unfold throughText
    rw [if_neg hx]
    cases hj with
    | null => exact .null
    | nonFinite hx =>
      exfalso
      unfold Parsed throughText at hp
      rw [if_neg hx] at hp
      cases hp
  | str s =>
    intro j hj hp
    generalize hv : JText.str s.toList = v at hj
    cases hj with
    | str s' =>
      injection hv with hv
      rw [String.toList_inj.mp hv]
      exact .str _
    | _ => cases hv
  | arr h1 h2 ih =>
    rename_i l m
    intro j hj hp
    cases hj with
    | arr h1' h2' =>
      rename_i l'
      have hl' : throughTextList l' = l' := by
        unfold Parsed throughText at hp
        injection hp
      unfold throughText
      rw [throughTextList_map]
      refine .arr (by rw [List.length_map, h1, h1']) fun i a b ha hb => ?_
      rw [List.getElem?_map, Option.map_eq_some_iff] at ha
      obtain ⟨a', ha', rfl⟩ := ha
      have hi : i < m.length := h1 ▸ (List.getElem?_eq_some_iff.mp ha').1
      exact ih i a' m[i] ha' (List.getElem?_eq_getElem hi) (h2' i b m[i] hb (List.getElem?_eq_getElem hi))
        (parsed_element hl' hb)
  | obj hn hm hk1 hk2 hmm ih =>
    rename_i l m
    intro j hj hp
    cases hj with
    | obj hn' hm' hk1' hk2' h' =>
      rename_i l'
      have hl' : throughTextFields l' = l' := by
        unfold Parsed throughText at hp
        injection hp
      unfold throughText
      have keys : ∀ k : String, k ∈ l.map Prod.fst ↔ k ∈ l'.map Prod.fst := by
        intro k
        constructor
        · intro hk
          obtain ⟨s, hs, e⟩ := hk1' _ (hk2 k hk)
          rwa [String.toList_inj.mp e]
        · intro hk
          obtain ⟨s, hs, e⟩ := hk1 _ (hk2' k hk)
          rwa [String.toList_inj.mp e]
      refine .obj (fun k => ?_) fun k a b ha hb => ?_
      · rw [lookup_through, Option.isSome_map, Bool.eq_iff_iff, lookup_isSome, lookup_isSome, keys]
      · rw [lookup_through, Option.map_eq_some_iff] at ha
        obtain ⟨a', ha', rfl⟩ := ha
        have hk : k ∈ l.map Prod.fst := (lookup_isSome k l).mp (by rw [ha']; rfl)
        obtain ⟨c, hc⟩ := member_some (hk2 k hk)
        exact ih k a' c ha' hc (h' k b c hb hc) (parsed_member hl' hb)

/-- **C100** (files). Suppose the outputs of a solve were written as a JSON text: in any order of members, with any white
space, any escaping of strings, and any way of writing doubles that loses nothing. Whatever value is read from that text
by the rules of JSON, the library's reader makes the same outputs of it if all doubles in them are finite, and throws a
type error otherwise. -/
theorem C100_files (fmt : α → List Char) (hf : Lossless fmt) (o : Outputs α) (v : JText) (hv : Means fmt (toJson o) v)
    (t : List Char) (ht : IsDocument v t) (j : Json α) (v' : JText) (hv' : Means fmt j v') (ht' : IsDocument v' t)
    (hj : Parsed j) :
    ((∀ x ∈ doubles o, Scalar.isFinite x) → fromJson j = .ok o) ∧
    (¬ (∀ x ∈ doubles o, Scalar.isFinite x) → fromJson j = .error .typeError) := by
  have e := C100_unique v v' t ht ht'
  subst e
  have hr := means_reordered hf hv hv' hj
  rw [← blind_outputs _ _ hr]
  exact C58_text_round_trip o

/-- **C100** (order of members). The reader does not see in which order the members of an object stand. -/
theorem C100_order (i j : Json α) (h : Reordered i j) : fromJson i = fromJson j := blind_outputs i j h

end MiniOpt.Props
