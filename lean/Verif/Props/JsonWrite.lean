import Verif.Props.JsonRead
import Verif.Lemmas.F64

/-!
# C100: the outputs of every solve can be written as JSON text

So the hypotheses of `C100_files` can be met, for all outputs.
-/

set_option autoImplicit false

namespace MiniOpt.Props

open MiniOpt MiniOpt.Spec MiniOpt.Ser MiniOpt.Cpp

/-! ## Writing any JSON value -/

/-- A hexadecimal digit. -/
def hexDigit (d : Nat) : Char := if d < 10 then Char.ofNat (48 + d) else Char.ofNat (87 + d)

theorem hexDigit_isHex {d : Nat} (h : d < 16) : IsHex d (hexDigit d) := by
  unfold IsHex
  interval_cases d <;> decide

/-- A string between quotes. -/
def escapeStr : List Char → List Char
  | [] => []
  | c :: s =>
    if c = '"' then '\\' :: '"' :: escapeStr s
    else if c = '\\' then '\\' :: '\\' :: escapeStr s
    else if c.toNat < 32 then '\\' :: 'u' :: '0' :: '0' :: hexDigit (c.toNat / 16) :: hexDigit (c.toNat % 16) :: escapeStr s
    else c :: escapeStr s

theorem escapeStr_isStr (s : List Char) : IsStr s (escapeStr s) := by
  induction s with
  | nil => exact .nil
  | cons c s ih =>
    unfold escapeStr
    split_ifs with h1 h2 h3
    · subst h1; exact .esc (by simp [escapes]) ih
    · subst h2; exact .esc (by simp [escapes]) ih
    · have h := IsStr.unicode (a := 0) (b := 0) (x := '0') (y := '0') (by unfold IsHex; decide) (by unfold IsHex; decide)
        (hexDigit_isHex (d := c.toNat / 16) (by omega)) (hexDigit_isHex (d := c.toNat % 16) (by omega)) ih
      have e : (((0 * 16 + 0) * 16 + c.toNat / 16) * 16 + c.toNat % 16) = c.toNat := by omega
      rw [e, Char.ofNat_toNat] at h
      exact h
    · exact .plain h1 h2 (by omega) ih

mutual
/-- A text without white space. -/
def compact : JText → List Char
  | .null => "null".toList
  | .bool true => "true".toList
  | .bool false => "false".toList
  | .int i => Trace.fmtInt i
  | .num t => t
  | .str s => '"' :: escapeStr s ++ ['"']
  | .arr l => '[' :: compactList l ++ [']']
  | .obj l => '{' :: compactFields l ++ ['}']
/-- Elements. -/
def compactList : List JText → List Char
  | [] => []
  | [v] => compact v
  | v :: vs => compact v ++ ',' :: compactList vs
/-- Members. -/
def compactFields : List (List Char × JText) → List Char
  | [] => []
  | [(k, v)] => ('"' :: escapeStr k ++ ['"']) ++ ':' :: compact v
  | (k, v) :: ms => ('"' :: escapeStr k ++ ['"']) ++ ':' :: compact v ++ ',' :: compactFields ms
end

/-- All numbers of a value are JSON numbers. -/
inductive Writable : JText → Prop where
  | null : Writable .null
  | bool (b : Bool) : Writable (.bool b)
  | int (i : Int) : Writable (.int i)
  | num {t : List Char} : IsFrac t → Writable (.num t)
  | str (s : List Char) : Writable (.str s)
  | arr {l : List JText} : (∀ v ∈ l, Writable v) → Writable (.arr l)
  | obj {l : List (List Char × JText)} : (∀ p ∈ l, Writable p.2) → Writable (.obj l)

theorem compact_isValue {v : JText} (h : Writable v) : IsValue v (compact v) := by
  induction h with
  | null => exact .null
  | bool b => cases b; exact .false; exact .true
  | int i => exact .int (fmtInt_isInt i)
  | num h => exact .num h
  | str s => exact .str (escapeStr_isStr s)
  | arr h ih =>
    rename_i l
    cases l with
    | nil => exact .arrNil isWs_nil
    | cons v vs =>
      have key : ∀ (vs : List JText) (v : JText), (∀ x ∈ v :: vs, IsValue x (compact x)) →
          IsElems (v :: vs) (compactList (v :: vs)) := by
        intro vs
        induction vs with
        | nil =>
          intro v hx
          have := IsElems.one isWs_nil (hx v List.mem_cons_self) isWs_nil
          simpa [compactList] using this
        | cons w vs ih2 =>
          intro v hx
          have := IsElems.cons isWs_nil (hx v List.mem_cons_self) isWs_nil
            (ih2 w fun x hm => hx x (List.mem_cons_of_mem _ hm))
          simpa [compactList] using this
      exact .arr (key vs v ih)
  | obj h ih =>
    rename_i l
    cases l with
    | nil => exact .objNil isWs_nil
    | cons p ps =>
      have key : ∀ (ps : List (List Char × JText)) (p : List Char × JText), (∀ x ∈ p :: ps, IsValue x.2 (compact x.2)) →
          IsMembers (p :: ps) (compactFields (p :: ps)) := by
        intro ps
        induction ps with
        | nil =>
          rintro ⟨k, v⟩ hx
          have := IsMembers.one isWs_nil (escapeStr_isStr k) isWs_nil isWs_nil (hx (k, v) List.mem_cons_self) isWs_nil
          simpa [compactFields] using this
        | cons w ps ih2 =>
          rintro ⟨k, v⟩ hx
          have := IsMembers.cons isWs_nil (escapeStr_isStr k) isWs_nil isWs_nil (hx (k, v) List.mem_cons_self) isWs_nil
            (ih2 w fun x hm => hx x (List.mem_cons_of_mem _ hm))
          simpa [compactFields] using this
      exact .obj (key ps p ih)

/-! ## The values the library writes -/

variable {α : Type} [Scalar α]

mutual
/-- The JSON value of a value of the library, members in the order given. -/
def asText (fmt : α → List Char) : Json α → JText
  | .null => .null
  | .bool b => .bool b
  | .int i => .int i
  | .num x => if Scalar.isFinite x then .num (fmt x) else .null
  | .str s => .str s.toList
  | .arr l => .arr (asTextList fmt l)
  | .obj l => .obj (asTextFields fmt l)
/-- Elements. -/
def asTextList (fmt : α → List Char) : List (Json α) → List JText
  | [] => []
  | j :: js => asText fmt j :: asTextList fmt js
/-- Members. -/
def asTextFields (fmt : α → List Char) : List (String × Json α) → List (List Char × JText)
  | [] => []
  | (k, j) :: js => (k.toList, asText fmt j) :: asTextFields fmt js
end

theorem asTextList_map (fmt : α → List Char) (l : List (Json α)) : asTextList fmt l = l.map (asText fmt) := by
  induction l with
  | nil => rfl
  | cons a l ih => simp only [asTextList, List.map_cons, ih]

theorem asTextFields_map (fmt : α → List Char) (l : List (String × Json α)) :
    asTextFields fmt l = l.map fun p => (p.1.toList, asText fmt p.2) := by
  induction l with
  | nil => rfl
  | cons a l ih => obtain ⟨k, j⟩ := a; simp only [asTextFields, List.map_cons, ih]

/-- No object has a member twice. -/
inductive Distinct : Json α → Prop where
  | null : Distinct .null
  | bool (b : Bool) : Distinct (.bool b)
  | int (i : Int) : Distinct (.int i)
  | num (x : α) : Distinct (.num x)
  | str (s : String) : Distinct (.str s)
  | arr {l : List (Json α)} : (∀ j ∈ l, Distinct j) → Distinct (.arr l)
  | obj {l : List (String × Json α)} : (l.map Prod.fst).Nodup → (∀ p ∈ l, Distinct p.2) → Distinct (.obj l)

theorem lookup_mem {k : String} {l : List (String × Json α)} {a : Json α} (h : lookup k l = some a) : (k, a) ∈ l := by
  induction l with
  | nil => cases h
  | cons p l ih =>
    obtain ⟨k', v⟩ := p
    simp only [lookup] at h
    split_ifs at h with e
    · cases h; subst e; exact List.mem_cons_self
    · exact List.mem_cons_of_mem _ (ih h)

theorem member_fields (fmt : α → List Char) (k : String) (l : List (String × Json α)) :
    member k.toList (asTextFields fmt l) = (lookup k l).map (asText fmt) := by
  induction l with
  | nil => rfl
  | cons p l ih =>
    obtain ⟨k', v⟩ := p
    simp only [asTextFields, member, lookup, String.toList_inj]
    split_ifs
    · rfl
    · exact ih

theorem asText_means (fmt : α → List Char) {j : Json α} (h : Distinct j) : Means fmt j (asText fmt j) := by
  induction h with
  | null => exact .null
  | bool b => exact .bool b
  | int i => exact .int i
  | num x =>
    unfold asText
    split_ifs with hx
    · exact .num hx
    · exact .nonFinite hx
  | str s => exact .str s
  | arr h ih =>
    rename_i l
    unfold asText
    rw [asTextList_map]
    refine .arr (by simp) fun i a b ha hb => ?_
    rw [List.getElem?_map, ha, Option.map_some] at hb
    cases hb
    exact ih a (List.mem_of_getElem? ha)
  | obj hn h ih =>
    rename_i l
    unfold asText
    have hk : (asTextFields fmt l).map Prod.fst = (l.map Prod.fst).map String.toList := by
      rw [asTextFields_map, List.map_map, List.map_map]; rfl
    refine .obj hn ?_ ?_ ?_ ?_
    · rw [hk]
      exact hn.map fun a b e => String.toList_inj.mp e
    · intro k hm
      rw [hk, List.mem_map] at hm
      obtain ⟨s, hs, e⟩ := hm
      exact ⟨s, hs, e.symm⟩
    · intro s hs
      rw [hk]
      exact List.mem_map_of_mem hs
    · intro s a b ha hb
      rw [member_fields, ha, Option.map_some] at hb
      cases hb
      exact ih (s, a) (lookup_mem ha)

theorem asText_writable {fmt : α → List Char} (hf : ∀ x : α, Scalar.isFinite x → IsFrac (fmt x)) {j : Json α}
    (h : Distinct j) : Writable (asText fmt j) := by
  induction h with
  | null => exact .null
  | bool b => exact .bool b
  | int i => exact .int i
  | num x =>
    unfold asText
    split_ifs with hx
    · exact .num (hf x hx)
    · exact .null
  | str s => exact .str _
  | arr h ih =>
    unfold asText
    rw [asTextList_map]
    refine .arr fun v hv => ?_
    obtain ⟨j, hj, rfl⟩ := List.mem_map.mp hv
    exact ih j hj
  | obj hn h ih =>
    unfold asText
    rw [asTextFields_map]
    refine .obj fun p hp => ?_
    obtain ⟨q, hq, rfl⟩ := List.mem_map.mp hp
    exact ih q hq

theorem distinct_through {j : Json α} (h : Distinct j) : Distinct (throughText j) := by
  induction h with
  | null => exact .null
  | bool b => exact .bool b
  | int i => exact .int i
  | num x =>
    unfold throughText
    split_ifs
    · exact .num x
    · exact .null
  | str s => exact .str _
  | arr h ih =>
    unfold throughText
    rw [throughTextList_map]
    refine .arr fun v hv => ?_
    obtain ⟨j, hj, rfl⟩ := List.mem_map.mp hv
    exact ih j hj
  | obj hn h ih =>
    rename_i l
    unfold throughText
    have e : throughTextFields l = l.map fun p => (p.1, throughText p.2) := by
      clear hn h ih
      induction l with
      | nil => rfl
      | cons a l ih => obtain ⟨k, j⟩ := a; simp only [throughTextFields, List.map_cons, ih]
    rw [e]
    refine .obj (by simpa [List.map_map, Function.comp_def] using hn) fun p hp => ?_
    obtain ⟨q, hq, rfl⟩ := List.mem_map.mp hp
    exact ih q hq

theorem distinct_enum {ε : Type} [DecidableEq ε] (first : ε × String) (rest : List (ε × String)) (e : ε) :
    Distinct (enumJson first rest e : Json α) := by
  unfold enumJson
  split <;> exact .str _

theorem distinct_list {β : Type} {f : β → Json α} (h : ∀ b, Distinct (f b)) (l : List β) : Distinct (.arr (l.map f)) :=
  .arr fun j hj => by obtain ⟨b, _, rfl⟩ := List.mem_map.mp hj; exact h b

theorem distinct_opt {β : Type} {f : β → Json α} (h : ∀ b, Distinct (f b)) (o : Option β) : Distinct (optJson f o) := by
  cases o with
  | none => exact .null
  | some b => exact h b

theorem distinct_toJson (o : Outputs α) : Distinct (toJson o) := by
  have hE : ∀ e : Errors α, Distinct (errorsJson Json.num e) := fun e => .obj (by simp only [List.map_cons, List.map_nil]; decide) (by
    simp only [List.forall_mem_cons, List.not_mem_nil, false_imp_iff, implies_true, and_true]
    exact ⟨.num _, .num _⟩)
  have hG : ∀ e : QPEigenvalues α, Distinct (eigenJson Json.num e) := fun e => .obj (by simp only [List.map_cons, List.map_nil]; decide) (by
    simp only [List.forall_mem_cons, List.not_mem_nil, false_imp_iff, implies_true, and_true]
    exact ⟨.num _, .num _, .num _⟩)
  have hD : ∀ e : DirectionalDerivatives α, Distinct (derivJson Json.num e) := fun e => .obj (by simp only [List.map_cons, List.map_nil]; decide) (by
    simp only [List.forall_mem_cons, List.not_mem_nil, false_imp_iff, implies_true, and_true]
    exact ⟨.num _, .num _⟩)
  have hS : ∀ e : LineSearchStep α, Distinct (stepJson Json.num e) := fun e => .obj (by simp only [List.map_cons, List.map_nil]; decide) (by
    simp only [List.forall_mem_cons, List.not_mem_nil, false_imp_iff, implies_true, and_true]
    exact ⟨.num _, hE _⟩)
  have hA : ∀ e : AlphaValues α, Distinct (alphaJson Json.num e) := fun e => .obj (by simp only [List.map_cons, List.map_nil]; decide) (by
    simp only [List.forall_mem_cons, List.not_mem_nil, false_imp_iff, implies_true, and_true]
    exact ⟨.num _, .num _⟩)
  have hI : ∀ e : IPOutputs α, Distinct (ipJson Json.num e) := fun e => .obj (by simp only [List.map_cons, List.map_nil]; decide) (by
    simp only [List.forall_mem_cons, List.not_mem_nil, false_imp_iff, implies_true, and_true]
    exact ⟨.num _, hA _, hA _, .num _⟩)
  have hK : ∀ e : KKTError α, Distinct (kktJson Json.num e) := fun e => .obj (by simp only [List.map_cons, List.map_nil]; decide) (by
    simp only [List.forall_mem_cons, List.not_mem_nil, false_imp_iff, implies_true, and_true]
    exact ⟨.num _, .num _, .num _, .num _⟩)
  have hQ : ∀ e : QPIter α, Distinct (qpIterJson Json.num e) := fun e => .obj (by simp only [List.map_cons, List.map_nil]; decide) (by
    simp only [List.forall_mem_cons, List.not_mem_nil, false_imp_iff, implies_true, and_true]
    exact ⟨hK _, hK _, hI _⟩)
  have hL : ∀ e : QPLagrangeMultipliers α, Distinct (lagrangeJson Json.num e) := fun e => .obj (by simp only [List.map_cons, List.map_nil]; decide) (by
    simp only [List.forall_mem_cons, List.not_mem_nil, false_imp_iff, implies_true, and_true]
    exact ⟨.num _, .num _⟩)
  have hO : ∀ e : QPOuts α, Distinct (qpOutsJson Json.num e) := fun e => .obj (by simp only [List.map_cons, List.map_nil]; decide) (by
    simp only [List.forall_mem_cons, List.not_mem_nil, false_imp_iff, implies_true, and_true]
    exact ⟨distinct_enum _ _ _, distinct_list hQ _, distinct_opt hL _⟩)
  have hR : ∀ e : QPRes α, Distinct (qpResJson Json.num e) := fun e => by
    cases e with
    | nullSpace t => exact distinct_enum _ _ _
    | interiorPoint o => exact hO o
  have hit : ∀ e : Iter α, Distinct (iterJson Json.num e) := fun e => .obj (by simp only [List.map_cons, List.map_nil]; decide) (by
    simp only [List.forall_mem_cons, List.not_mem_nil, false_imp_iff, implies_true, and_true]
    exact ⟨.int _, distinct_enum _ _ _, .num _, hE _, hR _, distinct_opt hG _, hD _, .num _, distinct_enum _ _ _,
      distinct_list hS _⟩)
  exact .obj (by simp only [List.map_cons, List.map_nil]; decide) (by
    simp only [List.forall_mem_cons, List.not_mem_nil, false_imp_iff, implies_true, and_true]
    exact ⟨distinct_enum _ _ _, distinct_list hit _⟩)

theorem through_through {j : Json α} (h : Distinct j) : Parsed (throughText j) := by
  unfold Parsed
  induction h with
  | num x =>
    simp only [throughText]
    split_ifs with hx
    · simp only [throughText, if_pos hx]
    · rfl
  | arr h ih =>
    simp only [throughText, throughTextList_map, List.map_map]
    congr 1
    exact List.map_congr_left ih
  | obj hn h ih =>
    rename_i l
    have e : ∀ l : List (String × Json α), throughTextFields l = l.map fun p => (p.1, throughText p.2) := by
      intro l
      induction l with
      | nil => rfl
      | cons a l ih => obtain ⟨k, j⟩ := a; simp only [throughTextFields, List.map_cons, ih]
    simp only [throughText, e, List.map_map]
    congr 1
    exact List.map_congr_left fun p hp => by simp only [Function.comp_apply]; rw [ih p hp]
  | _ => rfl

/-- **C100** (every log can be written, and can be read). For every way of writing doubles that loses nothing, the outputs
of every solve have a JSON text, and there is a value to be read from it, so that `C100_files` says what becomes of it. -/
theorem C100_written (fmt : α → List Char) (hf : Lossless fmt) (o : Outputs α) :
    ∃ v t j v', Means fmt (toJson o) v ∧ IsDocument v t ∧ Means fmt j v' ∧ IsDocument v' t ∧ Parsed j := by
  have hd := distinct_toJson o
  have h := compact_isValue (asText_writable hf.1 hd)
  have e : ∀ {j : Json α}, Distinct j → asText fmt (throughText j) = asText fmt j := by
    intro j hj
    induction hj with
    | num x =>
      simp only [throughText]
      split_ifs with hx
      · rfl
      · simp only [asText, if_neg hx]
    | arr h ih =>
      simp only [throughText, throughTextList_map, asText, asTextList_map, List.map_map]
      congr 1
      exact List.map_congr_left ih
    | obj hn h ih =>
      rename_i l
      have e : ∀ l : List (String × Json α), throughTextFields l = l.map fun p => (p.1, throughText p.2) := by
        intro l
        induction l with
        | nil => rfl
        | cons a l ih => obtain ⟨k, j⟩ := a; simp only [throughTextFields, List.map_cons, ih]
      simp only [throughText, e, asText, asTextFields_map, List.map_map]
      congr 1
      exact List.map_congr_left fun p hp => by simp only [Function.comp_apply]; rw [ih p hp]
    | _ => rfl
  refine ⟨asText fmt (toJson o), compact (asText fmt (toJson o)), throughText (toJson o), asText fmt (toJson o),
    asText_means fmt hd, ⟨[], _, [], isWs_nil, h, isWs_nil, by simp⟩, ?_, ⟨[], _, [], isWs_nil, h, isWs_nil, by simp⟩,
    through_through hd⟩
  have := asText_means fmt (distinct_through hd)
  rwa [e hd] at this

/-! ## Writing doubles -/

/-- A lossless way of writing doubles: numerator, `e`, denominator (any injective choice will do here). -/
def plainDouble : F64 → List Char
  | .fin s m => (if s then ['-'] else []) ++ Trace.digits m.1.num.toNat ++ 'e' :: Trace.digits m.1.den
  | _ => []

theorem digits_all (n : Nat) : ∃ c ds, Trace.digits n = c :: ds ∧ ∀ x ∈ c :: ds, ∃ d, IsDigit d x := by
  obtain ⟨c, ds, d, e, _⟩ := isNat_head (digits_isNat n)
  exact ⟨c, ds, e, fun x hx => isNat_digits (digits_isNat n) x (e ▸ hx)⟩

theorem digits_inj {m n : Nat} (h : Trace.digits m = Trace.digits n) : m = n :=
  isNat_unique (digits_isNat m) (h ▸ digits_isNat n)

/-- **C100** (not vacuous): doubles can be written without loss. -/
theorem C100_doubles (L : Libm) : Lossless (α := Dbl L) plainDouble := by
  have notE : ∀ n, ∀ c ∈ Trace.digits n, (fun c : Char => !(c == 'e')) c = true := fun n c hc => by
    obtain ⟨d, hd⟩ := isNat_digits (digits_isNat n) c hc
    simpa using (digit_not hd).2.1
  have split : ∀ a b c d : Nat, Trace.digits a ++ 'e' :: Trace.digits b = Trace.digits c ++ 'e' :: Trace.digits d →
      a = c ∧ b = d := by
    intro a b c d e
    have := block_split (fun c : Char => !(c == 'e')) (notE a) (notE c) (fun x y h => by cases h; rfl)
      (fun x y h => by cases h; rfl) e
    exact ⟨digits_inj this.1, digits_inj (List.cons.inj this.2).2⟩
  constructor
  · intro x hx
    change F64.isFinite x = true at hx
    generalize (x : F64) = y at hx
    cases y with
    | nan => cases hx
    | inf s => cases hx
    | fin s m =>
      obtain ⟨c, ds, e, hd⟩ := digits_all m.1.den
      have hi : ∃ i, IsInt i ((if s then ['-'] else []) ++ Trace.digits m.1.num.toNat) := by
        cases s with
        | false => exact ⟨_, .pos (digits_isNat _)⟩
        | true => exact ⟨_, .neg (digits_isNat _)⟩
      obtain ⟨i, hi⟩ := hi
      have := IsFrac.mk (f := []) (e := 'e' :: [] ++ c :: ds) hi (.inl rfl)
        (.inr ⟨'e', [], c, ds, .inl rfl, .inl rfl, rfl, hd⟩) (.inr (by simp))
      unfold plainDouble
      simpa [e] using this
  · intro x y hx hy h
    change F64.isFinite x = true at hx
    change F64.isFinite y = true at hy
    have key : ∀ x y : F64, F64.isFinite x = true → F64.isFinite y = true → plainDouble x = plainDouble y → x = y := by
      intro x y hx hy h
      cases x with
      | nan => cases hx
      | inf s => cases hx
      | fin s m =>
        cases y with
        | nan => cases hy
        | inf s => cases hy
        | fin s' m' =>
          have sign : ∀ n q q', Trace.digits n ++ q ≠ '-' :: q' := by
            intro n q q' e
            obtain ⟨c, ds, ec, hd⟩ := digits_all n
            rw [ec] at e
            obtain ⟨d, hd'⟩ := hd c List.mem_cons_self
            exact (digit_not hd').2.2.2 (List.cons.inj e).1
          have hs : s = s' ∧ m.1.num.toNat = m'.1.num.toNat ∧ m.1.den = m'.1.den := by
            unfold plainDouble at h
            cases s with
            | false =>
              cases s' with
              | false => exact ⟨rfl, split _ _ _ _ (by simpa using h)⟩
              | true => exact absurd (by simpa using h) (sign _ _ _)
            | true =>
              cases s' with
              | false => exact absurd (by simpa using h.symm) (sign _ _ _)
              | true => exact ⟨rfl, split _ _ _ _ (by simpa using h)⟩
          obtain ⟨rfl, h1, h2⟩ := hs
          have nn : ∀ m : Mag, 0 ≤ m.1.num := fun m => Rat.num_nonneg.mpr (by
            obtain ⟨k, e, _, _, hq⟩ := m.2.1
            rw [hq]
            exact mul_nonneg (Nat.cast_nonneg k) (F64.pow2_pos e).le)
          have : m = m' := Subtype.ext (Rat.ext (by have := nn m; have := nn m'; omega) h2)
          rw [this]
    exact key x y hx hy h

end MiniOpt.Props
