import Verif.Model.EigenLDLT
import Verif.Spec.QPSpec
import Mathlib.LinearAlgebra.Matrix.ToLinearEquiv
import Mathlib.Algebra.BigOperators.Group.Finset.Basic

/-!
# The diagonal-pivoting factorisation in exact arithmetic
-/

set_option autoImplicit false

namespace MiniOpt.LDLT

open MiniOpt

variable {ι : Type} [DecidableEq ι]

/-! ## The pivot order -/

theorem foldl_max (key : ι → ℝ) : ∀ (rest : List ι) (k : ι),
    (rest.foldl (fun m i => if key m < key i then i else m) k ∈ k :: rest) ∧
    ∀ i ∈ k :: rest, key i ≤ key (rest.foldl (fun m i => if key m < key i then i else m) k)
  | [], k => by simp
  | i :: rest, k => by
    obtain ⟨h1, h2⟩ := foldl_max key rest (if key k < key i then i else k)
    rw [List.foldl_cons]
    refine ⟨?_, ?_⟩
    · rcases List.mem_cons.mp h1 with h | h
      · rw [h]
        split_ifs <;> simp
      · simp [h]
    · intro l hl
      have hb := h2 _ List.mem_cons_self
      rcases List.mem_cons.mp hl with rfl | hl
      · refine le_trans ?_ hb
        split_ifs with h
        · exact h.le
        · exact le_rfl
      · rcases List.mem_cons.mp hl with rfl | hl
        · refine le_trans ?_ hb
          split_ifs with h
          · exact le_rfl
          · exact not_lt.mp h
        · exact h2 l (List.mem_cons_of_mem _ hl)

theorem firstMax_mem (key : ι → ℝ) (k : ι) (rest : List ι) : firstMax key k rest ∈ k :: rest := (foldl_max key rest k).1

theorem firstMax_max (key : ι → ℝ) (k : ι) (rest : List ι) : ∀ i ∈ k :: rest, key i ≤ key (firstMax key k rest) :=
  (foldl_max key rest k).2

theorem swap_perm {m k : ι} {rest : List ι} (hn : (k :: rest).Nodup) (hm : m ∈ rest) :
    (m :: rest.map fun i => if i = m then k else i).Perm (k :: rest) := by
  obtain ⟨a, b, rfl⟩ := List.append_of_mem hm
  have hn' := (List.nodup_cons.mp hn).2
  have hma : m ∉ a := fun h => (List.nodup_append.mp hn').2.2 m h m (by simp) rfl
  have hmb : m ∉ b := (List.nodup_cons.mp (List.nodup_append.mp hn').2.1).1
  have ea : a.map (fun i => if i = m then k else i) = a := by
    conv_rhs => rw [← List.map_id a]
    refine List.map_congr_left fun i hi => ?_
    rw [if_neg (fun h : i = m => hma (h ▸ hi))]; rfl
  have eb : b.map (fun i => if i = m then k else i) = b := by
    conv_rhs => rw [← List.map_id b]
    refine List.map_congr_left fun i hi => ?_
    rw [if_neg (fun h : i = m => hmb (h ▸ hi))]; rfl
  rw [List.map_append, List.map_cons, ea, eb, if_pos rfl]
  have h1 : (m :: (a ++ k :: b)).Perm (m :: k :: (a ++ b)) := List.Perm.cons _ List.perm_middle
  have h2 : (k :: (a ++ m :: b)).Perm (k :: m :: (a ++ b)) := List.Perm.cons _ List.perm_middle
  exact h1.trans ((List.Perm.swap _ _ _).trans h2.symm)

theorem pivotOrder_perm (key : ι → ℝ) : ∀ (n : Nat) (l : List ι), l.length = n → l.Nodup → (pivotOrder key n l).Perm l
  | 0, l, hl, _ => by rw [List.length_eq_zero_iff.mp hl]; exact List.Perm.refl _
  | n + 1, [], hl, _ => by simp at hl
  | n + 1, k :: rest, hl, hn => by
    have hl' : rest.length = n := by simpa using hl
    unfold pivotOrder
    dsimp only
    split_ifs with hm
    · exact List.Perm.cons _ (pivotOrder_perm key n rest hl' (List.nodup_cons.mp hn).2)
    · have hmem : firstMax key k rest ∈ rest := (List.mem_cons.mp (firstMax_mem key k rest)).resolve_left hm
      have hp := swap_perm hn hmem
      have hnd : (rest.map fun i => if i = firstMax key k rest then k else i).Nodup :=
        (List.nodup_cons.mp (hp.nodup_iff.mpr hn)).2
      exact (List.Perm.cons _ (pivotOrder_perm key n _ (by simpa using hl') hnd)).trans hp

theorem pivotOrder_sorted (key : ι → ℝ) : ∀ (n : Nat) (l : List ι), l.length = n → l.Nodup →
    (pivotOrder key n l).Pairwise fun i j => key j ≤ key i
  | 0, l, hl, _ => List.Pairwise.nil
  | n + 1, [], hl, _ => by simp at hl
  | n + 1, k :: rest, hl, hn => by
    have hl' : rest.length = n := by simpa using hl
    have hmax := firstMax_max key k rest
    unfold pivotOrder
    dsimp only
    split_ifs with hm
    · rw [hm] at hmax
      refine List.pairwise_cons.mpr ⟨fun i hi => ?_, pivotOrder_sorted key n rest hl' (List.nodup_cons.mp hn).2⟩
      exact hmax i (List.mem_cons_of_mem _ ((pivotOrder_perm key n rest hl' (List.nodup_cons.mp hn).2).mem_iff.mp hi))
    · have hmem : firstMax key k rest ∈ rest := (List.mem_cons.mp (firstMax_mem key k rest)).resolve_left hm
      have hp := swap_perm hn hmem
      have hnd : (rest.map fun i => if i = firstMax key k rest then k else i).Nodup :=
        (List.nodup_cons.mp (hp.nodup_iff.mpr hn)).2
      refine List.pairwise_cons.mpr ⟨fun i hi => ?_, pivotOrder_sorted key n _ (by simpa using hl') hnd⟩
      have hi' := (pivotOrder_perm key n _ (by simpa using hl') hnd).mem_iff.mp hi
      exact hmax i (hp.mem_iff.mp (List.mem_cons_of_mem _ hi'))

/-- Rows with the least key keep their places behind the others. -/
theorem pivotOrder_append (key : ι → ℝ) (B : List ι) : ∀ (A : List ι), (A ++ B).Nodup →
    (∀ a ∈ A, ∀ b ∈ B, key b ≤ key a) → (∀ b ∈ B, ∀ b' ∈ B, key b ≤ key b') →
    pivotOrder key (A ++ B).length (A ++ B) = pivotOrder key A.length A ++ B := by
  have hB : ∀ (B : List ι), (∀ b ∈ B, ∀ b' ∈ B, key b ≤ key b') → pivotOrder key B.length B = B := by
    intro B
    induction B with
    | nil => intro _; rfl
    | cons b B ih =>
      intro hbb
      have : firstMax key b B = b := by
        have : ∀ (l : List ι), (∀ x ∈ l, key x ≤ key b) → l.foldl (fun m i => if key m < key i then i else m) b = b := by
          intro l
          induction l with
          | nil => intro _; rfl
          | cons x l ihl =>
            intro hx
            rw [List.foldl_cons, if_neg (not_lt.mpr (hx x List.mem_cons_self))]
            exact ihl fun y hy => hx y (List.mem_cons_of_mem _ hy)
        exact this B fun x hx => hbb x (List.mem_cons_of_mem _ hx) b List.mem_cons_self
      show pivotOrder key (B.length + 1) (b :: B) = _
      unfold pivotOrder
      dsimp only
      rw [this, if_pos rfl, ih fun x hx y hy => hbb x (List.mem_cons_of_mem _ hx) y (List.mem_cons_of_mem _ hy)]
  intro A
  induction hn : A.length generalizing A with
  | zero =>
    intro _ _ h3
    rw [List.length_eq_zero_iff.mp hn]
    exact hB B h3
  | succ n ih =>
    intro h1 h2 h3
    cases A with
    | nil => simp at hn
    | cons k A =>
      have hA : A.length = n := by simpa using hn
      have hfm : firstMax key k (A ++ B) = firstMax key k A := by
        unfold firstMax
        rw [List.foldl_append]
        have hm := firstMax_mem key k A
        unfold firstMax at hm
        generalize A.foldl (fun m i => if key m < key i then i else m) k = m at hm
        have : ∀ l : List ι, (∀ x ∈ l, key x ≤ key m) → l.foldl (fun m i => if key m < key i then i else m) m = m := by
          intro l
          induction l with
          | nil => intro _; rfl
          | cons x l ihl =>
            intro hx
            rw [List.foldl_cons, if_neg (not_lt.mpr (hx x List.mem_cons_self))]
            exact ihl fun y hy => hx y (List.mem_cons_of_mem _ hy)
        exact this B fun x hx => h2 m hm x hx
      have hlen : (k :: A ++ B).length = (A ++ B).length + 1 := by simp
      rw [hlen]
      show pivotOrder key ((A ++ B).length + 1) (k :: (A ++ B)) = _
      unfold pivotOrder
      dsimp only
      rw [hfm]
      split_ifs with hm
      · rw [ih A hA (List.nodup_cons.mp h1).2 (fun a ha => h2 a (List.mem_cons_of_mem _ ha)) h3]
        rfl
      · have hmem : firstMax key k A ∈ A := (List.mem_cons.mp (firstMax_mem key k A)).resolve_left hm
        set m := firstMax key k A
        have hmB : m ∉ B := fun h => (List.nodup_append.mp h1).2.2 m (List.mem_cons_of_mem _ hmem) m h rfl
        have eB : B.map (fun i => if i = m then k else i) = B := by
          conv_rhs => rw [← List.map_id B]
          refine List.map_congr_left fun i hi => ?_
          rw [if_neg (fun h : i = m => hmB (h ▸ hi))]; rfl
        have hkA : (k :: A).Nodup := (List.nodup_append.mp h1).1
        have hp := swap_perm hkA hmem
        rw [List.map_append, eB]
        have hl2 : (A ++ B).length = (A.map (fun i => if i = m then k else i) ++ B).length := by simp
        rw [hl2, ih (A.map fun i => if i = m then k else i) (by simpa using hA) ?_ ?_ h3]
        · rfl
        · have : (m :: (A.map (fun i => if i = m then k else i) ++ B)).Perm (k :: A ++ B) := hp.append_right B
          exact (List.nodup_cons.mp (this.nodup_iff.mpr h1)).2
        · intro a ha b hb
          exact h2 a (hp.mem_iff.mp (List.mem_cons_of_mem _ ha)) b hb

/-! ## Substitution -/

theorem substitute_spec (L : ι → ι → ℝ) (b : ι → ℝ) : ∀ (rest pre : List ι) (y : ι → ℝ), (pre ++ rest).Nodup →
    (∀ i, i ∉ rest → substitute L b pre rest y i = y i) ∧
    ∀ (a : List ι) (k : ι) (c : List ι), rest = a ++ k :: c → substitute L b pre rest y k
      = b k - ((pre ++ a).map fun j => L k j * substitute L b pre rest y j).sum
  | [], pre, y, _ => ⟨fun _ _ => rfl, fun a k c h => by simp at h⟩
  | k :: rest, pre, y, hn => by
    have hn' : ((pre ++ [k]) ++ rest).Nodup := by simpa using hn
    obtain ⟨h1, h2⟩ := substitute_spec L b rest (pre ++ [k])
      (Function.update y k (b k - Scalar.sum (pre.map fun j => L k j * y j))) hn'
    have hk : k ∉ rest := (List.nodup_cons.mp (List.nodup_append.mp hn).2.1).1
    have hpre : ∀ j ∈ pre, j ≠ k ∧ j ∉ rest := fun j hj =>
      ⟨fun h => (List.nodup_append.mp hn).2.2 j hj k (by simp) h, fun h => (List.nodup_append.mp hn).2.2 j hj j (by simp [h]) rfl⟩
    rw [substitute]
    set r := substitute L b (pre ++ [k]) rest (Function.update y k (b k - Scalar.sum (pre.map fun j => L k j * y j)))
    refine ⟨fun i hi => ?_, fun a k' c h => ?_⟩
    · rw [h1 i (fun h => hi (List.mem_cons_of_mem _ h)), Function.update_of_ne (fun h : i = k => hi (by rw [h]; exact List.mem_cons_self))]
    · cases a with
      | nil =>
        obtain ⟨rfl, rfl⟩ := List.cons.inj h
        rw [h1 k hk, Function.update_self, real_sum, List.append_nil]
        congr 2
        refine List.map_congr_left fun j hj => ?_
        rw [h1 j (hpre j hj).2, Function.update_of_ne (hpre j hj).1]
      | cons x a =>
        obtain ⟨rfl, rfl⟩ := List.cons.inj h
        rw [h2 a k' c rfl]
        simp

/-- A unit triangular factor: `L` is zero on and above the diagonal, in the order of the list. -/
structure UnitLower (L : ι → ι → ℝ) (order : List ι) : Prop where
  nodup : order.Nodup
  diag : ∀ i, L i i = 0
  upper : order.Pairwise fun i j => L i j = 0

/-- `I + L`. -/
def unit (L : ι → ι → ℝ) (i j : ι) : ℝ := L i j + if i = j then 1 else 0

theorem sum_unit_row {L : ι → ι → ℝ} {order : List ι} (hn : order.Nodup) {k : ι} (hk : k ∈ order) (r : ι → ℝ) :
    (order.map fun j => unit L k j * r j).sum = (order.map fun j => L k j * r j).sum + r k := by
  have e : (fun j => unit L k j * r j) = fun j => L k j * r j + (if j = k then r k else 0) := by
    funext j
    unfold unit
    by_cases h : j = k
    · subst h; simp [add_mul]
    · simp [h, Ne.symm h]
  rw [e, List.sum_map_add]
  congr 1
  have : ∀ (l : List ι), l.Nodup → k ∈ l → (l.map fun j => if j = k then r k else 0).sum = r k := by
    intro l
    induction l with
    | nil => intro _ h; simp at h
    | cons x l ih =>
      intro hn hm
      rw [List.map_cons, List.sum_cons]
      by_cases hx : x = k
      · subst hx
        rw [if_pos rfl, List.sum_eq_zero, add_zero]
        intro v hv
        obtain ⟨j, hj, rfl⟩ := List.mem_map.mp hv
        rw [if_neg (fun h : j = x => (List.nodup_cons.mp hn).1 (h ▸ hj))]
      · rw [if_neg hx, zero_add]
        exact ih (List.nodup_cons.mp hn).2 ((List.mem_cons.mp hm).resolve_left (Ne.symm hx))
  exact this order hn hk

omit [DecidableEq ι] in
theorem sum_zero_part {L : ι → ℝ} {r : ι → ℝ} {l : List ι} (h : ∀ j ∈ l, L j = 0) : (l.map fun j => L j * r j).sum = 0 := by
  refine List.sum_eq_zero fun v hv => ?_
  obtain ⟨j, hj, rfl⟩ := List.mem_map.mp hv
  rw [h j hj, zero_mul]

/-- Forward substitution solves the lower triangular system. -/
theorem forward_solves {L : ι → ι → ℝ} {order : List ι} (hL : UnitLower L order) (b : ι → ℝ) (y : ι → ℝ) :
    ∀ k ∈ order, (order.map fun j => unit L k j * substitute L b [] order y j).sum = b k := by
  intro k hk
  rw [sum_unit_row hL.nodup hk]
  obtain ⟨a, c, rfl⟩ := List.append_of_mem hk
  have h := (substitute_spec L b (a ++ k :: c) [] y (by simpa using hL.nodup)).2 a k c rfl
  rw [List.nil_append] at h
  rw [List.map_append, List.sum_append, List.map_cons, List.sum_cons, hL.diag k, zero_mul, zero_add]
  have hc := (List.pairwise_cons.mp (List.pairwise_append.mp hL.upper).2.1).1
  rw [sum_zero_part (L := fun j => L k j) hc]
  linarith

/-- Backward substitution solves the transposed system. -/
theorem backward_solves {L : ι → ι → ℝ} {order : List ι} (hL : UnitLower L order) (b : ι → ℝ) (y : ι → ℝ) :
    ∀ k ∈ order, (order.map fun j => unit L j k * substitute (fun i j => L j i) b [] order.reverse y j).sum = b k := by
  intro k hk
  have hU : (fun j => unit L j k * substitute (fun i j => L j i) b [] order.reverse y j)
      = fun j => unit (fun i j => L j i) k j * substitute (fun i j => L j i) b [] order.reverse y j := by
    funext j
    unfold unit
    congr 2
    by_cases h : j = k
    · subst h; simp
    · simp [h, Ne.symm h]
  rw [hU, sum_unit_row hL.nodup hk]
  obtain ⟨a, c, rfl⟩ := List.append_of_mem hk
  have hrev : (a ++ k :: c).reverse = c.reverse ++ k :: a.reverse := by simp
  have h := (substitute_spec (fun i j => L j i) b (a ++ k :: c).reverse [] y
    (by simpa using List.nodup_reverse.mpr hL.nodup)).2 c.reverse k a.reverse hrev
  rw [List.nil_append] at h
  rw [List.map_append, List.sum_append, List.map_cons, List.sum_cons]
  have hd : (fun i j => L j i) k k = 0 := hL.diag k
  rw [show L k k = 0 from hL.diag k, zero_mul, zero_add]
  have ha : ∀ j ∈ a, L j k = 0 := fun j hj => (List.pairwise_append.mp hL.upper).2.2 j hj k (by simp)
  rw [sum_zero_part (L := fun j => L j k) ha]
  have hsum : (c.reverse.map fun j => L j k * substitute (fun i j => L j i) b [] (a ++ k :: c).reverse y j).sum
      = (c.map fun j => L j k * substitute (fun i j => L j i) b [] (a ++ k :: c).reverse y j).sum := by
    rw [List.map_reverse, List.sum_reverse]
  rw [hsum] at h
  linarith

/-! ## The factorisation -/

/-- Entry `(i, i')` of `(I + L) D (I + L)ᵀ`. -/
def ldl (f : Fact ι ℝ) (i i' : ι) : ℝ := (f.done.map fun j => unit f.L i j * (f.D j * unit f.L i' j)).sum

omit [DecidableEq ι] in
theorem entry_real (f : Fact ι ℝ) (H : ι → ι → ℝ) (i k : ι) :
    f.entry H i k = H i k - (f.done.map fun j => f.L i j * (f.D j * f.L k j)).sum := by
  unfold Fact.entry
  split
  · rename_i h; rw [h]; simp
  · rw [real_sum]

/-- The state between two steps, while `info()` is still `Success`. -/
structure Inv (H : ι → ι → ℝ) (f : Fact ι ℝ) (rest : List ι) : Prop where
  nodup : (f.done ++ rest).Nodup
  unused : ∀ i j, j ∉ f.done → f.L i j = 0
  diag : ∀ i, f.L i i = 0
  upper : f.done.Pairwise fun i j => f.L i j = 0
  square : ∀ i ∈ f.done, ∀ i' ∈ f.done, H i i' = ldl f i i'
  below : f.ok = true → ∀ i ∈ f.done, ∀ i' ∈ rest, H i i' = ldl f i i'

theorem Inv.lower {H : ι → ι → ℝ} {f : Fact ι ℝ} {rest : List ι} (h : Inv H f rest) : UnitLower f.L f.done :=
  ⟨(List.nodup_append.mp h.nodup).1, h.diag, h.upper⟩

theorem step_inv {H : ι → ι → ℝ} (hs : ∀ i j, H i j = H j i) {f : Fact ι ℝ} {k : ι} {rs : List ι} (hi : Inv H f (k :: rs))
    (hok : f.ok = true) : Inv H (f.step H k rs) rs := by
  have hkd : k ∉ f.done := fun h => (List.nodup_append.mp hi.nodup).2.2 k h k (by simp) rfl
  have hkr : k ∉ rs := (List.nodup_cons.mp (List.nodup_append.mp hi.nodup).2.1).1
  have hrd : ∀ i ∈ rs, i ∉ f.done := fun i hir h => (List.nodup_append.mp hi.nodup).2.2 i h i (by simp [hir]) rfl
  set g := f.step H k rs with hg
  have gdone : g.done = f.done ++ [k] := rfl
  have gL : ∀ i j, j ≠ k → g.L i j = f.L i j := fun i j hj => by
    show (if j = k ∧ i ∈ rs then _ else f.L i j) = _
    rw [if_neg (fun h => hj h.1)]
  have gLk0 : ∀ i, i ∉ rs → g.L i k = 0 := fun i hir => by
    show (if k = k ∧ i ∈ rs then _ else f.L i k) = _
    rw [if_neg (fun h => hir h.2)]
    exact hi.unused i k hkd
  have gD : ∀ j, j ≠ k → g.D j = f.D j := fun j hj => Function.update_of_ne hj _ _
  have gDk : g.D k = f.entry H k k := Function.update_self _ _ _
  have hdiag : ∀ i, g.L i i = 0 := by
    intro i
    by_cases h : i = k
    · subst h; exact gLk0 i hkr
    · rw [gL i i h]; exact hi.diag i
  have gunit : ∀ i j, j ≠ k → unit g.L i j = unit f.L i j := fun i j hj => by unfold unit; rw [gL i j hj]
  have hldl : ∀ i i', ldl g i i' = ldl f i i' + unit g.L i k * (g.D k * unit g.L i' k) := by
    intro i i'
    unfold ldl
    rw [gdone, List.map_append, List.sum_append]
    simp only [List.map_cons, List.map_nil, List.sum_cons, List.sum_nil, add_zero]
    congr 2
    refine List.map_congr_left fun j hj => ?_
    have hjk : j ≠ k := fun h => hkd (h ▸ hj)
    rw [gunit i j hjk, gunit i' j hjk, gD j hjk]
  have huk : ∀ i ∈ f.done, unit g.L i k = 0 := by
    intro i hid
    unfold unit
    rw [gLk0 i (fun h => hrd i h hid), if_neg (fun h : i = k => hkd (h ▸ hid))]; ring
  have hkk : unit g.L k k = 1 := by unfold unit; rw [hdiag k]; simp
  have hnotin : ∀ i, i ∉ f.done → ∀ i', i' ∉ f.done → ldl f i i' = (f.done.map fun j => f.L i j * (f.D j * f.L i' j)).sum := by
    intro i hid i' hid'
    unfold ldl
    congr 1
    refine List.map_congr_left fun j hj => ?_
    unfold unit
    rw [if_neg (fun h : i = j => hid (h ▸ hj)), if_neg (fun h : i' = j => hid' (h ▸ hj)), add_zero, add_zero]
  have hkk' : H k k = ldl g k k := by
    rw [hldl, hkk, gDk, entry_real, hnotin k hkd k hkd]; ring
  have hld_symm : ∀ i i', ldl g i i' = ldl g i' i := by
    intro i i'
    unfold ldl
    congr 1
    exact List.map_congr_left fun j _ => by ring
  have hold : ∀ i ∈ f.done, ldl g i k = ldl f i k := fun i hid => by rw [hldl, huk i hid]; ring
  refine ⟨?_, ?_, hdiag, ?_, ?_, ?_⟩
  · rw [gdone, List.append_assoc]; exact hi.nodup
  · intro i j hj
    rw [gdone] at hj
    have hjk : j ≠ k := fun h => hj (by simp [h])
    rw [gL i j hjk]
    exact hi.unused i j fun h => hj (by simp [h])
  · rw [gdone, List.pairwise_append]
    refine ⟨?_, List.pairwise_singleton _ _, ?_⟩
    · refine List.Pairwise.imp_of_mem ?_ hi.upper
      intro i j hid hjd h
      rw [gL i j (fun h => hkd (h ▸ hjd))]; exact h
    · intro i hid j hj
      rw [List.mem_singleton.mp hj]
      exact gLk0 i fun h => hrd i h hid
  · intro i hid i' hid'
    rw [gdone] at hid hid'
    rcases List.mem_append.mp hid with h1 | h1 <;> rcases List.mem_append.mp hid' with h2 | h2
    · rw [hldl, huk i h1, hi.square i h1 i' h2]; ring
    · rw [List.mem_singleton.mp h2, hold i h1]
      exact hi.below hok i h1 k (by simp)
    · rw [List.mem_singleton.mp h1, hld_symm, hold i' h2, hs]
      exact hi.below hok i' h2 k (by simp)
    · rw [List.mem_singleton.mp h1, List.mem_singleton.mp h2]; exact hkk'
  · intro hgok i hid i' hir
    rw [gdone] at hid
    rcases List.mem_append.mp hid with h1 | h1
    · rw [hldl, huk i h1, hi.below hok i h1 i' (List.mem_cons_of_mem _ hir)]; ring
    · rw [List.mem_singleton.mp h1]
      have hik : i' ≠ k := fun h => hkr (h ▸ hir)
      have hud : unit g.L i' k = g.L i' k := by unfold unit; rw [if_neg hik, add_zero]
      rw [hldl, hkk, one_mul, hud, hnotin k hkd i' (hrd i' hir)]
      have hLik : g.L i' k = if decide (0 < Scalar.abs (f.entry H k k)) then f.entry H i' k / f.entry H k k else f.entry H i' k := by
        show (if k = k ∧ i' ∈ rs then _ else f.L i' k) = _
        rw [if_pos ⟨rfl, hir⟩]
      have hprod : g.D k * g.L i' k = f.entry H i' k := by
        rw [hLik, gDk]
        by_cases hv : 0 < |f.entry H k k|
        · have hv' : decide (0 < Scalar.abs (f.entry H k k)) = true := decide_eq_true hv
          rw [if_pos hv']
          have hne : f.entry H k k ≠ 0 := fun h => by rw [h] at hv; simp at hv
          field_simp
        · have hv' : decide (0 < Scalar.abs (f.entry H k k)) = false := decide_eq_false hv
          have hgo : (f.ok && (decide (0 < Scalar.abs (f.entry H k k)) || rs.all fun i => decide (Scalar.feq (f.entry H i k) 0))
              && !(f.zeroPivot && decide (0 < Scalar.abs (f.entry H k k)))) = true := hgok
          rw [hv', Bool.false_or, Bool.and_eq_true, Bool.and_eq_true] at hgo
          have h0 := of_decide_eq_true (List.all_eq_true.mp hgo.1.2 i' hir)
          rw [real_feq] at h0
          rw [hv', if_neg (by simp), h0, mul_zero]
      rw [hprod, entry_real, hs i' k]
      have : (f.done.map fun j => f.L k j * (f.D j * f.L i' j)).sum = (f.done.map fun j => f.L i' j * (f.D j * f.L k j)).sum := by
        congr 1
        exact List.map_congr_left fun j _ => by ring
      rw [this]; ring

theorem step_ok {H : ι → ι → ℝ} {f : Fact ι ℝ} {k : ι} {rs : List ι} (h : (f.step H k rs).ok = true) : f.ok = true := by
  unfold Fact.step at h
  dsimp only at h
  rw [Bool.and_eq_true, Bool.and_eq_true] at h
  exact h.1.1

theorem steps_ok {H : ι → ι → ℝ} : ∀ {rest : List ι} {f : Fact ι ℝ}, (Fact.steps H rest f).ok = true → f.ok = true
  | [], _, h => h
  | _ :: _, _, h => step_ok (steps_ok h)

theorem steps_done {H : ι → ι → ℝ} : ∀ (rest : List ι) (f : Fact ι ℝ), (Fact.steps H rest f).done = f.done ++ rest
  | [], f => by simp [Fact.steps]
  | k :: rs, f => by
    rw [Fact.steps, steps_done rs]
    show (f.done ++ [k]) ++ rs = _
    simp

theorem steps_inv {H : ι → ι → ℝ} (hs : ∀ i j, H i j = H j i) : ∀ {rest : List ι} {f : Fact ι ℝ}, Inv H f rest →
    (Fact.steps H rest f).ok = true → Inv H (Fact.steps H rest f) []
  | [], _, hi, _ => hi
  | k :: rs, f, hi, hok => by
    have hok' : (Fact.steps H rs (f.step H k rs)).ok = true := hok
    show Inv H (Fact.steps H rs (f.step H k rs)) []
    exact steps_inv hs (step_inv hs hi (step_ok (steps_ok hok'))) hok'

theorem start_inv (H : ι → ι → ℝ) {order : List ι} (hn : order.Nodup) :
    Inv H ⟨[], fun _ _ => 0, fun _ => 0, false, true⟩ order :=
  ⟨by simpa using hn, fun _ _ _ => rfl, fun _ => rfl, List.Pairwise.nil, fun i h => by simp at h, fun _ i h => by simp at h⟩

/-- The products of a factored matrix with a vector. -/
theorem ldl_mul (f : Fact ι ℝ) (i : ι) (v : ι → ℝ) :
    (f.done.map fun i' => ldl f i i' * v i').sum
      = (f.done.map fun j => unit f.L i j * (f.D j * (f.done.map fun i' => unit f.L i' j * v i').sum)).sum := by
  unfold ldl
  have key : ∀ (a b : List ι), (a.map fun i' => (b.map fun j => unit f.L i j * (f.D j * unit f.L i' j)).sum * v i').sum
      = (b.map fun j => unit f.L i j * (f.D j * (a.map fun i' => unit f.L i' j * v i').sum)).sum := by
    intro a b
    induction a with
    | nil => simp
    | cons x a ih =>
      rw [List.map_cons, List.sum_cons, ih, ← List.sum_map_mul_right, ← List.sum_map_add]
      congr 1
      refine List.map_congr_left fun j _ => ?_
      rw [List.map_cons, List.sum_cons]; ring
  exact key _ _

/-- A zero pivot yields a vector that the factored part of the matrix sends to zero. -/
theorem null_vector {H : ι → ι → ℝ} {f : Fact ι ℝ} (hL : UnitLower f.L f.done)
    (hsq : ∀ i ∈ f.done, ∀ i' ∈ f.done, H i i' = ldl f i i') {k : ι} (hk : k ∈ f.done) (hd : f.D k = 0) :
    ∃ v : ι → ℝ, v ≠ 0 ∧ (∀ i, i ∉ f.done → v i = 0) ∧ ∀ i ∈ f.done, (f.done.map fun j => H i j * v j).sum = 0 := by
  set e : ι → ℝ := fun i => if i = k then 1 else 0
  set v := substitute (fun i j => f.L j i) e [] f.done.reverse (fun _ => 0) with hv
  have hsol := backward_solves hL e (fun _ => 0)
  rw [← hv] at hsol
  refine ⟨v, ?_, ?_, ?_⟩
  · intro h0
    have := hsol k hk
    rw [h0] at this
    have hz : (f.done.map fun j => unit f.L j k * (0 : ι → ℝ) j).sum = 0 :=
      List.sum_eq_zero fun x hx => by obtain ⟨j, _, rfl⟩ := List.mem_map.mp hx; simp
    rw [hz] at this
    simp [e] at this
  · intro i hid
    exact (substitute_spec _ e f.done.reverse [] (fun _ => 0) (by simpa using List.nodup_reverse.mpr hL.nodup)).1 i (by simpa using hid)
  · intro i hid
    have e1 : (f.done.map fun j => H i j * v j) = f.done.map fun j => ldl f i j * v j :=
      List.map_congr_left fun j hj => by rw [hsq i hid j hj]
    rw [e1, ldl_mul]
    refine List.sum_eq_zero fun x hx => ?_
    obtain ⟨j, hj, rfl⟩ := List.mem_map.mp hx
    rw [hsol j hj]
    by_cases h : j = k
    · subst h; rw [hd]; ring
    · simp [e, h]

end MiniOpt.LDLT
