import Verif.Lemmas.LDLT
import Verif.Lemmas.RoundOff
import Verif.Spec.LDLTRoundOffSpec

/-!
# Rounding errors of the factorisation: one entry at a time
-/

set_option autoImplicit false

namespace MiniOpt.LDLT

open MiniOpt

/-! ## What the algorithm computes, whatever the arithmetic -/

section Generic

variable {ι : Type} [DecidableEq ι] {α : Type} [Scalar α]

theorem foldl_mem (key : ι → α) : ∀ (rest : List ι) (k : ι),
    rest.foldl (fun m i => if key m < key i then i else m) k ∈ k :: rest
  | [], k => by simp
  | i :: rest, k => by
    have h := foldl_mem key rest (if key k < key i then i else k)
    rw [List.foldl_cons]
    rcases List.mem_cons.mp h with h | h
    · rw [h]; split_ifs <;> simp
    · simp [h]

theorem pivots_perm (key : ι → α) : ∀ (n : Nat) (l : List ι), l.length = n → l.Nodup → (pivotOrder key n l).Perm l
  | 0, l, hl, _ => by rw [List.length_eq_zero_iff.mp hl]; exact List.Perm.refl _
  | n + 1, [], hl, _ => by simp at hl
  | n + 1, k :: rest, hl, hn => by
    have hl' : rest.length = n := by simpa using hl
    unfold pivotOrder
    dsimp only
    split_ifs with hm
    · exact List.Perm.cons _ (pivots_perm key n rest hl' (List.nodup_cons.mp hn).2)
    · have hmem : firstMax key k rest ∈ rest := (List.mem_cons.mp (foldl_mem key rest k)).resolve_left hm
      have hp := swap_perm hn hmem
      have hnd : (rest.map fun i => if i = firstMax key k rest then k else i).Nodup :=
        (List.nodup_cons.mp (hp.nodup_iff.mpr hn)).2
      exact (List.Perm.cons _ (pivots_perm key n _ (by simpa using hl') hnd)).trans hp

/-- The value a substitution gives each entry, in terms of the values it gives the others. -/
theorem substitute_gen (L : ι → ι → α) (b : ι → α) : ∀ (rest pre : List ι) (y : ι → α), (pre ++ rest).Nodup →
    (∀ i, i ∉ rest → substitute L b pre rest y i = y i) ∧
    ∀ (a : List ι) (k : ι) (c : List ι), rest = a ++ k :: c → substitute L b pre rest y k
      = b k - Scalar.sum ((pre ++ a).map fun j => L k j * substitute L b pre rest y j)
  | [], pre, y, _ => ⟨fun _ _ => rfl, fun a k c h => by simp at h⟩
  | k :: rest, pre, y, hn => by
    have hn' : ((pre ++ [k]) ++ rest).Nodup := by simpa using hn
    obtain ⟨h1, h2⟩ := substitute_gen L b rest (pre ++ [k])
      (Function.update y k (b k - Scalar.sum (pre.map fun j => L k j * y j))) hn'
    have hk : k ∉ rest := (List.nodup_cons.mp (List.nodup_append.mp hn).2.1).1
    have hpre : ∀ j ∈ pre, j ≠ k ∧ j ∉ rest := fun j hj =>
      ⟨fun h => (List.nodup_append.mp hn).2.2 j hj k (by simp) h, fun h => (List.nodup_append.mp hn).2.2 j hj j (by simp [h]) rfl⟩
    rw [substitute]
    set r := substitute L b (pre ++ [k]) rest (Function.update y k (b k - Scalar.sum (pre.map fun j => L k j * y j)))
    refine ⟨fun i hi => ?_, fun a k' c h => ?_⟩
    · rw [h1 i (fun h => hi (List.mem_cons_of_mem _ h)), Function.update_of_ne (fun h : i = k => hi (by rw [h]; exact List.mem_cons_self))]
    · cases a with
      | nil =>
        obtain ⟨rfl, rfl⟩ := List.cons.inj h
        rw [h1 k hk, Function.update_self, List.append_nil]
        congr 2
        refine List.map_congr_left fun j hj => ?_
        rw [h1 j (hpre j hj).2, Function.update_of_ne (hpre j hj).1]
      | cons x a =>
        obtain ⟨rfl, rfl⟩ := List.cons.inj h
        rw [h2 a k' c rfl]
        simp

/-- An entry as it was computed when the pivots in `pre` had been taken. -/
def entryAt (L : ι → ι → α) (D : ι → α) (H : ι → ι → α) (pre : List ι) (i k : ι) : α :=
  match pre with
  | [] => H i k
  | _ :: _ => H i k - Scalar.sum (pre.map fun j => L i j * (D j * L k j))

omit [DecidableEq ι] in
theorem entry_congr (f : Fact ι α) (H : ι → ι → α) (L : ι → ι → α) (D : ι → α) (i k : ι)
    (hL : ∀ j ∈ f.done, ∀ i, L i j = f.L i j) (hD : ∀ j ∈ f.done, D j = f.D j) :
    f.entry H i k = entryAt L D H f.done i k := by
  unfold Fact.entry entryAt
  cases h : f.done with
  | nil => rfl
  | cons x l =>
    dsimp only
    congr 2
    refine List.map_congr_left fun j hj => ?_
    rw [hL j (h ▸ hj), hL j (h ▸ hj), hD j (h ▸ hj)]

theorem steps_gen (H : ι → ι → α) : ∀ (rest : List ι) (f : Fact ι α), (f.done ++ rest).Nodup →
    (Fact.steps H rest f).done = f.done ++ rest ∧
    (∀ j, j ∉ rest → (∀ i, (Fact.steps H rest f).L i j = f.L i j) ∧ (Fact.steps H rest f).D j = f.D j) ∧
    ∀ (a : List ι) (k : ι) (c : List ι), rest = a ++ k :: c →
      (Fact.steps H rest f).D k
        = entryAt (Fact.steps H rest f).L (Fact.steps H rest f).D H (f.done ++ a) k k ∧
      (∀ i, (Fact.steps H rest f).L i k = if i ∈ c then
        (if 0 < Scalar.abs ((Fact.steps H rest f).D k) then
          entryAt (Fact.steps H rest f).L (Fact.steps H rest f).D H (f.done ++ a) i k / (Fact.steps H rest f).D k
        else entryAt (Fact.steps H rest f).L (Fact.steps H rest f).D H (f.done ++ a) i k) else f.L i k)
  | [], f, _ => ⟨by simp [Fact.steps], fun _ _ => ⟨fun _ => rfl, rfl⟩, fun a k c h => by simp at h⟩
  | k :: rs, f, hn => by
    have hdone : (f.step H k rs).done = f.done ++ [k] := rfl
    obtain ⟨h0, h1, h2⟩ := steps_gen H rs (f.step H k rs) (by rw [hdone]; simpa using hn)
    rw [Fact.steps]
    set g := Fact.steps H rs (f.step H k rs)
    have hk : k ∉ rs := (List.nodup_cons.mp (List.nodup_append.mp hn).2.1).1
    have hpre : ∀ j ∈ f.done, j ≠ k ∧ j ∉ rs := fun j hj =>
      ⟨fun h => (List.nodup_append.mp hn).2.2 j hj k (by simp) h, fun h => (List.nodup_append.mp hn).2.2 j hj j (by simp [h]) rfl⟩
    have keep : ∀ j, j ≠ k → j ∉ rs → (∀ i, g.L i j = f.L i j) ∧ g.D j = f.D j := fun j hjk hjr =>
      ⟨fun i => by rw [(h1 j hjr).1 i]; exact if_neg fun h => hjk h.1,
       by rw [(h1 j hjr).2]; exact Function.update_of_ne hjk _ _⟩
    have ent : ∀ i, f.entry H i k = entryAt g.L g.D H f.done i k := fun i =>
      entry_congr f H g.L g.D i k (fun j hj => (keep j (hpre j hj).1 (hpre j hj).2).1) (fun j hj => (keep j (hpre j hj).1 (hpre j hj).2).2)
    have hDk : g.D k = f.entry H k k := by rw [(h1 k hk).2]; exact Function.update_self _ _ _
    refine ⟨by rw [h0, hdone]; simp, fun j hj => ?_, fun a k' c h => ?_⟩
    · exact keep j (fun h => hj (by rw [h]; exact List.mem_cons_self)) fun h => hj (List.mem_cons_of_mem _ h)
    · cases a with
      | nil =>
        obtain ⟨rfl, rfl⟩ := List.cons.inj h
        rw [List.append_nil]
        refine ⟨by rw [hDk, ent], fun i => ?_⟩
        rw [(h1 k hk).1 i]
        show (if k = k ∧ i ∈ rs then (if decide (0 < Scalar.abs (f.entry H k k)) = true then f.entry H i k / f.entry H k k
          else f.entry H i k) else f.L i k) = _
        simp only [true_and, decide_eq_true_eq, hDk, ← ent]
      | cons x a =>
        obtain ⟨rfl, rfl⟩ := List.cons.inj h
        obtain ⟨e1, e2⟩ := h2 a k' c rfl
        rw [hdone, List.append_assoc, List.singleton_append] at e1 e2
        refine ⟨e1, fun i => ?_⟩
        rw [e2 i]
        have hk' : k' ≠ k := fun h => hk (by rw [← h]; simp)
        have : (f.step H k (a.append (k' :: c))).L i k' = f.L i k' := if_neg fun h => hk' h.1
        rw [this]

end Generic

end MiniOpt.LDLT

namespace MiniOpt.F64

open MiniOpt MiniOpt.Spec

/-! ## Errors of single operations -/

theorem div_err {x y : F64} (hy : Fin' y) (hy0 : fval y ≠ 0) (h : Fin' (div x y)) :
    Fin' x ∧ |fval (div x y) - fval x / fval y| ≤ unitRoundoff * |fval x / fval y| + underflow := by
  obtain ⟨t, b, rfl⟩ := isFinite_iff.mp hy
  cases x with
  | nan => simp [div, Fin', isFinite] at h
  | inf s => simp [div, Fin', isFinite] at h
  | fin s a =>
    refine ⟨rfl, ?_⟩
    have hb : b.1 ≠ 0 := by
      intro hb
      apply hy0
      show ((value t b : ℚ) : ℝ) = 0
      cases t <;> simp [value, hb]
    have hd : div (.fin s a) (.fin t b) = mk (s != t) (a.1 / b.1) := if_neg hb
    rw [hd] at h ⊢
    obtain ⟨w, m, hm⟩ := isFinite_iff.mp h
    rw [hm]
    obtain ⟨h1, h2, h3⟩ := mk_fin hm
    have he : fval (.fin s a) / fval (.fin t b) = ((value (s != t) ⟨a.1, a.2⟩ / b.1 : ℚ) : ℝ) := by
      show ((value s a : ℚ) : ℝ) / ((value t b : ℚ) : ℝ) = _
      cases s <;> cases t <;> simp [value, neg_div, div_neg]
    have hq : |value w m - value (s != t) a / b.1| ≤ |value (s != t) a / b.1| * pow2 (-53) + pow2 (-1075) := by
      have ha := mag_nonneg a
      have hb' := mag_nonneg b
      have e1 : |value w m - value (s != t) a / b.1| = |m.1 - a.1 / b.1| := by
        subst h1
        cases s <;> cases t <;> simp [value]
        all_goals rw [← abs_neg]; congr 1; ring
      have e2 : |value (s != t) a / b.1| = a.1 / b.1 := by
        cases s <;> cases t <;> simp [value, abs_div, abs_of_nonneg ha, abs_of_nonneg hb']
      rw [e1, e2]
      rcases eq_or_lt_of_le (div_nonneg ha hb') with h0 | h0
      · rw [← h0] at h3 ⊢
        have : m.1 = 0 := by rw [h3]; exact roundMag_zero
        rw [this]
        simp
        exact (pow2_pos _).le
      · have := roundMag_err h0
        rw [← h3] at this
        exact this.trans (max_le (le_add_of_nonneg_right (pow2_pos _).le)
          (le_add_of_nonneg_left (mul_nonneg h0.le (pow2_pos _).le)))
    rw [he]
    show |((value w m : ℚ) : ℝ) - _| ≤ _
    rw [← unit_rat, ← under_rat, _root_.mul_comm (pow2 (-53) : ℝ)]
    exact_mod_cast hq

theorem unit_small : unitRoundoff ≤ 1 / 4 := by unfold unitRoundoff; norm_num

/-- From an error relative to the exact value to one relative to the computed value. -/
theorem relative_back {a e c : ℝ} (hc : 0 ≤ c) (h : |a - e| ≤ unitRoundoff * |e| + c) :
    |a - e| ≤ ((1 + unitRoundoff) ^ 2 - 1) * |a| + (1 + unitRoundoff) ^ 2 * c := by
  have hu := unit_pos
  have hu4 := unit_small
  have h1 : |e| ≤ |a| + |a - e| := by
    have := abs_sub_abs_le_abs_sub e a
    rw [abs_sub_comm] at this
    linarith
  have h2 := mul_le_mul_of_nonneg_left h1 hu.le
  generalize |a - e| = d at *
  have ha : 0 ≤ |a| := abs_nonneg a
  generalize |a| = w at *
  generalize |e| = v at *
  generalize unitRoundoff = u at *
  have h3 : (1 - u) * d ≤ u * w + c := by linarith
  have h5 : 0 ≤ u * w * (1 - u - u ^ 2) := mul_nonneg (mul_nonneg hu.le ha) (by nlinarith)
  have h6 : 0 ≤ c * (u * (1 - u - u ^ 2)) := mul_nonneg hc (mul_nonneg hu.le (by nlinarith))
  refine le_of_mul_le_mul_left (h3.trans ?_) (show 0 < 1 - u by linarith)
  linarith

/-- A product of three numbers. -/
theorem triple_err {a d b : F64} (h : Fin' (mul a (mul d b))) :
    |fval (mul a (mul d b)) - fval a * (fval d * fval b)| ≤
      ((1 + unitRoundoff) ^ 2 - 1) * |fval a * (fval d * fval b)| + underflow * (1 + (1 + unitRoundoff) * |fval a|) := by
  have hi := (mul_finite h).2
  have e1 := mul_err h
  have e2 := mul_err hi
  have hu := unit_pos
  have hη := under_pos
  set p := fval (mul d b)
  have h1 : |p| ≤ |fval d * fval b| + |p - fval d * fval b| := by
    have := abs_sub_abs_le_abs_sub p (fval d * fval b)
    linarith
  have h2 : |fval a * p - fval a * (fval d * fval b)| = |fval a| * |p - fval d * fval b| := by
    rw [← mul_sub, abs_mul]
  have h3 := abs_sub_le (fval (mul a (mul d b))) (fval a * p) (fval a * (fval d * fval b))
  rw [h2] at h3
  rw [abs_mul] at e1
  rw [abs_mul (fval a) (fval d * fval b)]
  have ha := abs_nonneg (fval a)
  generalize |fval a| = A at *
  generalize |fval d * fval b| = B at *
  generalize |p - fval d * fval b| = q at *
  generalize |p| = P at *
  generalize unitRoundoff = u at *
  generalize underflow = η at *
  have h4 := mul_le_mul_of_nonneg_left e2 ha
  have h5 : u * (A * P) ≤ u * (A * (B + (u * B + η))) :=
    mul_le_mul_of_nonneg_left (mul_le_mul_of_nonneg_left (h1.trans (by linarith)) ha) hu.le
  nlinarith

end MiniOpt.F64

namespace MiniOpt

open MiniOpt.Spec MiniOpt.F64

variable {L : Libm} {ι : Type}

/-- A sum of terms with errors of their own. -/
theorem sum_terms (l : List ι) (t : ι → F64) {x : F64} (hs : AddedUp (l.map t) x) (h : Fin' x) (v c : ι → ℝ) (g : ℝ)
    (ht : ∀ j ∈ l, Fin' (t j) → |fval (t j) - v j| ≤ g * |v j| + c j) :
    (∀ j ∈ l, Fin' (t j)) ∧
    |fval x - (l.map v).sum| ≤
      ((1 + unitRoundoff) ^ l.length * (1 + g) - 1) * (l.map fun j => |v j|).sum + (1 + unitRoundoff) ^ l.length * (l.map c).sum := by
  have hfin := added_finite hs h
  have hf : ∀ j ∈ l, Fin' (t j) := fun j hj => hfin _ (List.mem_map.mpr ⟨j, hj, rfl⟩)
  refine ⟨hf, ?_⟩
  have hA := (added_approx hs h (n := 0) (l.map fun j => (fval (t j), |fval (t j)|, 0)) (by
    rw [List.forall₂_map_left_iff, List.forall₂_map_right_iff, List.forall₂_same]
    exact fun j hj => Approx.exact (hf j hj))).weaken (n' := l.length) (m' := 0) (by simp) (by simp [Function.comp_def])
  have e1 := hA.err
  simp only [List.map_map, Function.comp_def] at e1
  have hterm : (l.map fun j => |fval (t j) - v j|).sum ≤ g * (l.map fun j => |v j|).sum + (l.map c).sum := by
    rw [← List.sum_map_mul_left, ← List.sum_map_add]
    exact List.sum_le_sum fun j hj => ht j hj (hf j hj)
  have hsum : |(l.map fun j => fval (t j)).sum - (l.map v).sum| ≤ (l.map fun j => |fval (t j) - v j|).sum := by
    clear hterm e1 hA hfin hs h hf ht
    induction l with
    | nil => simp
    | cons x l ih =>
      simp only [List.map_cons, List.sum_cons]
      calc _ = |(fval (t x) - v x) + ((l.map fun j => fval (t j)).sum - (l.map v).sum)| := by ring_nf
        _ ≤ _ := (abs_add_le _ _).trans (by linarith)
  have habs : (l.map fun j => |fval (t j)|).sum ≤ (l.map fun j => |v j|).sum + (l.map fun j => |fval (t j) - v j|).sum := by
    rw [← List.sum_map_add]
    refine List.sum_le_sum fun j _ => ?_
    have := abs_sub_abs_le_abs_sub (fval (t j)) (v j)
    linarith
  have h3 := abs_sub_le (fval x) (l.map fun j => fval (t j)).sum (l.map v).sum
  have hW := grow_pos l.length
  unfold slop at e1
  have e1' : |fval x - (l.map fun j => fval (t j)).sum| ≤
      ((1 + unitRoundoff) ^ l.length - 1) * (l.map fun j => |fval (t j)|).sum := by
    refine e1.trans (le_of_eq ?_)
    push_cast
    ring
  generalize (1 + unitRoundoff) ^ l.length = W at *
  generalize (l.map fun j => |fval (t j) - v j|).sum = E at *
  have h4 := mul_le_mul_of_nonneg_left (habs.trans (add_le_add_right hterm _)) (sub_nonneg.mpr hW)
  generalize (l.map fun j => |fval (t j)|).sum = T at *
  generalize (l.map fun j => |v j|).sum = V at *
  nlinarith

theorem square_nonneg : 0 ≤ (1 + unitRoundoff) ^ 2 - 1 := sub_nonneg.mpr (grow_pos 2)

theorem back_combine {b y S s g r : ℝ} (h1 : |y - (b + -S)| ≤ g) (h2 : |S - s| ≤ r) : |b - y - s| ≤ g + r := by
  calc |b - y - s| = |(y - (b + -S)) * (-1) + (S - s)| := by ring_nf
    _ ≤ |(y - (b + -S)) * (-1)| + |S - s| := abs_add_le _ _
    _ = |y - (b + -S)| + |S - s| := by rw [abs_mul, abs_neg, abs_one, mul_one]
    _ ≤ _ := add_le_add h1 h2

/-- An entry of the factorisation. -/
theorem entry_err (hL : AddsUp L) (F : ι → ι → Dbl L) (D : ι → Dbl L) (H : ι → ι → Dbl L) (pre : List ι) (i k : ι)
    (h : IsFin (LDLT.entryAt F D H pre i k)) :
    |realVal (H i k) - realVal (LDLT.entryAt F D H pre i k)
        - (pre.map fun j => realVal (F i j) * (realVal (D j) * realVal (F k j))).sum| ≤
      ((1 + unitRoundoff) ^ 2 - 1) * |realVal (LDLT.entryAt F D H pre i k)|
      + ((1 + unitRoundoff) ^ (pre.length + 2) - 1) * (pre.map fun j => |realVal (F i j) * (realVal (D j) * realVal (F k j))|).sum
      + (1 + unitRoundoff) ^ pre.length * (pre.map fun j => underflow * (1 + (1 + unitRoundoff) * |realVal (F i j)|)).sum := by
  cases pre with
  | nil =>
    show |realVal (H i k) - realVal (H i k) - 0| ≤ _
    simp only [sub_self, abs_zero, List.map_nil, List.sum_nil, mul_zero, add_zero]
    exact mul_nonneg square_nonneg (abs_nonneg _)
  | cons x l =>
    set pre := x :: l with hpre
    have he : LDLT.entryAt F D H pre i k = F64.add (H i k) (F64.neg (L.sum (pre.map fun j => F64.mul (F i j) (F64.mul (D j) (F k j))))) := rfl
    simp only [realVal_eq]
    rw [he] at h ⊢
    obtain ⟨h1, h2⟩ := add_finite h
    have hS := (sum_terms pre _ (hL _) (neg_finite.mp h2) (fun j => fval (F i j) * (fval (D j) * fval (F k j)))
      (fun j => underflow * (1 + (1 + unitRoundoff) * |fval (F i j)|)) ((1 + unitRoundoff) ^ 2 - 1)
      (fun j _ hj => triple_err hj)).2
    rw [add_sub_cancel, ← pow_add] at hS
    have hA := relative_back (_root_.le_refl 0) (by rw [add_zero]; exact add_err h)
    rw [mul_zero, add_zero, fval_neg] at hA
    rw [add_assoc]
    exact back_combine hA hS

/-- An entry found by substitution. -/
theorem row_err (hL : AddsUp L) (F : ι → Dbl L) (b : Dbl L) (y : ι → Dbl L) (pre : List ι)
    (h : IsFin (b - Scalar.sum (pre.map fun j => F j * y j))) :
    (∀ j ∈ pre, IsFin (F j) ∧ IsFin (y j)) ∧ IsFin b ∧
    |realVal b - realVal (b - Scalar.sum (pre.map fun j => F j * y j)) - (pre.map fun j => realVal (F j) * realVal (y j)).sum| ≤
      ((1 + unitRoundoff) ^ 2 - 1) * |realVal (b - Scalar.sum (pre.map fun j => F j * y j))|
      + (((1 + unitRoundoff) ^ (pre.length + 1) - 1) * (pre.map fun j => |realVal (F j) * realVal (y j)|).sum
      + (1 + unitRoundoff) ^ pre.length * (pre.map fun _ => underflow).sum) := by
  have he : b - Scalar.sum (pre.map fun j => F j * y j) = F64.add b (F64.neg (L.sum (pre.map fun j => F64.mul (F j) (y j)))) := rfl
  simp only [realVal_eq]
  rw [he] at h ⊢
  obtain ⟨h1, h2⟩ := add_finite h
  obtain ⟨hf, hS⟩ := sum_terms pre _ (hL _) (neg_finite.mp h2) (fun j => fval (F j) * fval (y j))
    (fun j => underflow) unitRoundoff (fun j _ hj => mul_err hj)
  rw [← pow_succ] at hS
  have hA := relative_back (_root_.le_refl 0) (by rw [add_zero]; exact add_err h)
  rw [mul_zero, add_zero, fval_neg] at hA
  exact ⟨fun j hj => mul_finite (hf j hj), h1, back_combine hA hS⟩

end MiniOpt
