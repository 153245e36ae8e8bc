import Verif.Lemmas.LDLTDouble
import Mathlib.Algebra.BigOperators.Field

/-!
# Rounding errors of the factorisation: putting the entries together
-/

set_option autoImplicit false

namespace MiniOpt.LDLT

open MiniOpt MiniOpt.Spec MiniOpt.F64

variable {L : Libm} {ι : Type} [DecidableEq ι] [Fintype ι]

/-- The entries of a factorisation all of whose pivots are nonzero. -/
structure Computed (f : Fact ι (Dbl L)) (H : ι → ι → Dbl L) : Prop where
  nodup : f.done.Nodup
  all : ∀ i, i ∈ f.done
  pivot : ∀ (a : List ι) (k : ι) (c : List ι), f.done = a ++ k :: c → f.D k = entryAt f.L f.D H a k k
  lower : ∀ (a : List ι) (k : ι) (c : List ι), f.done = a ++ k :: c → ∀ i ∈ c, f.L i k = entryAt f.L f.D H a i k / f.D k
  upper : ∀ (a : List ι) (k : ι) (c : List ι), f.done = a ++ k :: c → ∀ i, i ∉ c → f.L i k = 0

omit [Fintype ι] in
theorem computed (H : ι → ι → Dbl L) {rows : List ι} (hn : rows.Nodup) (hall : ∀ i, i ∈ rows)
    (hD : ∀ i, 0 < Scalar.abs ((factorize H rows).D i)) : Computed (factorize H rows) H := by
  have hp := pivots_perm (fun i => Scalar.abs (H i i)) rows.length rows rfl hn
  unfold factorize at hD ⊢
  dsimp only at hD ⊢
  cases ho : pivotOrder (fun i => Scalar.abs (H i i)) rows.length rows with
  | nil =>
    rw [ho] at hp
    have hr : ∀ i : ι, False := fun i => by
      have := hp.mem_iff.mpr (hall i)
      simp at this
    exact ⟨List.nodup_nil, fun i => (hr i).elim, fun _ k => (hr k).elim, fun _ k => (hr k).elim, fun _ k => (hr k).elim⟩
  | cons k rs =>
    rw [ho] at hp hD
    dsimp only at hD ⊢
    split_ifs at hD ⊢ with hk
    · obtain ⟨h0, -, h2⟩ := steps_gen H (k :: rs) ⟨[], fun _ _ => 0, fun _ => 0, false, true⟩
        (by simpa using hp.nodup_iff.mpr hn)
      set g := Fact.steps H (k :: rs) ⟨[], fun _ _ => 0, fun _ => 0, false, true⟩
      simp only [List.nil_append] at h0 h2
      refine ⟨by rw [h0]; exact hp.nodup_iff.mpr hn, fun i => by rw [h0]; exact hp.mem_iff.mpr (hall i), ?_, ?_, ?_⟩
      · intro a j c h
        exact (h2 a j c (h0 ▸ h)).1
      · intro a j c h i hi
        rw [(h2 a j c (h0 ▸ h)).2 i, if_pos hi, if_pos (hD j)]
      · intro a j c h i hi
        rw [(h2 a j c (h0 ▸ h)).2 i, if_neg hi]
    · exact absurd (hD k) hk

theorem real_zero : realVal (0 : Dbl L) = 0 := by
  rw [realVal_eq]; exact fval_zero false

variable {f : Fact ι (Dbl L)} {H : ι → ι → Dbl L}

theorem Computed.length (hc : Computed f H) : f.done.length = Fintype.card ι := by
  rw [← List.toFinset_card_of_nodup hc.nodup, ← Finset.card_univ]
  congr 1
  ext i
  simp [hc.all i]

theorem Computed.sum (hc : Computed f H) (g : ι → ℝ) : ∑ i, g i = (f.done.map g).sum := by
  rw [← List.sum_toFinset g hc.nodup]
  congr 1
  ext i
  simp [hc.all i]

omit [Fintype ι] in
theorem Computed.after (hc : Computed f H) {a c : List ι} {k : ι} (h : f.done = a ++ k :: c) :
    (∀ j ∈ a, j ≠ k ∧ j ∉ c) ∧ (∀ j ∈ c, j ≠ k ∧ j ∉ a) := by
  have hn := hc.nodup
  rw [h, List.nodup_append] at hn
  obtain ⟨-, h2, h3⟩ := hn
  refine ⟨fun j hj => ⟨h3 j hj k (by simp), fun hjc => h3 j hj j (by simp [hjc]) rfl⟩, fun j hj => ⟨?_, fun hja => h3 j hja j (by simp [hj]) rfl⟩⟩
  rintro rfl
  exact (List.nodup_cons.mp h2).1 hj

theorem Computed.row (hc : Computed f H) {a c : List ι} {k : ι} (h : f.done = a ++ k :: c) (φ : ℝ → ι → ℝ) (h0 : ∀ j, φ 0 j = 0) :
    ∑ j, φ (lowerEntry f k j) j = (a.map fun j => φ (realVal (f.L k j)) j).sum + φ 1 k := by
  obtain ⟨ha, hcc⟩ := hc.after h
  rw [hc.sum, h, List.map_append, List.sum_append, List.map_cons, List.sum_cons]
  have e1 : (a.map fun j => φ (lowerEntry f k j) j) = a.map fun j => φ (realVal (f.L k j)) j :=
    List.map_congr_left fun j hj => by rw [lowerEntry, if_neg (ha j hj).1.symm]
  have e2 : (c.map fun j => φ (lowerEntry f k j) j).sum = 0 := by
    refine List.sum_eq_zero fun v hv => ?_
    obtain ⟨j, hj, rfl⟩ := List.mem_map.mp hv
    obtain ⟨c1, c2, rfl⟩ := List.append_of_mem hj
    have hk : k ∉ c2 := fun hk => (hcc k (by simp [hk])).1 rfl
    rw [lowerEntry, if_neg (hcc j hj).1.symm, hc.upper (a ++ k :: c1) j c2 (by rw [h]; simp) k hk, real_zero, h0]
  rw [e1, e2, lowerEntry, if_pos rfl, add_zero]

theorem Computed.col (hc : Computed f H) {a c : List ι} {k : ι} (h : f.done = a ++ k :: c) (φ : ℝ → ι → ℝ) (h0 : ∀ j, φ 0 j = 0) :
    ∑ j, φ (lowerEntry f j k) j = (c.reverse.map fun j => φ (realVal (f.L j k)) j).sum + φ 1 k := by
  obtain ⟨ha, hcc⟩ := hc.after h
  rw [hc.sum, h, List.map_append, List.sum_append, List.map_cons, List.sum_cons, List.map_reverse, List.sum_reverse]
  have e1 : (c.map fun j => φ (lowerEntry f j k) j) = c.map fun j => φ (realVal (f.L j k)) j :=
    List.map_congr_left fun j hj => by rw [lowerEntry, if_neg (hcc j hj).1]
  have e2 : (a.map fun j => φ (lowerEntry f j k) j).sum = 0 := by
    refine List.sum_eq_zero fun v hv => ?_
    obtain ⟨j, hj, rfl⟩ := List.mem_map.mp hv
    rw [lowerEntry, if_neg (ha j hj).1, hc.upper a k c h j (ha j hj).2, real_zero, h0]
  rw [e1, e2, lowerEntry, if_pos rfl, zero_add, _root_.add_comm]

theorem grow_mono {m n : Nat} (h : m ≤ n) : (1 + unitRoundoff) ^ m ≤ (1 + unitRoundoff) ^ n :=
  pow_le_pow_right₀ (by linarith [unit_pos]) h

/-- The bound for an entry on or below the diagonal. -/
theorem Computed.below (hc : Computed f H) (hL : AddsUp L) (hfin : ∀ i, IsFin (f.D i)) (h0 : ∀ i, realVal (f.D i) ≠ 0)
    (hlow : ∀ i j, IsFin (f.L i j)) {a c : List ι} {k : ι} (h : f.done = a ++ k :: c) (i : ι) (hi : i ∈ k :: c) :
    |realVal (H i k) - factorProduct f i k| ≤ (ldltGrowth ι - 1) * factorMagnitude f i k + factorUnderflow f i k := by
  have hu := unit_pos
  have hη := under_pos
  obtain ⟨ha, hcc⟩ := hc.after h
  have hia : ∀ l ∈ a, i ≠ l := fun l hl hil => by
    subst hil
    rcases List.mem_cons.mp hi with h' | h'
    · exact (ha i hl).1 h'
    · exact (ha i hl).2 h'
  have hlen : a.length + 1 ≤ Fintype.card ι := by
    rw [← hc.length, h]; simp
  have eP : factorProduct f i k = (a.map fun l => realVal (f.L i l) * (realVal (f.D l) * realVal (f.L k l))).sum
      + lowerEntry f i k * realVal (f.D k) := by
    unfold factorProduct
    rw [hc.row h (fun v l => lowerEntry f i l * (realVal (f.D l) * v)) (by simp)]
    congr 1
    · congr 1
      refine List.map_congr_left fun l hl => ?_
      rw [lowerEntry, if_neg (hia l hl)]
    · ring
  have eM : factorMagnitude f i k = (a.map fun l => |realVal (f.L i l) * (realVal (f.D l) * realVal (f.L k l))|).sum
      + |lowerEntry f i k * realVal (f.D k)| := by
    unfold factorMagnitude
    rw [hc.row h (fun v l => |lowerEntry f i l| * (|realVal (f.D l)| * |v|)) (by simp)]
    congr 1
    · congr 1
      refine List.map_congr_left fun l hl => ?_
      rw [lowerEntry, if_neg (hia l hl), abs_mul, abs_mul]
    · rw [abs_mul, abs_one, mul_one]
  -- the entry and the product of the factors
  have key : |realVal (H i k) - lowerEntry f i k * realVal (f.D k)
        - (a.map fun l => realVal (f.L i l) * (realVal (f.D l) * realVal (f.L k l))).sum| ≤
      ((1 + unitRoundoff) ^ 4 - 1) * |lowerEntry f i k * realVal (f.D k)| + (1 + unitRoundoff) ^ 4 * underflow * |realVal (f.D k)|
      + (((1 + unitRoundoff) ^ (a.length + 2) - 1) * (a.map fun l => |realVal (f.L i l) * (realVal (f.D l) * realVal (f.L k l))|).sum
      + (1 + unitRoundoff) ^ a.length * (a.map fun l => underflow * (1 + (1 + unitRoundoff) * |realVal (f.L i l)|)).sum) := by
    have h24 := grow_mono (show 2 ≤ 4 by norm_num)
    rcases List.mem_cons.mp hi with rfl | hic
    · have hp := hc.pivot a i c h
      have hE := entry_err hL f.L f.D H a i i (by rw [← hp]; exact hfin i)
      rw [← hp] at hE
      rw [lowerEntry, if_pos rfl, _root_.one_mul]
      rw [add_assoc] at hE
      refine hE.trans (add_le_add ?_ le_rfl)
      have := mul_le_mul_of_nonneg_right h24 (abs_nonneg (realVal (f.D i)))
      have : 0 ≤ (1 + unitRoundoff) ^ 4 * underflow * |realVal (f.D i)| := by positivity
      linarith
    · have hl := hc.lower a k c h i hic
      have hq : Fin' (F64.div (entryAt f.L f.D H a i k : Dbl L) (f.D k)) := by
        have := hlow i k
        rw [hl] at this
        exact this
      have hd0 : fval (f.D k) ≠ 0 := by rw [← realVal_eq]; exact h0 k
      obtain ⟨he, hdiv⟩ := div_err (hfin k) hd0 hq
      have hE := entry_err hL f.L f.D H a i k he
      have hq2 := relative_back hη.le hdiv
      have hv : lowerEntry f i k = fval (F64.div (entryAt f.L f.D H a i k : Dbl L) (f.D k)) := by
        rw [lowerEntry, if_neg (hcc i hic).1, hl, realVal_eq]; rfl
      rw [← hv, ← realVal_eq, ← realVal_eq] at hq2
      set q := lowerEntry f i k
      set e := realVal (entryAt f.L f.D H a i k)
      set d := realVal (f.D k)
      have hd : d ≠ 0 := h0 k
      have h1 : |q * d - e| ≤ ((1 + unitRoundoff) ^ 2 - 1) * |q * d| + (1 + unitRoundoff) ^ 2 * underflow * |d| := by
        have : q * d - e = (q - e / d) * d := by field_simp
        rw [this, abs_mul, abs_mul]
        have := mul_le_mul_of_nonneg_right hq2 (abs_nonneg d)
        linarith
      have h2 : |e| ≤ |q * d| + |q * d - e| := by
        have := abs_sub_abs_le_abs_sub e (q * d)
        rw [abs_sub_comm] at this
        linarith
      have h3 := mul_le_mul_of_nonneg_left (h2.trans (add_le_add_right h1 _)) square_nonneg
      set S := (a.map fun l => realVal (f.L i l) * (realVal (f.D l) * realVal (f.L k l))).sum
      have h4 : |realVal (H i k) - q * d - S| ≤ |realVal (H i k) - e - S| + |q * d - e| := by
        have := abs_sub_le (realVal (H i k) - q * d - S) (realVal (H i k) - e - S) 0
        rw [sub_zero, sub_zero, show realVal (H i k) - q * d - S - (realVal (H i k) - e - S) = -(q * d - e) by ring, abs_neg] at this
        linarith
      refine h4.trans ((add_le_add hE h1).trans ?_)
      have e4 : (1 + unitRoundoff) ^ 4 = (1 + unitRoundoff) ^ 2 * (1 + unitRoundoff) ^ 2 := by rw [← pow_add]
      rw [e4]
      generalize (1 + unitRoundoff) ^ 2 = w at *
      linarith
  have hb : |realVal (H i k) - factorProduct f i k| = |realVal (H i k) - lowerEntry f i k * realVal (f.D k)
        - (a.map fun l => realVal (f.L i l) * (realVal (f.D l) * realVal (f.L k l))).sum| := by
    rw [eP]; congr 1; ring
  rw [hb, eM]
  refine key.trans ?_
  have w4 : (1 + unitRoundoff) ^ 4 ≤ ldltGrowth ι := grow_mono (by omega)
  have wl : (1 + unitRoundoff) ^ (a.length + 2) ≤ ldltGrowth ι := grow_mono (by omega)
  have wu : (1 + unitRoundoff) ^ a.length * (1 + unitRoundoff) ≤ ldltGrowth ι := by
    rw [← pow_succ]; exact grow_mono (by omega)
  have hA : 0 ≤ (a.map fun l => |realVal (f.L i l) * (realVal (f.D l) * realVal (f.L k l))|).sum :=
    List.sum_nonneg fun v hv => by obtain ⟨l, _, rfl⟩ := List.mem_map.mp hv; exact abs_nonneg _
  have hB : (1 + unitRoundoff) ^ a.length * (a.map fun l => underflow * (1 + (1 + unitRoundoff) * |realVal (f.L i l)|)).sum ≤
      ldltGrowth ι * underflow * (Fintype.card ι + ∑ l, |lowerEntry f i l|) := by
    have e1 : (a.map fun l => underflow * (1 + (1 + unitRoundoff) * |realVal (f.L i l)|)).sum
        = underflow * (a.length + (1 + unitRoundoff) * (a.map fun l => |realVal (f.L i l)|).sum) := by
      rw [← List.sum_map_mul_left, List.sum_map_mul_left, List.sum_map_add]
      simp
    have e2 : (a.map fun l => |realVal (f.L i l)|).sum ≤ ∑ l, |lowerEntry f i l| := by
      rw [hc.sum, h, List.map_append, List.sum_append]
      have : (a.map fun l => |lowerEntry f i l|) = a.map fun l => |realVal (f.L i l)| :=
        List.map_congr_left fun l hl => by rw [lowerEntry, if_neg (hia l hl)]
      rw [this]
      have : 0 ≤ ((k :: c).map fun l => |lowerEntry f i l|).sum :=
        List.sum_nonneg fun v hv => by obtain ⟨l, _, rfl⟩ := List.mem_map.mp hv; exact abs_nonneg _
      linarith
    have e3 : (a.length : ℝ) ≤ Fintype.card ι := Nat.cast_le.mpr (by omega)
    have h2 : 0 ≤ (a.map fun l => |realVal (f.L i l)|).sum :=
      List.sum_nonneg fun v hv => by obtain ⟨l, _, rfl⟩ := List.mem_map.mp hv; exact abs_nonneg _
    rw [e1]
    have h3 : 0 ≤ (1 + unitRoundoff) ^ a.length := by positivity
    have h4 : (1 + unitRoundoff) ^ a.length ≤ ldltGrowth ι := grow_mono (by omega)
    calc _ = underflow * ((1 + unitRoundoff) ^ a.length * a.length
          + ((1 + unitRoundoff) ^ a.length * (1 + unitRoundoff)) * (a.map fun l => |realVal (f.L i l)|).sum) := by ring
      _ ≤ underflow * (ldltGrowth ι * Fintype.card ι + ldltGrowth ι * ∑ l, |lowerEntry f i l|) :=
        mul_le_mul_of_nonneg_left (add_le_add (mul_le_mul h4 e3 (Nat.cast_nonneg _) (h3.trans h4))
          (mul_le_mul wu e2 h2 (h3.trans h4))) hη.le
      _ = _ := by ring
  have hF : (1 + unitRoundoff) ^ 4 * underflow * |realVal (f.D k)| + ldltGrowth ι * underflow * (Fintype.card ι + ∑ l, |lowerEntry f i l|)
      ≤ factorUnderflow f i k := by
    unfold factorUnderflow
    have h1 : (1 + unitRoundoff) ^ 4 * underflow * |realVal (f.D k)| ≤ ldltGrowth ι * underflow * |realVal (f.D k)| :=
      mul_le_mul_of_nonneg_right (mul_le_mul_of_nonneg_right w4 hη.le) (abs_nonneg _)
    have h2 : 0 ≤ ldltGrowth ι * underflow := mul_nonneg ((by positivity : (0 : ℝ) ≤ (1 + unitRoundoff) ^ 4).trans w4) hη.le
    have h3 : 0 ≤ ldltGrowth ι * underflow * (∑ l, |lowerEntry f k l| + |realVal (f.D i)|) :=
      mul_nonneg h2 (add_nonneg (Finset.sum_nonneg fun l _ => abs_nonneg _) (abs_nonneg _))
    rw [Finset.sum_add_distrib]
    generalize ldltGrowth ι * underflow = w at *
    linarith
  have g1 := mul_le_mul_of_nonneg_right w4 (abs_nonneg (lowerEntry f i k * realVal (f.D k)))
  have g2 := mul_le_mul_of_nonneg_right wl hA
  generalize ldltGrowth ι = w at *
  linarith

theorem factorProduct_symm (f : Fact ι (Dbl L)) (i j : ι) : factorProduct f i j = factorProduct f j i := by
  unfold factorProduct
  exact Finset.sum_congr rfl fun l _ => by ring

theorem factorMagnitude_symm (f : Fact ι (Dbl L)) (i j : ι) : factorMagnitude f i j = factorMagnitude f j i := by
  unfold factorMagnitude
  exact Finset.sum_congr rfl fun l _ => by ring

theorem factorUnderflow_symm (f : Fact ι (Dbl L)) (i j : ι) : factorUnderflow f i j = factorUnderflow f j i := by
  unfold factorUnderflow
  rw [Finset.sum_congr rfl fun l _ => _root_.add_comm |lowerEntry f i l| _, _root_.add_comm |realVal (f.D i)|]

/-- The bound for every entry. -/
theorem Computed.entries (hc : Computed f H) (hL : AddsUp L) (hfin : ∀ i, IsFin (f.D i)) (h0 : ∀ i, realVal (f.D i) ≠ 0)
    (hlow : ∀ i j, IsFin (f.L i j)) (hs : ∀ i j, H i j = H j i) (i k : ι) :
    |realVal (H i k) - factorProduct f i k| ≤ (ldltGrowth ι - 1) * factorMagnitude f i k + factorUnderflow f i k := by
  obtain ⟨a, c, h⟩ := List.append_of_mem (hc.all k)
  have hi := hc.all i
  rw [h] at hi
  rcases List.mem_append.mp hi with hi | hi
  · obtain ⟨a1, a2, rfl⟩ := List.append_of_mem hi
    rw [hs, factorProduct_symm, factorMagnitude_symm, factorUnderflow_symm]
    exact hc.below hL hfin h0 hlow (a := a1) (c := a2 ++ k :: c) (by rw [h]; simp) k (by simp)
  · exact hc.below hL hfin h0 hlow h i hi

end MiniOpt.LDLT
